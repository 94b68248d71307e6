import Verif.Props.C66
/-!
# C90: an archive that ends too early is reported
-/

namespace Lha

open Spec

/-- What is left of an entry if the archive ends inside its header: at least one byte, not all of them.  Missing bytes count as zero in the sum of the
header, so the missing bytes beyond the first 21 must not add up to a multiple of 256. -/
def CutHeader (e : Entry) (Y : List Nat) : Prop :=
  ∃ k, 1 ≤ k ∧ k < e.header.length ∧ (k ≤ 21 ∨ (e.header.drop k).sum % 256 ≠ 0) ∧ Y = e.header.take k

theorem Entry.header_length (e : Entry) (ho : e.Ok) : e.header.length = e.name.length + 36 := by
  unfold Entry.header Entry.body
  simp [ho.method, le]
  omega

theorem Entry.header_zero (e : Entry) (ho : e.Ok) : e.header.getD 0 0 = e.name.length + 34 := by
  have h := Entry.header_length e ho
  unfold Entry.header at *
  simp only [List.length_cons] at h
  simp only [List.getD_cons_zero]
  omega

theorem Entry.header_level (e : Entry) (ho : e.Ok) : e.header.getD 20 0 = 0 := by
  obtain ⟨a, b, c, d, g, hm⟩ : ∃ a b c d g, e.method = [a, b, c, d, g] := by
    have := ho.method
    match h : e.method, this with
    | [a, b, c, d, g], _ => exact ⟨a, b, c, d, g, rfl⟩
  unfold Entry.header Entry.body
  rw [hm]
  simp [le]

theorem Entry.header_namelen (e : Entry) (ho : e.Ok) : e.header.getD 21 0 = e.name.length := by
  obtain ⟨a, b, c, d, g, hm⟩ : ∃ a b c d g, e.method = [a, b, c, d, g] := by
    have := ho.method
    match h : e.method, this with
    | [a, b, c, d, g], _ => exact ⟨a, b, c, d, g, rfl⟩
  unfold Entry.header Entry.body
  rw [hm]
  simp [le]

theorem getD_take_lt {l : List Nat} {k i : Nat} (h : i < k) : (l.take k).getD i 0 = l.getD i 0 := by
  simp [List.getD, List.getElem?_take, h]

theorem sum_take_drop (l : List Nat) (k : Nat) : (l.take k).sum + (l.drop k).sum = l.sum := by
  conv_rhs => rw [← List.take_append_drop k l]
  rw [List.sum_append]

theorem getByte_ok (d : List Nat) {p : Nat} (hp : p < 4096) : getByte d p = .ok (d.getD p 0) := by
  unfold getByte; rw [if_pos hp]

theorem getWord_ok (d : List Nat) {p : Nat} (hp : p + 1 < 4096) : ∃ v, getWord d p = .ok v := by
  unfold getWord
  rw [getByte_ok d (by omega), ok_bind, getByte_ok d hp, ok_bind]
  exact ⟨_, rfl⟩

theorem getLong_ok (d : List Nat) {p : Nat} (hp : p + 3 < 4096) : ∃ v, getLong d p = .ok v := by
  unfold getLong
  rw [getByte_ok d (by omega), ok_bind, getByte_ok d (by omega), ok_bind, getByte_ok d (by omega), ok_bind, getByte_ok d hp, ok_bind]
  exact ⟨_, rfl⟩

theorem getMany_ok (d : List Nat) (n : Nat) : ∀ p, p + n ≤ 4096 → ∃ l, getMany d p n = .ok l ∧ l.length = n := by
  induction n with
  | zero => intro p _; exact ⟨[], rfl, rfl⟩
  | succ n ih =>
    intro p hp
    obtain ⟨l, h1, h2⟩ := ih (p + 1) (by omega)
    unfold getMany
    rw [getByte_ok d (by omega), ok_bind, h1, ok_bind]
    exact ⟨_, rfl, by simp [h2]⟩

/-- A header with a name that fits is parsed without a panic, whatever it says. -/
theorem parseLevel0_total (h : Hdr) (hs : Nat) (d : List Nat) (hn : d.getD 21 0 < h.name.length) (h1 : d.getD 21 0 < 256) :
    ∃ r, parseLevel0 h hs d = .ok r := by
  unfold parseLevel0
  obtain ⟨m, e1, _⟩ := getMany_ok d (min 5 h.method.length) 2 (by omega)
  obtain ⟨v1, e2⟩ := getLong_ok d (p := 7) (by omega)
  obtain ⟨v2, e3⟩ := getLong_ok d (p := 11) (by omega)
  obtain ⟨v3, e4⟩ := getLong_ok d (p := 15) (by omega)
  generalize hnl : d.getD 21 0 = nl at *
  have hmin : min (nl + 1) h.name.length = nl + 1 := by omega
  obtain ⟨nm, e5, l5⟩ := getMany_ok d (nl + 1) 22 (by omega)
  unfold getBytes
  rw [e1, ok_bind, ok_bind]
  simp only []
  rw [e2, ok_bind, e3, ok_bind, e4, ok_bind, getByte_ok d (by omega), ok_bind, getByte_ok d (by omega), ok_bind, getByte_ok d (by omega), ok_bind, hnl,
    hmin, e5, ok_bind, ok_bind]
  simp only []
  unfold zeroAt
  rw [if_neg (by simp [l5]), ok_bind]
  split
  · split <;> exact ⟨_, rfl⟩
  · obtain ⟨v4, e6⟩ := getWord_ok d (p := 22 + (nl + 1) - 1) (by omega)
    rw [e6, ok_bind]
    split
    · exact ⟨_, rfl⟩
    · rw [getByte_ok d (by omega), ok_bind]
      split
      · split
        · obtain ⟨v5, e7⟩ := getLong_ok d (p := 22 + (nl + 1) - 1 + 4) (by omega)
          obtain ⟨v6, e8⟩ := getWord_ok d (p := 22 + (nl + 1) - 1 + 8) (by omega)
          obtain ⟨v7, e9⟩ := getWord_ok d (p := 22 + (nl + 1) - 1 + 10) (by omega)
          obtain ⟨v8, e10⟩ := getWord_ok d (p := 22 + (nl + 1) - 1 + 12) (by omega)
          rw [getByte_ok d (by omega), ok_bind, e7, ok_bind, e8, ok_bind, e9, ok_bind, e10, ok_bind]
          exact ⟨_, rfl⟩
        · exact ⟨_, rfl⟩
      · exact ⟨_, rfl⟩

/-- With at most 21 bytes a header is refused. -/
theorem cut_short (f : Fmt) (tab : Arr) (e : Entry) (ho : e.Ok) (r : Hdr) {k : Nat} (h1 : 1 ≤ k) (h2 : k ≤ 21) :
    getHeader f tab r (e.header.take k) = .ok .bad := by
  have hl := Entry.header_length e ho
  have hz := Entry.header_zero e ho
  have hlv := Entry.header_level e ho
  generalize hH : e.header = H at *
  match H, hl with
  | b :: B, hl =>
    simp only [List.getD_cons_zero] at hz
    obtain ⟨k, rfl⟩ : ∃ j, k = j + 1 := ⟨k - 1, by omega⟩
    rw [List.take_succ_cons]
    by_cases hk : k = 0
    · subst hk
      unfold getHeader
      simp only [List.take_zero]
      rw [if_neg (by omega)]
      rfl
    · have hlB : B.length = e.name.length + 35 := by simpa using hl
      have hlen : (B.take k).length = k := by rw [List.length_take]; omega
      rw [getHeader_cons f tab r b _ (by omega) (by intro hc; rw [hc] at hlen; simp at hlen; omega)]
      have t1 : (B.take k).take 20 = B.take k := List.take_of_length_le (by omega)
      have t2 : (B.take k).drop 20 = [] := List.drop_of_length_le (by omega)
      rw [t1, t2, hlen]
      have hL : (b :: B.take k ++ List.replicate (20 - k) 0).getD 20 0 = 0 := by
        by_cases hk20 : k = 20
        · subst hk20
          simp only [Nat.sub_self, List.replicate_zero, List.append_nil]
          simp only [List.getD_cons_succ] at hlv ⊢
          rw [getD_take_lt (by omega)]
          exact hlv
        · rw [List.getD_append_right _ _ _ _ (by simp [hlen]; omega)]
          simp only [List.getD, List.getElem?_replicate]
          split <;> rfl
      unfold byLevel
      rw [hL]
      simp only []
      unfold getLevel0
      rw [getByte_ok _ (by omega), ok_bind, getByte_ok _ (by omega), ok_bind]
      have h0 : (b :: B.take k ++ List.replicate (20 - k) 0).getD 0 0 = b := rfl
      rw [h0, if_neg (by omega)]
      unfold readF
      rw [if_pos ⟨by omega, rfl⟩]
      rfl

/-- A header that ends too early is refused or taken for one with nothing behind it. -/
theorem cut_header (f : Fmt) (tab : Arr) (e : Entry) (ho : e.Ok) (r : Hdr) (hn : e.name.length < r.name.length) {k : Nat} (h1 : 1 ≤ k)
    (h2 : k < e.header.length) :
    getHeader f tab r (e.header.take k) = .ok .bad ∨ ∃ g, getHeader f tab r (e.header.take k) = .ok (.got g []) := by
  rcases Nat.lt_or_ge 21 k with hk | hk
  swap
  · exact Or.inl (cut_short f tab e ho r h1 hk)
  have hl := Entry.header_length e ho
  have hz := Entry.header_zero e ho
  have hlv := Entry.header_level e ho
  have hnl := Entry.header_namelen e ho
  have hnm := ho.name
  generalize hH : e.header = H at *
  match H, hl with
  | b :: B, hl =>
    simp only [List.getD_cons_zero] at hz
    obtain ⟨k, rfl⟩ : ∃ j, k = j + 1 := ⟨k - 1, by omega⟩
    rw [List.take_succ_cons]
    have hlB : B.length = e.name.length + 35 := by simpa using hl
    have hlen : (B.take k).length = k := by rw [List.length_take]; omega
    rw [getHeader_cons f tab r b _ (by omega) (by intro hc; rw [hc] at hlen; simp at hlen; omega)]
    have t1 : (B.take k).take 20 = B.take 20 := by rw [List.take_take, Nat.min_eq_left (by omega)]
    have t3 : (B.take 20).length = 20 := by rw [List.length_take]; omega
    rw [t1, t3, Nat.sub_self, List.replicate_zero, List.append_nil]
    have hL : (b :: B.take 20).getD 20 0 = 0 := by
      simp only [List.getD_cons_succ] at hlv ⊢
      rw [getD_take_lt (by omega)]
      exact hlv
    unfold byLevel
    rw [hL]
    simp only []
    unfold getLevel0
    rw [getByte_ok _ (by omega), ok_bind, getByte_ok _ (by omega), ok_bind]
    have h0 : (b :: B.take 20).getD 0 0 = b := rfl
    rw [h0, if_neg (by omega)]
    have hrd : readF (b + 2 - 21) ((B.take k).drop 20) = some ((B.take k).drop 20, []) := by
      have hne : (B.take k).drop 20 ≠ [] := by
        intro hc
        have := congrArg List.length hc
        rw [List.length_drop, hlen] at this
        simp at this; omega
      unfold readF
      have hle : ((B.take k).drop 20).length ≤ b + 2 - 21 := by rw [List.length_drop, hlen]; omega
      rw [if_neg (by simp [hne]), List.take_of_length_le hle, List.drop_of_length_le hle]
    rw [hrd]
    simp only []
    have hd : b :: B.take 20 ++ (B.take k).drop 20 = b :: B.take k := by
      rw [List.cons_append, ← t1, List.take_append_drop]
    rw [hd]
    split
    · exact Or.inl rfl
    · have h21 : (b :: B.take k).getD 21 0 = e.name.length := by
        rw [← hnl]
        simp only [List.getD_cons_succ]
        rw [getD_take_lt (by omega)]
      obtain ⟨x, hx⟩ := parseLevel0_total r b (b :: B.take k) (by rw [h21]; exact hn) (by rw [h21]; omega)
      rw [hx, ok_bind]
      cases x with
      | none => exact Or.inl rfl
      | some g =>
        simp only [ok_bind]
        unfold finishHdr
        simp only []
        split
        · split
          · exact Or.inr ⟨_, rfl⟩
          · exact Or.inl rfl
        · exact Or.inr ⟨_, rfl⟩

/-- It is refused if the sum of the bytes shows it. -/
theorem CutHeader.bad (f : Fmt) (tab : Arr) {e : Entry} (ho : e.Ok) (r : Hdr) {Y : List Nat} (h : CutHeader e Y) : getHeader f tab r Y = .ok .bad := by
  obtain ⟨k, h1, h2, h3, rfl⟩ := h
  rcases Nat.lt_or_ge 21 k with hk | hk
  swap
  · exact cut_short f tab e ho r h1 hk
  have h3 := h3.resolve_left (by omega)
  have hl := Entry.header_length e ho
  have hz := Entry.header_zero e ho
  have hlv := Entry.header_level e ho
  have e0 : (e.header.take k).getD 0 0 = e.name.length + 34 := by rw [getD_take_lt (by omega), hz]
  have e20 : (e.header.take k).getD 20 0 = 0 := by rw [getD_take_lt (by omega), hlv]
  have e1 : (e.header.take k).getD 1 0 = e.body.sum % 256 := by
    rw [getD_take_lt (by omega)]; rfl
  have ebody : e.header.drop 2 = e.body := rfl
  refine getHeader_bad_sum f tab r _ (by rw [e0]; omega) (by rw [List.length_take]; omega) (by rw [e20]; decide) (by rw [e20]; decide) ?_
  rw [e0, e1]
  have hs := sum_take_drop e.body (k - 2)
  have ed : e.header.drop k = e.body.drop (k - 2) := by
    rw [← ebody, List.drop_drop]; congr 1; omega
  rw [ed] at h3
  have et : (e.header.take k).drop 2 = e.body.take (k - 2) := by
    rw [List.drop_take, ebody]
  rw [et, List.take_of_length_le (by rw [List.length_take]; omega)]
  omega

theorem listOne_total {h : Hdr} (hn : NoNames h) : ∃ r, listOne h = .ok r := by
  obtain ⟨n1, n2⟩ := hn
  match hu : h.user, n1, hgr : h.group, n2 with
  | a :: as, _, b :: bs, _ =>
    unfold listOne
    simp only [hu, hgr, ownerOf]
    split
    · rw [ok_bind, ok_bind, ok_bind]; exact ⟨_, rfl⟩
    · rw [ok_bind]; exact ⟨_, rfl⟩

/-- A proper beginning of an archive consists of some of its entries and a proper beginning of the next one. -/
theorem archive_cut (es : List Entry) : ∀ k, k < (archive es [0]).length →
    ∃ es1 es2 R, es = es1 ++ es2 ∧ (archive es [0]).take k = archive es1 R ∧
      (R = [] ∨ ∃ e es3 j, es2 = e :: es3 ∧ 1 ≤ j ∧ j < e.bytes.length ∧ R = e.bytes.take j) := by
  induction es with
  | nil =>
    intro k hk
    have : k = 0 := by simp [archive] at hk; exact hk
    subst this
    exact ⟨[], [], [], rfl, rfl, Or.inl rfl⟩
  | cons e es ih =>
    intro k hk
    rw [archive_cons] at hk ⊢
    rcases Nat.lt_or_ge k e.bytes.length with h | h
    · refine ⟨[], e :: es, e.bytes.take k, rfl, ?_, ?_⟩
      · rw [List.take_append_of_le_length (by omega)]
        simp [archive]
      · by_cases h0 : k = 0
        · left; rw [h0]; rfl
        · exact Or.inr ⟨e, es, k, rfl, by omega, h, rfl⟩
    · obtain ⟨es1, es2, R, h1, h2, h3⟩ := ih (k - e.bytes.length) (by rw [List.length_append] at hk; omega)
      refine ⟨e :: es1, es2, R, by rw [h1]; rfl, ?_, h3⟩
      rw [List.take_append, List.take_of_length_le h, h2, archive_cons]

theorem header_parse (f : Fmt) (hg : f.generic = false) (tab : Arr) (e : Entry) (ho : e.Ok) (g : Hdr) (hgm : g.method.length = 5)
    (hgn : e.name.length < g.name.length) (R : List Nat) :
    ∃ g', getHeader f tab g (e.header ++ R) = .ok (.got g' R) ∧ Parsed e g' := by
  have hc : cstr e.name = e.name := cstr_self ho.nul
  have hl : limit0 f = 221 := by simp [limit0, hg]
  have hm : (e.kind + e.perm) % 65536 = e.kind + e.perm := Nat.mod_eq_of_lt (by have := ho.perm; have := ho.kind; omega)
  have htk : e.name.take 221 = e.name := List.take_of_length_le ho.name
  obtain ⟨g', a, a1, a2, a3, a4, a5, a6, a7, a8, a9, a10, a11, a12, a13, a14⟩ := header0_read f tab e.dosTime g (hdrOf e) R
    ho.method rfl (by show isSymlinkMode ((e.kind + e.perm) % 65536) = false; rw [hm]; exact (perm_modes ho.kind ⟨e.perm, ho.perm⟩).2) hgm
    (by show ((cstr e.name).take (limit0 f)).length < _; rw [hc, hl, htk]; exact hgn) (by simp [hg])
  rw [header_eq f hg e ho] at a
  refine ⟨g', a, a1, ?_, ?_, ?_, ?_, a9, ?_, ?_, ?_, ?_, ?_, a5, a4⟩
  · rw [a2]; exact Nat.mod_eq_of_lt ho.packed
  · rw [a3]; exact Nat.mod_eq_of_lt ho.content
  · rw [a6]
    show rName f (((cstr e.name).take (limit0 f)).map (wByte f) ++ [0]) = _
    rw [hc, hl, htk]
    exact rName_wByte f (Or.inl hg) _ ho.bs
  · rw [a8]; exact Nat.mod_eq_of_lt ho.crc
  · rw [a12]; simp only [hg, Bool.false_eq_true, if_false]; exact hm
  · rw [a11]; simp only [hg, Bool.false_eq_true, if_false]; rfl
  · rw [a13]; simp only [hg, Bool.false_eq_true, if_false]; rfl
  · rw [a14]; simp only [hg, Bool.false_eq_true, if_false]; rfl
  · rw [a10]; simp only [hg, Bool.false_eq_true, if_false]

/-- One more round of the listing, then the end of the input. -/
theorem listLoop_last (f : Fmt) (tab : Arr) {k : Nat} (hk : 2 ≤ k) {h g : Hdr} (out : ListOut) {inp rest : List Nat} (hgh : getHeader f tab h inp = .ok (.got g rest))
    (hrest : rest.drop g.packedSize = []) (hnn : NoNames h) :
    ∃ r o, listLoop f tab Opts.default k h out inp = .ok o ∧ listOne g = .ok r ∧ o.err = true ∧ o.rows = out.rows ++ [r] := by
  obtain ⟨k, rfl⟩ : ∃ j, k = j + 2 := ⟨k - 2, by omega⟩
  obtain ⟨o1, o2⟩ := getHeader_owner hgh
  have hnn' : NoNames g := ⟨by rw [o1]; exact hnn.1, by rw [o2]; exact hnn.2⟩
  obtain ⟨r, hr⟩ := listOne_total hnn'
  unfold listLoop
  rw [hgh, ok_bind]
  simp only []
  rw [if_pos (by simp [needFile, Opts.default]), hr, ok_bind, ok_bind, hrest]
  unfold listLoop
  refine ⟨r, _, rfl, rfl, rfl, rfl⟩

/-- **C90** for listing: whatever is missing at the end of an archive, be it only the end mark, the listing returns an error; the entries that are complete
are listed, and at most one more row is printed. -/
theorem C90_list (f : Fmt) (hg : f.generic = false) (tab : Arr) (es : List Entry) (hes : ∀ e ∈ es, e.Ok) (hinc : NonInc 1024 es) (k : Nat)
    (hk : k < (archive es [0]).length) :
    ∃ es1 es2 more o, es = es1 ++ es2 ∧ commandList f tab Opts.default (some ((archive es [0]).take k)) = .ok o ∧ o.err = true ∧
      o.rows = es1.map Entry.row ++ more ∧ more.length ≤ 1 ∧ (archive es1 []).length ≤ k ∧ (∀ e ∈ es2.head?, k < (archive (es1 ++ [e]) []).length) := by
  obtain ⟨es1, es2, R, h1, h2, h3⟩ := archive_cut es k hk
  subst h1
  have hlen : k = (archive es1 R).length := by rw [← h2, List.length_take]; omega
  have hR : ∀ e ∈ es2.head?, R.length < e.bytes.length ∨ R = [] := by
    intro e he
    rcases h3 with h3 | ⟨e', es3, j, rfl, j1, j2, rfl⟩
    · exact Or.inr h3
    · simp at he; subst he
      left; rw [List.length_take]; omega
  have hpos : ∀ e : Entry, 0 < e.bytes.length := fun e => by unfold Entry.bytes Entry.header; simp
  have hle : (archive es1 []).length ≤ k := by rw [hlen]; unfold archive; simp
  have hlt : ∀ e ∈ es2.head?, k < (archive (es1 ++ [e]) []).length := by
    intro e he
    rw [hlen]
    unfold archive
    simp only [List.flatMap_append, List.length_append, List.flatMap_cons, List.flatMap_nil, List.append_nil]
    rcases hR e he with h | h
    · omega
    · rw [h]; have := hpos e; simp; omega
  have hl := archive_length es1 R
  obtain ⟨n, h', _, hnn, k3, k5, k6, k4⟩ := listLoop_entries f hg tab R es1 ((archive es1 R).length + 1) newHdr ⟨false, [], 0, 0, 0⟩ (by omega)
    (fun e he => hes e (List.mem_append_left _ he)) noNames_new newHdr_method (by rw [newHdr_name]; exact hinc.left)
  have hrun : commandList f tab Opts.default (some ((archive (es1 ++ es2) [0]).take k)) = listLoop f tab Opts.default n h'
      ⟨false, [] ++ es1.map Entry.row, 0 + es1.length, 0 + (es1.map (·.packed.length)).sum, 0 + (es1.map (·.content.length)).sum⟩ R := by
    rw [h2]
    unfold commandList
    simp only []
    rw [k4]
  rw [hrun]
  have hn1 : 0 < n := by omega
  rcases h3 with rfl | ⟨e, es3, j, rfl, j1, j2, rfl⟩
  · obtain ⟨n, rfl⟩ : ∃ m, n = m + 1 := ⟨n - 1, by omega⟩
    refine ⟨es1, es2, [], ⟨true, es1.map Entry.row, es1.length, (es1.map (·.packed.length)).sum, (es1.map (·.content.length)).sum⟩,
      rfl, ?_, rfl, by simp, by simp, hle, hlt⟩
    unfold listLoop
    simp only [getHeader, ok_bind, List.nil_append, Nat.zero_add]
  · have ho : e.Ok := hes e (by simp)
    have hinc' := k6 (e :: es3) (by rw [newHdr_name]; exact hinc)
    have hn2 : 2 ≤ n := by
      have : es1.length ≤ (archive es1 []).length := by have := archive_length es1 []; omega
      have : (archive es1 (e.bytes.take j)).length = (archive es1 []).length + j := by
        unfold archive; simp [List.length_take]; omega
      omega
    rcases Nat.lt_or_ge j e.header.length with hj | hj
    · have ht : e.bytes.take j = e.header.take j := by
        unfold Entry.bytes
        rw [List.take_append_of_le_length (by omega)]
      rw [ht]
      rcases cut_header f tab e ho h' hinc'.1 j1 hj with hb | ⟨g, hgot⟩
      · obtain ⟨n, rfl⟩ : ∃ m, n = m + 1 := ⟨n - 1, by omega⟩
        refine ⟨es1, e :: es3, [], ⟨true, es1.map Entry.row, es1.length, (es1.map (·.packed.length)).sum, (es1.map (·.content.length)).sum⟩,
          rfl, ?_, rfl, by simp, by simp, hle, hlt⟩
        unfold listLoop
        rw [hb, ok_bind]
        simp only [List.nil_append, Nat.zero_add]
      · obtain ⟨r, o, q1, _, q2, q3⟩ := listLoop_last f tab hn2 _ hgot (by simp) hnn
        exact ⟨es1, e :: es3, [r], o, rfl, q1, q2, by rw [q3]; simp, by simp, hle, hlt⟩
    · have ht : e.bytes.take j = e.header ++ e.packed.take (j - e.header.length) := by
        unfold Entry.bytes
        rw [List.take_append, List.take_of_length_le hj]
      rw [ht]
      obtain ⟨g, hgot, P⟩ := header_parse f hg tab e ho h' k5 hinc'.1 (e.packed.take (j - e.header.length))
      obtain ⟨r, o, q1, _, q2, q3⟩ := listLoop_last f tab hn2 ⟨false, [] ++ es1.map Entry.row, 0 + es1.length, 0 + (es1.map (·.packed.length)).sum,
        0 + (es1.map (·.content.length)).sum⟩ hgot (by
          rw [P.packed]
          exact List.drop_of_length_le (by rw [List.length_take]; omega)) hnn
      exact ⟨es1, e :: es3, [r], o, rfl, q1, q2, by rw [q3]; simp, by simp, hle, hlt⟩

/-- **C90 (partial)** for extraction.  Full statement: extracting an archive that ends too early returns an error.  Proved: if it ends inside a header (and the
sum of the missing bytes is not zero), an error is returned, and the files of the entries before are there; nothing else is changed.  Missing: see
`C90_false`. -/
theorem C90_extract_partial (f : Fmt) (hg : f.generic = false) (tab : Arr) (ht : makeCrcTable = .ok tab) (hf : Hf)
    (hok : GOk hf) (s : Sys) (es : List Entry) (hes : ∀ e ∈ es, Sound e ∨ DirEntry e) (e : Entry) (ho : e.Ok) (hinc : NonInc 1024 es)
    (hcan : ∀ e ∈ es, s.Creatable (lastName e.name)) (hnew : ∀ e ∈ es, s.node (lastName e.name) = none)
    (hdist : es.Pairwise fun a b => lastName a.name ≠ lastName b.name) (Y : List Nat) (hd : CutHeader e Y) :
    ∃ hf' s', GOk hf' ∧ commandExtractD f (others tab) tab Opts.default false hf s (some (archive es Y)) = .ok (true, s', hf') ∧
      (∀ e ∈ es, Sound e → s'.node (lastName e.name) = some (.file e.content s.fresh)) ∧
      (∀ n, (∀ e ∈ es, Sound e → lastName e.name ≠ n) → s'.node n = s.node n) ∧ s'.outside = s.outside ∧ s'.answers = s.answers := by
  obtain ⟨s', r1, r2, r3, r4, r5⟩ := files_run ht es s hes hcan hnew hdist
  have hl := archive_length es Y
  obtain ⟨k, h', hf', k1, k2, k4, k5, k3⟩ := r1.prefix f hg Y ((archive es Y).length + 1) newHdr hf (by omega)
    (fun e he => (hes e he).elim (·.ok) (·.ok)) hok newHdr_method (by rw [newHdr_name]; exact hinc)
  obtain ⟨k, rfl⟩ : ∃ j, k = j + 1 := ⟨k - 1, by omega⟩
  refine ⟨hf', s', k2, ?_, r2, r3, r4, r5⟩
  unfold commandExtractD
  simp only [Bool.false_eq_true, if_false]
  rw [ok_bind, k3]
  unfold extractLoopD
  rw [hd.bad f tab ho h', ok_bind]

/-- **C90 (partial)** for testing (full statement and what is missing: as for extraction). -/
theorem C90_test_partial (f : Fmt) (hg : f.generic = false) (tab : Arr) (ht : makeCrcTable = .ok tab) (es : List Entry)
    (hes : ∀ e ∈ es, Sound e ∧ e.crc = crc16 0 e.content) (e : Entry) (ho : e.Ok) (hinc : NonInc 1024 es)
    (Y : List Nat) (hd : CutHeader e Y) (hf : Hf) (hok : GOk hf) :
    ∃ hf', GOk hf' ∧ commandTest f (others tab) tab Opts.default false hf (some (archive es Y)) = .ok (true, hf') := by
  have hl := archive_length es Y
  obtain ⟨k, h', hf', k1, k2, k3, k4, k5⟩ := testLoop_prefix f hg ht Y es ((archive es Y).length + 1) newHdr hf (by omega) hes hok newHdr_method
    (by rw [newHdr_name]; exact hinc)
  refine ⟨hf', k2, ?_⟩
  unfold commandTest
  simp only [Bool.false_eq_true, if_false]
  rw [ok_bind, k5]
  obtain ⟨k, rfl⟩ : ∃ j, k = j + 1 := ⟨k - 1, by omega⟩
  unfold testLoop
  rw [hd.bad f tab ho h', ok_bind]

/-- A stored entry that ends too early is reported when it is extracted; what there is of it is written. -/
theorem C90_stored_partial (f : Fmt) (hg : f.generic = false) (tab : Arr) (hf : Hf) (s : Sys) (e : Entry) (ho : e.Ok) (hk : e.kind = 0o100000)
    (hm : e.method = [45, 108, 104, 48, 45]) (hne : e.content ≠ []) (hc : s.Creatable (lastName e.name)) (hn : s.node (lastName e.name) = none) (k : Nat)
    (hlt : k < e.packed.length) :
    ∃ pad, commandExtractD f (others tab) tab Opts.default false hf s (some (e.header ++ e.packed.take k)) =
      .ok (true, s.set (lastName e.name) (.file (e.packed.take k ++ pad) s.fresh), hf) := by
  obtain ⟨g, hgot, P⟩ := header_parse f hg tab e ho newHdr newHdr_method (by rw [newHdr_name]; have := ho.name; omega) (e.packed.take k)
  obtain ⟨pad, c1, _⟩ := copyfile_ok e.content.length (List.length_pos_iff.mpr hne) (e.packed.take k)
  refine ⟨pad, ?_⟩
  unfold commandExtractD
  simp only [Bool.false_eq_true, if_false]
  rw [ok_bind]
  unfold extractLoopD
  rw [hgot, ok_bind]
  simp only []
  rw [if_pos (by simp [needFile, Opts.default])]
  have hone : extractOneD (others tab) tab Opts.default s hf g (e.packed.take k) =
      .ok (some ⟨(e.packed.take k).length, [], hf, g.name, some (lastName e.name, e.packed.take k ++ pad)⟩,
        s.set (lastName e.name) (.file (e.packed.take k ++ pad) s.fresh)) := by
    unfold extractOneD
    rw [P.entryName, ok_bind]
    have hidx : methods.findIdx? (· = e.method) = some 0 := by rw [hm]; decide
    simp only [P.method, hidx]
    rw [if_pos ⟨(P.fileType ho).trans hk, by decide⟩, show Opts.default.force = false from rfl]
    have hq : inquireExtract s false (lastName e.name) = .ok (true, s) := by unfold inquireExtract; rw [lstat_of hc, hn]
    rw [hq, ok_bind]
    simp only [Bool.true_eq_false, false_and, if_false]
    rw [if_pos (canCreate_of hc (Or.inl hn)), P.original]
    unfold decodeLzhuf
    rw [if_pos (Or.inl rfl), c1, ok_bind, ok_bind]
    simp only []
    unfold Sys.write
    rw [hn]
  rw [hone, ok_bind]
  simp only []
  have hlen : (e.packed.take k).length = k := by rw [List.length_take]; omega
  rw [if_pos (by rw [P.packed, hlen]; omega)]
  unfold skipTo readF
  rw [if_pos ⟨by rw [P.packed]; omega, rfl⟩]
  rfl

/-- **C90 is false** of an archive that ends between two entries: extraction and testing succeed without the entries that are missing. -/
theorem C90_false_entries (f : Fmt) (hg : f.generic = false) (tab : Arr) (ht : makeCrcTable = .ok tab) (hf : Hf)
    (hok : GOk hf) (s : Sys) (es es2 : List Entry) (hes : ∀ e ∈ es, Sound e ∧ e.crc = crc16 0 e.content) (hinc : NonInc 1024 es)
    (hcan : ∀ e ∈ es, s.Creatable (lastName e.name)) (hnew : ∀ e ∈ es, s.node (lastName e.name) = none)
    (hdist : es.Pairwise fun a b => lastName a.name ≠ lastName b.name) :
    (∃ hf' s', commandExtractD f (others tab) tab Opts.default false hf s (some ((archive (es ++ es2) [0]).take (archive es []).length)) = .ok (false, s', hf') ∧
      ∀ n, (∀ e ∈ es, lastName e.name ≠ n) → s'.node n = s.node n) ∧
    (∃ hf', commandTest f (others tab) tab Opts.default false hf (some ((archive (es ++ es2) [0]).take (archive es []).length)) = .ok (false, hf')) := by
  have hcut : (archive (es ++ es2) [0]).take (archive es []).length = archive es [] := by
    unfold archive
    rw [List.append_nil, List.flatMap_append, List.append_assoc, List.take_append_of_le_length (Nat.le_refl _), List.take_length]
  rw [hcut]
  constructor
  · obtain ⟨hf', s', _, h, _, h2, _⟩ := C58_partial f hg tab ht _ (Or.inl rfl) hf hok s es (fun e he => Or.inl (hes e he).1) hinc hcan hnew hdist
    exact ⟨hf', s', h, fun n hn => h2 n fun e he _ => hn e he⟩
  · obtain ⟨hf', _, h⟩ := C61_sound_partial f hg tab ht es hes hinc _ (Or.inl rfl) hf hok
    exact ⟨hf', h⟩

/-- The table of checksums, for computing. -/
def tabOf : Arr := match makeCrcTable with | .ok t => t | .error _ => ⟨0, .leaf 0⟩

/-- 24 letters `A` in a file `a`, packed by lh5: the archive the package itself makes. -/
def cutSample : List Nat :=
  [35, 31, 45, 108, 104, 53, 45, 10, 0, 0, 0, 24, 0, 0, 0, 212, 13, 41, 3, 32, 0, 1, 97, 126, 60, 85, 0, 0, 202, 154, 59, 140, 130, 232, 3, 100, 0,
   0, 2, 32, 4, 49, 80, 182, 95, 64, 16, 0]

set_option maxRecDepth 100000 in
/-- **C90 is false** of an archive that ends inside the packed data.  `CompressBytes` makes an archive of 48 bytes, from which the file is extracted.  Of its first
44 bytes extraction makes a file of 24 zeros and returns no error.  With its first 46 bytes, everything that unpacks data crashes: extraction, testing,
`DecompresBytes`. -/
theorem C90_false (tab : Arr) (ht : makeCrcTable = .ok tab) :
    (compressBytes ⟨false, false⟩ tab ⟨1000000000, 0o644, 1000, 100, fun _ => ⟨2001, 9, 9, 1, 46, 40⟩⟩ 5 0 [120] [97] (List.replicate 24 65) none
      Proc.fresh).map (fun c => c.map (·.archive)) = .ok (some (some cutSample)) ∧
    (commandExtract ⟨false, false⟩ (others tab) tab Opts.default ⟨fun _ => true, fun _ => false⟩ false Hf.fresh (some cutSample)).map
      (fun o => (o.err, o.files)) = .ok (false, [([97], List.replicate 24 65)]) ∧
    (commandExtract ⟨false, false⟩ (others tab) tab Opts.default ⟨fun _ => true, fun _ => false⟩ false Hf.fresh (some (cutSample.take 44))).map
      (fun o => (o.err, o.files)) = .ok (false, [([97], List.replicate 24 0)]) ∧
    (commandExtract ⟨false, false⟩ (others tab) tab Opts.default ⟨fun _ => true, fun _ => false⟩ false Hf.fresh (some (cutSample.take 46))).map
      (fun o => (o.err, o.files)) = panic ∧
    (commandTest ⟨false, false⟩ (others tab) tab Opts.default false Hf.fresh (some (cutSample.take 46))).map (·.1) = panic ∧
    (decompresBytes ⟨false, false⟩ (others tab) tab false [97, 0] Hf.fresh (some (cutSample.take 46))).map (fun o => (o.err, o.data)) = panic := by
  have : tabOf = tab := by unfold tabOf; rw [ht]
  subst this
  exact ⟨by decide +kernel, by decide +kernel, by decide +kernel, by decide +kernel, by decide +kernel, by decide +kernel⟩

/-- The hypotheses are met by `x/e` and the first thirty bytes of the header of `x/a`. -/
example : (Sound (sampleEntry [45, 108, 122, 115, 45] [120, 47, 101] [0xa0, 0x80] [65]) ∧
      (sampleEntry [45, 108, 122, 115, 45] [120, 47, 101] [0xa0, 0x80] [65]).crc = crc16 0 [65]) ∧
    (sampleEntry [45, 108, 122, 115, 45] [120, 47, 97] [0xa0, 0x80] [65]).Ok ∧
    NonInc 1024 [sampleEntry [45, 108, 122, 115, 45] [120, 47, 101] [0xa0, 0x80] [65]] ∧
    CutHeader (sampleEntry [45, 108, 122, 115, 45] [120, 47, 97] [0xa0, 0x80] [65])
      ((sampleEntry [45, 108, 122, 115, 45] [120, 47, 97] [0xa0, 0x80] [65]).header.take 30) :=
  ⟨⟨sample_sound _ (by decide) (by decide) (by decide), rfl⟩, (sample_sound _ (by decide) (by decide) (by decide)).ok, ⟨by decide, trivial⟩,
    30, by decide, by decide, Or.inr (by decide), rfl⟩

/-- The hypotheses of `C90_stored_partial` are met by three bytes of which one is missing. -/
example : (sampleEntry [45, 108, 104, 48, 45] [97] [1, 2, 3] [1, 2, 3]).Ok ∧ (sampleEntry [45, 108, 104, 48, 45] [97] [1, 2, 3] [1, 2, 3]).content ≠ [] ∧
    2 < (sampleEntry [45, 108, 104, 48, 45] [97] [1, 2, 3] [1, 2, 3]).packed.length :=
  ⟨⟨rfl, by decide, by decide, by decide, by decide, by decide, sampleEntry_crc _ _ _ _, by decide, Or.inl rfl⟩, by decide, by decide⟩

end Lha
