import Verif.Props.C11
import Verif.Props.C43
import Verif.Props.C45
import Verif.Props.C66
import Verif.Spec.OneByte
/-!
# C116: one damaged byte does not lead to wrong contents without an error
-/

namespace Lha

open Spec

/-- Headers of level 2 and 3 are refused or make the program crash. -/
theorem level23_refused (f : Fmt) (tab : Arr) (h : Hdr) (inp : List Nat) (h0 : inp.getD 0 0 ≠ 0) (hl : 21 ≤ inp.length) (h20 : inp.getD 20 0 = 2 ∨ inp.getD 20 0 = 3) :
    getHeader f tab h inp = .ok .bad ∨ getHeader f tab h inp = panic := by
  cases inp with
  | nil => simp at hl
  | cons b inp =>
    have hl : 20 ≤ inp.length := by simpa using hl
    rw [getHeader_cons f tab h b inp (by simpa using h0) (by intro e; rw [e] at hl; simp at hl)]
    have d20 : (b :: inp.take 20 ++ List.replicate (20 - (inp.take 20).length) 0).getD 20 0 = (b :: inp).getD 20 0 := by
      have : 20 - (inp.take 20).length = 0 := by simp; omega
      rw [this, List.replicate_zero, List.append_nil, List.getD_cons_succ, List.getD_cons_succ]
      simp only [List.getD_eq_getElem?_getD]
      rw [List.getElem?_take_of_lt (by omega)]
    generalize b :: inp.take 20 ++ List.replicate (20 - (inp.take 20).length) 0 = d at d20 ⊢
    have key : byLevel tab h d (inp.drop 20) = .ok none ∨ byLevel tab h d (inp.drop 20) = panic := by
      unfold byLevel
      rw [d20]
      rcases h20 with e | e
      · rw [e]; exact getLevel2_never tab d (inp.drop 20)
      · rw [e]; exact getLevel3_never tab d (inp.drop 20)
    rcases key with e | e <;> rw [e]
    · exact Or.inl rfl
    · exact Or.inr rfl

/-- A wrong length is noticed by the sum. -/
theorem first_refused (f : Fmt) (tab : Arr) (h : Hdr) (inp : List Nat) (hl : inp ≠ []) (h0 : inp.getD 0 0 ≠ 0) (hsum : ((inp.drop 2).take (inp.getD 0 0)).sum % 256 ≠ inp.getD 1 0)
    {r : HdrRes} (hr : getHeader f tab h inp = .ok r) : r = .bad := by
  cases r with
  | bad => rfl
  | got g R => exact absurd (getHeader_got01 hr).2.2.2.2 hsum
  | _ =>
    cases inp with
    | nil => exact absurd rfl hl
    | cons b inp =>
      by_cases hi : inp = []
      · subst hi
        unfold getHeader at hr
        simp only [] at hr
        rw [if_neg (by simpa using h0)] at hr
        cases hr
      · rw [getHeader_cons f tab h b inp (by simpa using h0) hi] at hr
        obtain ⟨y, _, hr⟩ := bind_ok hr
        cases y with
        | none => cases hr
        | some y =>
          simp only [finishHdr] at hr
          injection hr with hr
          split at hr
          · split at hr <;> cases hr
          · cases hr

theorem damaged_refused1 (f : Fmt) (hg : f.generic = false) (tab : Arr) {y : Entry} (ho : y.Ok) {R : List Nat} (hb : IsBytes (y.bytes ++ R)) {i v : Nat} (h1 : 1 ≤ i)
    (hi : i < y.header.length) (hv : v < 256) (hne : v ≠ (y.bytes ++ R).getD i 0) {h : Hdr} (hm : h.method.length = 5) (hn : y.name.length < h.name.length) :
    getHeader f tab h ((y.bytes ++ R).set i v) = .ok .bad ∨ getHeader f tab h ((y.bytes ++ R).set i v) = panic := by
  have hlen := header_length y
  by_cases hl : i = 20 → v ≠ 2 ∧ v ≠ 3
  · exact Or.inl (Damaged.bad f hg ho hb ⟨⟨R, rfl⟩, i, v, h1, hi, hv, hne, hl, rfl⟩ hm hn)
  · have hl2 : i = 20 ∧ (v = 2 ∨ v = 3) := by
      by_contra hc
      exact hl fun h => ⟨fun h2 => hc ⟨h, Or.inl h2⟩, fun h3 => hc ⟨h, Or.inr h3⟩⟩
    clear hl
    obtain ⟨rfl, hl⟩ := hl2
    have hbl : 21 ≤ (y.bytes ++ R).length := by unfold Entry.bytes; rw [List.length_append, List.length_append]; omega
    refine level23_refused f tab h _ ?_ (by rw [List.length_set]; exact hbl) ?_
    · obtain ⟨g, e1, _⟩ := entry_parse f hg tab y ho h hm hn R
      have := (getHeader_got01 e1).1
      simp only [List.getD_eq_getElem?_getD] at this ⊢
      rw [List.getElem?_set_ne (by omega)]
      exact this
    · simp only [List.getD_eq_getElem?_getD]
      rw [List.getElem?_set_self (by omega)]
      exact hl

/-- A damaged header is refused or makes the program crash. -/
theorem damaged_refused (f : Fmt) (hg : f.generic = false) (tab : Arr) {y : Entry} (ho : y.Ok) {R : List Nat} (hb : IsBytes (y.bytes ++ R)) {i v : Nat}
    (h1 : i = 0 → v ≠ 0 ∧ (((y.bytes ++ R).drop 2).take v).sum % 256 ≠ y.body.sum % 256) (hi : i < y.header.length) (hv : v < 256) (hne : v ≠ (y.bytes ++ R).getD i 0) {h : Hdr}
    (hm : h.method.length = 5) (hn : y.name.length < h.name.length) {r : HdrRes} (hr : getHeader f tab h ((y.bytes ++ R).set i v) = .ok r) : r = .bad := by
  by_cases h0 : i = 0
  · subst h0
    obtain ⟨h2, h3⟩ := h1 rfl
    have e : (y.bytes ++ R).set 0 v = v :: y.body.sum % 256 :: (y.body ++ y.packed ++ R) := by
      unfold Entry.bytes Entry.header
      simp
    have e2 : ((y.bytes ++ R).drop 2) = y.body ++ y.packed ++ R := by
      unfold Entry.bytes Entry.header
      simp
    rw [e] at hr
    rw [e2] at h3
    exact first_refused f tab h _ (by simp) (by simpa using h2) (by simpa using h3) hr
  · rcases damaged_refused1 f hg tab ho hb (Nat.pos_of_ne_zero h0) hi hv hne hm hn with e | e
    · rw [e] at hr; cases hr; rfl
    · rw [e] at hr; cases hr

/-- A changed byte behind a header. -/
theorem set_entry (y : Entry) (R : List Nat) {i : Nat} (v : Nat) (hi : y.header.length ≤ i) : ∃ P R', P.length = y.packed.length ∧
    (y.bytes ++ R).set i v = ({ y with packed := P } : Entry).bytes ++ R' ∧ (R' = R ∨ (y.bytes.length ≤ i ∧ R' = R.set (i - y.bytes.length) v)) := by
  have hh : ∀ P : List Nat, P.length = y.packed.length → ({ y with packed := P } : Entry).header = y.header := by
    intro P hP
    unfold Entry.header Entry.body
    simp only [hP]
  by_cases h : i < y.bytes.length
  · refine ⟨y.packed.set (i - y.header.length) v, R, List.length_set, ?_, Or.inl rfl⟩
    unfold Entry.bytes at h ⊢
    rw [hh _ List.length_set, List.set_append_left _ _ h, List.set_append_right _ _ hi]
  · refine ⟨y.packed, R.set (i - y.bytes.length) v, rfl, ?_, Or.inr ⟨by omega, rfl⟩⟩
    rw [List.set_append_right _ _ (by omega)]

/-- At the end of an archive there is no further entry. -/
theorem short_end (f : Fmt) (oth : Oth) (tab : Arr) (want : List Nat) (n : Nat) (h : Hdr) (hf : Hf) (data T : List Nat) (hT : T.length ≤ 21) {x : List Nat} {hf' : Hf}
    (hr : extractBytesLoop f oth tab want n h hf data T = .ok ⟨false, x, hf'⟩) : x = data := by
  cases n with
  | zero => cases hr
  | succ n =>
    unfold extractBytesLoop at hr
    obtain ⟨y, hy, hr⟩ := bind_ok hr
    cases y with
    | eof => cases hr; rfl
    | bad => cases hr
    | fin => cases hr; rfl
    | got g R => have := (getHeader_got01 hy).2.1; omega

theorem damage_loop (f : Fmt) (hg : f.generic = false) {tab : Arr} (ht : CrcTab tab) (e : Entry) (ho : e.Ok) {m : Nat} (hidx : methods.findIdx? (· = e.method) = some m)
    (hm : m ≠ 0 ∧ m ≠ 9 ∧ m ≠ 10 ∧ m ≠ 12) {v : Nat} (hv : v < 256) {x : List Nat} {hf' : Hf} (es : List Entry) :
    ∀ (n : Nat) (h : Hdr) (hf : Hf) (data : List Nat) (i : Nat), (∀ y ∈ es, y.Ok ∧ y.name ≠ e.name) → h.method.length = 5 → NonInc h.name.length (es ++ [e]) →
      IsBytes (archive (es ++ [e]) [0]) → (i < (archive (es ++ [e]) [0]).length → v ≠ (archive (es ++ [e]) [0]).getD i 0) → ¬ Unnoticed (es ++ [e]) i v →
      extractBytesLoop f (others tab) tab (e.name ++ [0]) n h hf data ((archive (es ++ [e]) [0]).set i v) = .ok ⟨false, x, hf'⟩ → crc16 0 x = e.crc := by
  induction es with
  | nil =>
    intro n h hf data i _ hmt hinc hb hne hfirst hr
    rw [List.nil_append, archive_cons] at hb hne hr
    have hi0 : i = 0 → v ≠ 0 ∧ (((e.bytes ++ archive [] [0]).drop 2).take v).sum % 256 ≠ e.body.sum % 256 := fun hc =>
      ⟨fun h0 => hfirst ⟨[], e, [], rfl, hc, Or.inl h0⟩, fun h0 => hfirst ⟨[], e, [], rfl, hc, Or.inr (by rw [archive_cons]; exact h0)⟩⟩
    cases n with
    | zero => cases hr
    | succ n =>
      unfold extractBytesLoop at hr
      by_cases hi : i < e.header.length
      · have hlt : i < (e.bytes ++ archive [] [0]).length := by unfold Entry.bytes; rw [List.length_append, List.length_append]; omega
        obtain ⟨r, h1, hr⟩ := bind_ok hr
        rw [damaged_refused f hg tab ho hb hi0 hi hv (hne hlt) hmt hinc.1 h1] at hr
        cases hr
      · obtain ⟨P, T, hP, hs, hT⟩ := set_entry e (archive [] [0]) v (Nat.le_of_not_lt hi)
        have hT1 : T.length = 1 := by
          rcases hT with rfl | ⟨_, rfl⟩
          · rfl
          · rw [List.length_set]; rfl
        have ho' : ({ e with packed := P } : Entry).Ok := ⟨ho.method, ho.name, ho.nul, ho.bs, by show P.length < _; rw [hP]; exact ho.packed, ho.content, ho.crc, ho.perm, ho.kind⟩
        obtain ⟨g, e1, G⟩ := entry_parse f hg tab { e with packed := P } ho' h hmt hinc.1 T
        rw [hs, e1, ok_bind] at hr
        simp only [] at hr
        rw [if_pos G.name] at hr
        obtain ⟨y, hy, hr⟩ := bind_ok hr
        cases y with
        | error z => cases hr
        | ok d =>
          simp only [] at hr
          have hmeth : g.method = e.method := G.method
          have hcrc : crc16 0 d.out = e.crc := by
            have := extractOneStream_crc (fun m h o p inp d hd => others_crc ht m h o p inp d hd) ht (h := g) ?_ hy G.hasCrc
            · rw [this]; exact G.crc
            · rw [hmeth]
              refine ⟨fun hc => ?_, fun hc => ?_, fun hc => ?_⟩ <;> rw [hc] at hidx
              · exact hm.1 (Option.some.inj (hidx.symm.trans (by decide)))
              · exact hm.2.2.1 (Option.some.inj (hidx.symm.trans (by decide)))
              · exact hm.2.2.2 (Option.some.inj (hidx.symm.trans (by decide)))
          have hadv : d.rest = (P ++ T).drop d.readSize ∧ d.readSize ≤ g.packedSize := by
            unfold extractOneStream at hy
            rw [hmeth, hidx] at hy
            simp only [] at hy
            split at hy
            · obtain ⟨d', h1, hd⟩ := bind_ok hy
              split at hd
              · cases hd
              · cases hd; exact C43_partial tab m hm _ _ _ _ _ h1
            · cases hy
          have hpk : g.packedSize = P.length := G.packed
          split at hr
          · split at hr
            · cases hr
            · rename_i r' hsk
              unfold skipTo at hsk
              cases hrd : readF g.packedSize d.rest with
              | none => rw [hrd] at hsk; cases hsk
              | some z =>
                rw [hrd] at hsk
                cases hsk
                have hz : z.2.length ≤ 21 := by
                  rw [(readF_some hrd).2, hadv.1, List.length_drop, List.length_drop, List.length_append, hpk]
                  omega
                rw [short_end f _ tab _ n _ _ _ _ hz hr]
                exact hcrc
          · rename_i hrs
            have hz : d.rest.length ≤ 21 := by
              rw [hadv.1, List.length_drop, List.length_append]
              omega
            rw [short_end f _ tab _ n _ _ _ _ hz hr]
            exact hcrc
  | cons y es ih =>
    intro n h hf data i hes hmt hinc hb hne hfirst hr
    rw [List.cons_append, archive_cons] at hb hne hr
    obtain ⟨hy, hyn⟩ := hes y List.mem_cons_self
    have hi0 : i = 0 → v ≠ 0 ∧ (((y.bytes ++ archive (es ++ [e]) [0]).drop 2).take v).sum % 256 ≠ y.body.sum % 256 := fun hc =>
      ⟨fun h0 => hfirst ⟨[], y, es ++ [e], rfl, hc, Or.inl h0⟩, fun h0 => hfirst ⟨[], y, es ++ [e], rfl, hc, Or.inr (by rw [archive_cons]; exact h0)⟩⟩
    cases n with
    | zero => cases hr
    | succ n =>
      unfold extractBytesLoop at hr
      by_cases hi : i < y.header.length
      · have hlt : i < (y.bytes ++ archive (es ++ [e]) [0]).length := by
          rw [show y.bytes = y.header ++ y.packed from rfl, List.length_append, List.length_append]; omega
        obtain ⟨r, h1, hr⟩ := bind_ok hr
        rw [damaged_refused f hg tab hy hb hi0 hi hv (hne hlt) hmt hinc.1 h1] at hr
        cases hr
      · obtain ⟨P, T, hP, hs, hT⟩ := set_entry y (archive (es ++ [e]) [0]) v (Nat.le_of_not_lt hi)
        have ho' : ({ y with packed := P } : Entry).Ok := ⟨hy.method, hy.name, hy.nul, hy.bs, by show P.length < _; rw [hP]; exact hy.packed, hy.content, hy.crc, hy.perm, hy.kind⟩
        obtain ⟨g, e1, G⟩ := entry_parse f hg tab { y with packed := P } ho' h hmt hinc.1 T
        have hgn : g.name = y.name ++ [0] := G.name
        have hpk : g.packedSize = P.length := G.packed
        rw [hs, e1, ok_bind] at hr
        simp only [] at hr
        rw [if_neg (by rw [hgn]; intro hc; exact hyn (List.append_cancel_right hc)), hpk, skip_packed] at hr
        have hb' : IsBytes (archive (es ++ [e]) [0]) := fun b hb1 => hb b (List.mem_append_right _ hb1)
        have go : ∀ j, T = (archive (es ++ [e]) [0]).set j v → (j < (archive (es ++ [e]) [0]).length → v ≠ (archive (es ++ [e]) [0]).getD j 0) → ¬ Unnoticed (es ++ [e]) j v →
            crc16 0 x = e.crc := by
          intro j hj1 hj2 hj3
          rw [hj1] at hr
          exact ih n g hf data j (fun z hz => hes z (List.mem_cons_of_mem _ hz)) (by rw [show g.method = y.method from G.method]; exact hy.method)
            (by rw [hgn, List.length_append]; exact hinc.2) hb' hj2 hj3 hr
        rcases hT with hT | ⟨hle, hT⟩
        · refine go (archive (es ++ [e]) [0]).length ?_ (fun hc => absurd hc (Nat.lt_irrefl _)) ?_
          · rw [hT, List.set_eq_of_length_le (Nat.le_refl _)]
          · rintro ⟨es1, z, es2, hz1, hz2, hz5⟩
            rw [hz1] at hz2
            unfold archive at hz2
            simp only [List.flatMap_append, List.flatMap_cons, List.length_append, List.length_cons, List.length_nil] at hz2
            omega
        · refine go _ hT (fun hlt => ?_) ?_
          · have := hne (by rw [List.length_append]; omega)
            rwa [List.getD_append_right _ _ _ _ hle] at this
          · rintro ⟨es1, z, es2, hz1, hz2, hz5⟩
            refine hfirst ⟨y :: es1, z, es2, by rw [List.cons_append, hz1]; rfl, ?_, hz5⟩
            rw [archive_cons, List.length_append]
            omega

/-- **C116 (partial).**  Full statement: if one byte of an archive is changed, `DecompresBytes` returns an error, or the contents of the file asked for.  Proved here: without an error the
contents returned have the checksum recorded for the file (before the change).  For the last file of an archive of any number of valid entries of other names (packed by any method, valid or not),
packed by a method that has a checksum and knows its packed size (not lz5), names not getting longer; any byte of the archive may be changed (headers, contents, end mark); the first of an entry,
however, only to a value that is neither the end mark (`C116_false_end`) nor a length for which the sum of the header is right by chance (`C116_false`).  Two texts may have the same checksum, so contents cannot be replaced by equality. -/
theorem C116_partial (f : Fmt) (hg : f.generic = false) (tab : Arr) (ht : makeCrcTable = .ok tab) (es : List Entry) (e : Entry) (ho : e.Ok) (hes : ∀ y ∈ es, y.Ok ∧ y.name ≠ e.name)
    {m : Nat} (hidx : methods.findIdx? (· = e.method) = some m) (hm : m ≠ 0 ∧ m ≠ 9 ∧ m ≠ 10 ∧ m ≠ 12) (hinc : NonInc 1024 (es ++ [e]))
    (hb : IsBytes (archive (es ++ [e]) [0])) (i v : Nat) (hv : v < 256) (hne : v ≠ (archive (es ++ [e]) [0]).getD i 0)
    (hfirst : ¬ Unnoticed (es ++ [e]) i v) (hf : Hf) (x : List Nat) (hf' : Hf)
    (hr : decompresBytes f (others tab) tab false (e.name ++ [0]) hf (some ((archive (es ++ [e]) [0]).set i v)) = .ok ⟨false, x, hf'⟩) : crc16 0 x = e.crc := by
  obtain ⟨tab', ht1, ht2⟩ := makeCrcTable_ok
  rw [ht1] at ht
  cases ht
  unfold decompresBytes at hr
  simp only [Bool.false_eq_true, if_false] at hr
  rw [ok_bind] at hr
  exact damage_loop f hg ht2 e ho hidx hm hv es _ newHdr hf [] i hes newHdr_method (by rw [newHdr_name]; exact hinc) hb (fun _ => hne) hfirst hr

/-- `ABAB…` (twenty bytes) as the library packs it, of a file whose date, owner and group are unfortunate. -/
def unlucky : Entry :=
  ⟨[45, 108, 104, 53, 45], [97], (List.replicate 10 [65, 66]).flatten, [0, 3, 40, 4, 74, 32, 22, 241, 113, 128, 204], 65292, 0, 0xCA29, 0o644, 20, 116, 0x20, 0o100000⟩

theorem unlucky_ok : unlucky.Ok where
  method := rfl
  name := by decide
  nul := by decide
  bs := by decide
  packed := by decide
  content := by decide
  crc := by decide
  perm := by decide
  kind := Or.inl rfl

/-- What a call returns, found by calculation. -/
theorem reads_of_eval {tab : Arr} (ht : makeCrcTable = .ok tab) (want a y : List Nat)
    (h : (makeCrcTable >>= fun tab => (decompresBytes ⟨false, false⟩ (others tab) tab false want Hf.fresh (some a)) >>= fun r =>
      (.ok (r.err, r.data) : G (Bool × List Nat))) = .ok (false, y)) :
    ∃ hf', decompresBytes ⟨false, false⟩ (others tab) tab false want Hf.fresh (some a) = .ok ⟨false, y, hf'⟩ := by
  rw [ht, ok_bind] at h
  rcases hd : decompresBytes ⟨false, false⟩ (others tab) tab false want Hf.fresh (some a) with f | r
  · rw [hd] at h; cases h
  · rw [hd, ok_bind] at h
    obtain ⟨b, d, hf⟩ := r
    cases h
    exact ⟨hf, rfl⟩

/-- **C116 fails for the first byte of an entry**, the length of the header: an archive of one file, which is read back, and read back as something else (`R` twenty times), with another checksum
and without an error, after that byte has been changed.  With fourteen bytes less the header has no place for the checksum, so nothing is checked; the bytes cut off add up to a multiple
of 256, so the sum of the header is right; and they are read as the beginning of the packed data. -/
theorem C116_false : ∃ e : Entry, e.Ok ∧ crc16 0 e.content = e.crc ∧ FirstByte [e] 0 ∧ IsBytes (archive [e] [0]) ∧ ∀ tab, makeCrcTable = .ok tab →
    (∃ hf', decompresBytes ⟨false, false⟩ (others tab) tab false (e.name ++ [0]) Hf.fresh (some (archive [e] [0])) = .ok ⟨false, e.content, hf'⟩) ∧
    ∃ v < 256, ∃ x hf', decompresBytes ⟨false, false⟩ (others tab) tab false (e.name ++ [0]) Hf.fresh (some ((archive [e] [0]).set 0 v)) = .ok ⟨false, x, hf'⟩ ∧
      x ≠ e.content ∧ crc16 0 x ≠ e.crc := by
  refine ⟨unlucky, unlucky_ok, by decide +kernel, ⟨[], unlucky, [], rfl, rfl⟩, by unfold IsBytes; decide +kernel, fun tab ht => ?_⟩
  refine ⟨reads_of_eval ht _ _ _ (by decide +kernel), 21, by decide, List.replicate 20 82, ?_⟩
  obtain ⟨hf', h⟩ := reads_of_eval ht (unlucky.name ++ [0]) ((archive [unlucky] [0]).set 0 21) (List.replicate 20 82) (by decide +kernel)
  exact ⟨hf', h, by decide, by decide +kernel⟩

/-- The hypotheses of `C116_partial`, a byte changed and no error: the last byte of the packed data of the same archive, whose lowest bits are not used. -/
example (tab : Arr) (ht : makeCrcTable = .ok tab) : unlucky.Ok ∧ methods.findIdx? (· = unlucky.method) = some 5 ∧ NonInc 1024 ([] ++ [unlucky]) ∧ IsBytes (archive ([] ++ [unlucky]) [0]) ∧
    205 ≠ (archive ([] ++ [unlucky]) [0]).getD 47 0 ∧ ¬ Unnoticed ([] ++ [unlucky]) 47 205 ∧
    ∃ x hf', decompresBytes ⟨false, false⟩ (others tab) tab false (unlucky.name ++ [0]) Hf.fresh (some ((archive ([] ++ [unlucky]) [0]).set 47 205)) = .ok ⟨false, x, hf'⟩ := by
  refine ⟨unlucky_ok, by decide, ⟨by decide, trivial⟩, by unfold IsBytes; decide +kernel, by decide +kernel, ?_, unlucky.content, reads_of_eval ht _ _ _ (by decide +kernel)⟩
  rintro ⟨es1, x, es2, h1, h2, _⟩
  cases es1 with
  | nil => cases h2
  | cons y es1 =>
    have := congrArg List.length h1
    simp at this

end Lha
