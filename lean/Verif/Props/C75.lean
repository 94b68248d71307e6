import Verif.Proof.Links
import Verif.Props.C15
import Verif.Proof.Bound
import Verif.Proof.Crc
import Verif.Spec.Level2
/-!
# C75: the level-2 headers written are level-2 headers

False: the extended header with the name lacks its type and has a wrong length.  The other parts are right.
-/

namespace Lha

open Spec

/-- Two bytes that are not both zero are a length, and there are at least as many bytes. -/
theorem extChain_len {xs : List (Nat × List Nat)} {pad R : List Nat} {a b : Nat} (h : extChain xs ++ pad = a :: b :: R)
    (hx : ∀ x ∈ xs, x.2.length + 3 < 2 ^ 16) (hne : ¬ (a = 0 ∧ b = 0)) :
    ∃ t d ys, xs = (t, d) :: ys ∧ a + 256 * b = d.length + 3 ∧ R = t :: d ++ (extChain ys ++ pad) := by
  cases xs with
  | nil => cases h; exact absurd ⟨rfl, rfl⟩ hne
  | cons x ys =>
    obtain ⟨t, d⟩ := x
    have hd := hx (t, d) List.mem_cons_self
    simp only [] at hd
    simp only [extChain, le, List.cons_append, List.nil_append, List.append_assoc, List.cons.injEq] at h
    obtain ⟨h1, h2, h3⟩ := h
    exact ⟨t, d, ys, rfl, by omega, by rw [← h3]; simp⟩

theorem extChain_two (xs : List (Nat × List Nat)) (pad : List Nat) : ∃ a b R, extChain xs ++ pad = a :: b :: R := by
  cases xs with
  | nil => exact ⟨_, _, _, rfl⟩
  | cons x ys => exact ⟨_, _, _, rfl⟩

/-- A name where a chain of extended headers should go on: not a chain. -/
theorem name_no_chain {s T : List Nat} {z : Nat} (h0 : s.getLast? = some z) (hl : 32 ≤ z) (hlen : (s ++ T).length ≤ 4096) {xs : List (Nat × List Nat)}
    {pad : List Nat} (hx : ∀ x ∈ xs, x.2.length + 3 < 2 ^ 16) :
    extChain xs ++ pad ≠ le16 s.length ++ (s ++ T) := by
  intro h
  have hs : 0 < s.length := by
    cases s with
    | nil => cases h0
    | cons => simp
  have hs2 : s.length ≤ 4096 := by rw [List.length_append] at hlen; omega
  obtain ⟨t, d, ys, rfl, e1, e2⟩ := extChain_len (a := s.length % 256) (b := s.length / 256 % 256) (R := s ++ T) (by rw [h]; rfl) hx (by omega)
  have hd : d.length + 3 = s.length := by omega
  obtain ⟨a, b, R, e3⟩ := extChain_two ys pad
  rw [e3] at e2
  have hb : b = z := by
    have h1 : (s ++ T)[s.length - 1]? = some z := by
      rw [List.getElem?_append_left (by omega), ← h0, List.getLast?_eq_getElem?]
    rw [e2, List.getElem?_append_right (by simp; omega)] at h1
    simp only [List.length_cons] at h1
    rw [show s.length - 1 - (d.length + 1) = 1 by omega] at h1
    simpa using h1
  obtain ⟨t2, d2, zs, rfl, e4, e5⟩ := extChain_len e3 (fun x hx' => hx x (List.mem_cons_of_mem _ hx')) (by omega)
  have : (s ++ T).length = d.length + 1 + 2 + (d2.length + 1 + (extChain zs ++ pad).length) := by
    rw [e2, e5]; simp; omega
  omega

theorem le4_le32 (v : Nat) : le 4 v = le32 v := by
  simp only [le, le32, Nat.div_div_eq_div_mul]

theorem seal2_inv {tab : Arr} {F B bytes : List Nat} (h : seal2 tab F B = .ok bytes) :
    ∃ c pad, bytes = le16 bytes.length ++ F ++ le16 c ++ B ++ pad ∧ bytes.length % 256 ≠ 0 ∧ bytes.length ≤ 4096 ∧ pad.length ≤ 1 ∧
      calcCrc tab bytes.length 0 (le16 bytes.length ++ F ++ [0, 0] ++ B ++ pad) = .ok c ∧ IsBytes pad := by
  unfold seal2 at h
  simp only [] at h
  generalize hpad : (if (2 + F.length + 2 + B.length) % 256 = 0 then [0] else []) = pad at h
  have hpb : IsBytes pad := by
    rw [← hpad]
    unfold IsBytes
    split <;> decide
  have hp : pad.length ≤ 1 ∧ (2 + F.length + 2 + B.length + pad.length) % 256 ≠ 0 := by
    rw [← hpad]
    split
    · simp only [List.length_singleton]; omega
    · simp only [List.length_nil]; omega
  split at h
  · rename_i hn
    obtain ⟨c, hc, h1⟩ := bind_ok h
    have hb : bytes.length = 2 + F.length + 2 + B.length + pad.length := by
      rw [← Except.ok.inj h1]
      simp only [List.length_append, le16, List.length_cons, List.length_nil]
    rw [← hb] at hc h1 hn hp
    exact ⟨c, pad, (Except.ok.inj h1).symm, hp.2, hn, hp.1, hc, hpb⟩
  · cases h

theorem le16_isBytes (v : Nat) : IsBytes (le16 v) := by
  intro x hx
  simp only [le16, List.mem_cons, List.not_mem_nil, or_false] at hx
  rcases hx with rfl | rfl <;> omega

theorem le32_isBytes (v : Nat) : IsBytes (le32 v) := by
  intro x hx
  simp only [le32, List.mem_cons, List.not_mem_nil, or_false] at hx
  rcases hx with rfl | rfl | rfl | rfl <;> omega

theorem unixInfo_isBytes {h : Hdr} (hu : IsBytes h.user) (hg : IsBytes h.group) : IsBytes (unixInfo h) := by
  have h1 : ∀ x, x < 256 → IsBytes [x] := fun x hx y hy => by simp at hy; omega
  have h2 : IsBytes [] := fun y hy => by cases hy
  unfold unixInfo
  refine isBytes_append (isBytes_append (isBytes_append (isBytes_append (isBytes_append (isBytes_append (isBytes_append (isBytes_append (isBytes_append ?_ ?_) ?_) ?_) ?_)
    ?_) ?_) ?_) ?_) ?_
  all_goals first
    | exact le16_isBytes _
    | exact h1 _ (by decide)
    | (split
       · exact isBytes_append (isBytes_append (le16_isBytes _) (h1 _ (by decide))) (by first | exact hg | exact hu | exact le32_isBytes _)
       · exact h2)

theorem convByte_lt {t : CaseTo} {b : Nat} (h : b < 256) : convByte [0x2f] [0xff] t b < 256 := by
  unfold convByte
  simp only [delimIndex]
  by_cases h1 : b < 128 ∧ 47 = b
  · rw [if_pos h1]; simp
  · rw [if_neg h1]
    simp only []
    split
    · omega
    · split
      · rename_i h2
        have := h2.2
        simp only [isUpperB, Bool.and_eq_true, decide_eq_true_eq] at this
        omega
      · exact h

/-- The fields of the basic part after the length, and the start of the first extended header. -/
def front2 (f : Fmt) (h : Hdr) : List Nat :=
  h.method.take 5 ++ le32 h.packedSize ++ le32 h.originalSize ++ le32 h.stamp ++ [0x20, 2] ++ le16 h.crc ++
    [if f.generic then 0 else 0x55] ++ le16 5 ++ [0]

/-- What `writeHeader` writes at level 2. -/
theorem writeHeader_level2 {f : Fmt} {tab : Arr} {gst : Nat} {h : Hdr} {bytes : List Nat} (hl : h.level = 2)
    (hw : writeHeader f tab gst h = .ok (some bytes)) :
    ∃ pathname T, seal2 tab (front2 f h) (le16 (cLength (base2 pathname)) ++ (base2 pathname).take (cLength (base2 pathname)) ++ T) = .ok bytes ∧
      5 ≤ h.method.length ∧
      (isSymlinkMode h.mode = false → pathname = (h.name ++ [0]).map (convByte [0x2f] [0xff] (if f.generic ∧ f.convertCase then .toUpper else .none))) ∧
      (isSymlinkMode h.mode = false → IsBytes h.name → IsBytes h.user → IsBytes h.group → IsBytes (base2 pathname) ∧ IsBytes T) := by
  unfold writeHeader at hw
  simp only [hl] at hw
  split at hw
  · cases hw
  · rw [if_neg (by omega), if_neg (by omega), if_pos trivial] at hw
    obtain ⟨d, h1, h2⟩ := bind_ok hw
    cases h2
    generalize hp : convertFilename false [0x2f] _ _ _ = pathname at h1
    unfold writeLevel2 at h1
    obtain ⟨m, hm, h1⟩ := bind_ok h1
    obtain ⟨dir, hdir, h1⟩ := bind_ok h1
    have hm5 : m = h.method.take 5 ∧ 5 ≤ h.method.length := by
      unfold takeExact at hm
      split at hm
      · cases hm; exact ⟨rfl, by assumption⟩
      · cases hm
    obtain ⟨rfl, hm5⟩ := hm5
    rw [hl] at h1
    refine ⟨pathname, (if dirLen2 pathname > 0 then le16 (dirLen2 pathname + 3) ++ [2] ++ dir else []) ++ (if f.generic then [] else unixInfo h) ++ le16 0,
      ?_, hm5, ?_, ?_⟩
    · rw [← h1]
      unfold front2
      simp only [List.append_assoc]
    · intro hs
      rw [← hp]
      simp [convertFilename, hs]
    · intro hs hn hu hg
      have hpb : IsBytes pathname := by
        rw [← hp]
        intro b hb
        simp only [convertFilename, hs, Bool.false_eq_true, if_false, false_and] at hb
        obtain ⟨x, hx, rfl⟩ := List.mem_map.1 hb
        refine convByte_lt ?_
        rcases List.mem_append.1 hx with hx | hx
        · exact hn x hx
        · simp at hx; omega
      have hdb : IsBytes dir := by
        unfold takeExact at hdir
        split at hdir
        · cases hdir; exact isBytes_take hpb _
        · cases hdir
      refine ⟨?_, ?_⟩
      · unfold base2
        split
        · exact isBytes_take hpb _
        · exact hpb
      · refine isBytes_append (isBytes_append ?_ ?_) (le16_isBytes _)
        · split
          · exact isBytes_append (isBytes_append (le16_isBytes _) (by unfold IsBytes; decide)) hdb
          · unfold IsBytes; decide
        · split
          · unfold IsBytes; decide
          · exact unixInfo_isBytes hu hg

theorem convByte_ge {t : CaseTo} {b : Nat} (h : 32 ≤ b) : 32 ≤ convByte [0x2f] [0xff] t b := by
  unfold convByte
  simp only [delimIndex]
  by_cases h1 : b < 128 ∧ 47 = b
  · rw [if_pos h1]; simp
  · rw [if_neg h1]
    simp only []
    split
    · rename_i h2
      have := h2.2
      simp only [isLowerB, Bool.and_eq_true, decide_eq_true_eq] at this
      omega
    · split <;> omega

theorem convByte_c3 {t : CaseTo} {b : Nat} (h : b ≠ 0xc3) : convByte [0x2f] [0xff] t b ≠ 0xc3 := by
  unfold convByte
  simp only [delimIndex]
  by_cases h1 : b < 128 ∧ 47 = b
  · rw [if_pos h1]; simp
  · rw [if_neg h1]
    simp only []
    split
    · rename_i h2
      have := h2.2
      simp only [isLowerB, Bool.and_eq_true, decide_eq_true_eq] at this
      omega
    · split
      · rename_i h2
        have := h2.2
        simp only [isUpperB, Bool.and_eq_true, decide_eq_true_eq] at this
        omega
      · exact h

theorem cstr_take {l : List Nat} {b : Nat} : ∀ (k : Nat), b ∈ cstr (l.take k) → b ∈ cstr l := by
  induction l with
  | nil => intro k h; simpa using h
  | cons x l ih =>
    intro k h
    cases k with
    | zero => simp [cstr] at h
    | succ k =>
      unfold cstr at *
      by_cases hx : x = 0
      · subst hx
        simp at h
      · rw [List.take_succ_cons, List.takeWhile_cons_of_pos (by simpa using hx), List.mem_cons] at h
        rw [List.takeWhile_cons_of_pos (by simpa using hx), List.mem_cons]
        exact h.imp id (ih k)

theorem cstr_map_ge {t : CaseTo} {l : List Nat} (h : ∀ b ∈ cstr l, 32 ≤ b) : ∀ b ∈ cstr (l.map (convByte [0x2f] [0xff] t)), 32 ≤ b := by
  induction l with
  | nil => simp [cstr]
  | cons x l ih =>
    by_cases hx : x = 0
    · subst hx
      rw [List.map_cons, show convByte [0x2f] [0xff] t 0 = 0 by cases t <;> rfl]
      simp [cstr]
    · have h1 : cstr (x :: l) = x :: cstr l := by unfold cstr; rw [List.takeWhile_cons_of_pos (by simpa using hx)]
      rw [h1] at h
      have h2 := convByte_ge (t := t) (h x List.mem_cons_self)
      intro b hb
      unfold cstr at hb
      rw [List.map_cons, List.takeWhile_cons_of_pos (by simp; omega), List.mem_cons] at hb
      rcases hb with rfl | hb
      · exact h2
      · exact ih (fun b hb => h b (List.mem_cons_of_mem _ hb)) b hb

/-- The name as written: not empty, and its last byte is at least 32. -/
theorem name_written {t : CaseTo} {a : Nat} {l p : List Nat} (hp : p = (a :: l).map (convByte [0x2f] [0xff] t)) (ha : a ≠ 0xc3)
    (h : ∀ b ∈ cstr (a :: l), 32 ≤ b) (ha0 : a ≠ 0) : ∃ z, ((base2 p).take (cLength (base2 p))).getLast? = some z ∧ 32 ≤ z := by
  obtain ⟨k, hk0, hk⟩ : ∃ k, 0 < k ∧ base2 p = ((a :: l).take k).map (convByte [0x2f] [0xff] t) := by
    subst hp
    unfold base2
    split
    · rename_i k hk
      refine ⟨k, ?_, by rw [List.map_take]⟩
      rcases Nat.eq_zero_or_pos k with rfl | h
      · exfalso
        rw [List.map_cons, indexOf] at hk
        split at hk
        · rename_i hp
          unfold pathsepStr at hp
          simp only [List.isPrefixOf, Bool.and_eq_true, beq_iff_eq] at hp
          exact convByte_c3 ha hp.1.symm
        · cases hi : indexOf pathsepStr (l.map (convByte [0x2f] [0xff] t)) with
          | none => rw [hi] at hk; cases hk
          | some j => rw [hi] at hk; cases hk
      · exact h
    · exact ⟨(a :: l).length, by simp, by rw [List.take_length]⟩
  obtain ⟨k, rfl⟩ : ∃ j, k = j + 1 := ⟨k - 1, by omega⟩
  have hc : ∀ m : List Nat, m.take (cLength m) = cstr m := by
    intro m
    rw [cLength_eq]
    exact (List.prefix_iff_eq_take.1 (List.takeWhile_prefix _)).symm
  rw [hc, hk]
  have hpre := cstr_map_ge (t := t) (l := (a :: l).take (k + 1)) (fun b hb => h b (cstr_take _ hb))
  have hne : cstr (((a :: l).take (k + 1)).map (convByte [0x2f] [0xff] t)) ≠ [] := by
    have := convByte_ge (t := t) (h a (by simp [cstr, ha0]))
    simp only [List.take_succ_cons, List.map_cons, cstr]
    rw [List.takeWhile_cons_of_pos (by simp; omega)]
    simp
  exact ⟨_, List.getLast?_eq_some_getLast hne, hpre _ (List.getLast_mem hne)⟩

/-- **C75 is false** for every entry with an ordinary name (its bytes at least 32, not beginning with U+00C0 to U+00FF in UTF-8): the header written is
a level-2 header for no name and no entry at all. -/
theorem C75_false (f : Fmt) (tab : Arr) (gst : Nat) (h : Hdr) (bytes : List Nat) (hl : h.level = 2) (hs : isSymlinkMode h.mode = false)
    (hne : cstr h.name ≠ []) (hc3 : h.name.head? ≠ some 0xc3) (hname : ∀ b ∈ cstr h.name, 32 ≤ b)
    (hw : writeHeader f tab gst h = .ok (some bytes)) (e : Entry2) (name : List Nat) : ¬ e.IsHeader name bytes := by
  rintro ⟨xs, c, d, ys, pad, hb, hm, _, _, hlt, hx, _, _⟩
  obtain ⟨pathname, T, h1, h5, h2, _⟩ := writeHeader_level2 hl hw
  have h2 := h2 hs
  obtain ⟨c', pad', i1, i2, i3, i4, i5, _⟩ := seal2_inv h1
  generalize xs ++ (0, le 2 c ++ d) :: ys = zs at hb hx
  obtain ⟨a, l, hal⟩ : ∃ a l, h.name = a :: l := by
    cases hn : h.name with
    | nil => rw [hn] at hne; exact absurd rfl hne
    | cons a l => exact ⟨a, l, rfl⟩
  have ha0 : a ≠ 0 := by
    rintro rfl
    rw [hal] at hne
    exact hne rfl
  rw [hal] at h2 hname hc3
  have hnul : ∀ m : List Nat, cstr (m ++ [0]) = cstr m := by
    intro m
    induction m with
    | nil => rfl
    | cons x m ih =>
      unfold cstr at *
      simp only [List.cons_append, List.takeWhile_cons]
      rw [ih]
  obtain ⟨z, k0, k1⟩ := name_written (l := l ++ [0]) h2 (by rintro rfl; exact hc3 rfl) (by
      intro b hb
      apply hname b
      rw [← hnul]
      exact hb) ha0
  have hl1 : ((base2 pathname).take (cLength (base2 pathname))).length = cLength (base2 pathname) := by
    rw [List.length_take, cLength_eq]
    have := (List.takeWhile_prefix (l := base2 pathname) (· ≠ 0)).length_le
    unfold cstr
    omega
  generalize (base2 pathname).take (cLength (base2 pathname)) = s at *
  have hd : bytes.drop 24 = extChain zs ++ pad := by
    rw [hb]
    unfold Entry2.header Entry2.basic
    rw [List.append_assoc]
    exact List.drop_left' (by simp [le, hm])
  have hd' : bytes.drop 24 = 5 :: 0 :: 0 :: c' % 256 :: c' / 256 % 256 :: (le16 (cLength (base2 pathname)) ++ (s ++ (T ++ pad'))) := by
    rw [i1]
    generalize bytes.length = n
    unfold front2
    have e : le16 n ++ (h.method.take 5 ++ le32 h.packedSize ++ le32 h.originalSize ++ le32 h.stamp ++ [0x20, 2] ++ le16 h.crc ++
        [if f.generic then 0 else 0x55] ++ le16 5 ++ [0]) ++ le16 c' ++ (le16 (cLength (base2 pathname)) ++ s ++ T) ++ pad' =
        (le16 n ++ h.method.take 5 ++ le32 h.packedSize ++ le32 h.originalSize ++ le32 h.stamp ++ [0x20, 2] ++ le16 h.crc ++
          [if f.generic then 0 else 0x55]) ++ (le16 5 ++ [0] ++ le16 c' ++ (le16 (cLength (base2 pathname)) ++ (s ++ (T ++ pad')))) := by
      simp only [List.append_assoc]
    rw [e, List.drop_left' (by simp [le16, le32]; omega)]
    rfl
  rw [hd] at hd'
  obtain ⟨t, d', ws, rfl, e1, e2⟩ := extChain_len hd' hx (by omega)
  obtain ⟨u, v, rfl⟩ : ∃ u v, d' = [u, v] := List.length_eq_two.1 (by omega)
  simp only [List.cons_append, List.nil_append, List.cons.injEq] at e2
  refine name_no_chain k0 k1 ?_ (fun x hx' => hx x (List.mem_cons_of_mem _ hx')) (pad := pad) (xs := ws) (T := T ++ pad') ?_
  · rw [i1] at i3
    simp only [List.length_append] at i3 ⊢
    omega
  · rw [hl1]; exact e2.2.2.2.symm

/-- What holds (full statement: `∃ e, e.IsHeader name bytes` for the name of the file): the length, the fields of the basic part and the
checksum of the header are right, and the first extended header, with that checksum, is well-formed. -/
theorem C75_partial (f : Fmt) (tab : Arr) (ht : makeCrcTable = .ok tab) (gst : Nat) (h : Hdr) (bytes : List Nat) (hl : h.level = 2)
    (hs : isSymlinkMode h.mode = false) (hmethod : h.method.length = 5) (hmb : IsBytes h.method) (hn : IsBytes h.name) (hu : IsBytes h.user)
    (hg : IsBytes h.group) (hw : writeHeader f tab gst h = .ok (some bytes)) :
    ∃ (e : Entry2) (c : Nat) (B : List Nat), e = ⟨h.method, h.packedSize, h.originalSize, h.stamp, h.crc, if f.generic then 0 else 0x55⟩ ∧
      bytes = e.basic bytes.length ++ le 2 5 ++ [0] ++ le 2 c ++ B ∧ c = crc16 0 (e.basic bytes.length ++ le 2 5 ++ [0] ++ [0, 0] ++ B) ∧
      bytes.length % 256 ≠ 0 ∧ bytes.length ≤ 4096 := by
  obtain ⟨tab', ht1, ht2⟩ := makeCrcTable_ok
  rw [ht1] at ht
  cases ht
  obtain ⟨pathname, T, h1, h5, h2, h3⟩ := writeHeader_level2 hl hw
  obtain ⟨b1, b2⟩ := h3 hs hn hu hg
  obtain ⟨c, pad, i1, i2, i3, i4, i5, i6⟩ := seal2_inv h1
  have e1 : ∀ n, le16 n ++ front2 f h = (⟨h.method, h.packedSize, h.originalSize, h.stamp, h.crc, if f.generic then 0 else 0x55⟩ : Entry2).basic n ++ le 2 5 ++ [0] := by
    intro n
    unfold front2 Entry2.basic
    simp only [le4_le32, List.append_assoc]
    rw [List.take_of_length_le (by omega)]
    rfl
  rw [e1] at i1 i5
  refine ⟨_, c, le16 (cLength (base2 pathname)) ++ (base2 pathname).take (cLength (base2 pathname)) ++ T ++ pad, rfl, ?_, ?_, i2, i3⟩
  · rw [← List.append_assoc]; exact i1
  · rw [← List.append_assoc]
    have hf2 : IsBytes (front2 f h) := by
      have h1 : ∀ x, x < 256 → IsBytes [x] := fun x hx y hy => by simp at hy; omega
      unfold front2
      refine isBytes_append (isBytes_append (isBytes_append (isBytes_append (isBytes_append (isBytes_append (isBytes_append (isBytes_append
        (isBytes_take hmb _) ?_) ?_) ?_) ?_) ?_) ?_) ?_) ?_
      all_goals first
        | exact le16_isBytes _
        | exact le32_isBytes _
        | (unfold IsBytes; decide)
        | exact h1 _ (by split <;> decide)
    have hb : IsBytes ((le16 bytes.length ++ front2 f h) ++ [0, 0] ++
        (le16 (cLength (base2 pathname)) ++ (base2 pathname).take (cLength (base2 pathname)) ++ T) ++ pad) := by
      refine isBytes_append (isBytes_append (isBytes_append (isBytes_append (le16_isBytes _) hf2) (by unfold IsBytes; decide))
        (isBytes_append (isBytes_append (le16_isBytes _) (isBytes_take b1 _)) b2)) i6
    rw [e1] at hb
    have hlen := congrArg List.length i1
    rw [calcCrc_ok ht2 _ hb _ _ (by
      simp only [List.length_append, le, le16, List.length_cons, List.length_nil] at hlen ⊢; omega)] at i5
    rw [← Except.ok.inj i5, List.take_of_length_le (by
      simp only [List.length_append, le, le16, List.length_cons, List.length_nil] at hlen ⊢; omega)]

/-- Both theorems apply: `sampleLevel2` (C15) is written. -/
example : ((do let tab ← makeCrcTable
               writeHeader ⟨false, false⟩ tab 0 sampleLevel2) : G (Option (List Nat))).map (fun r => r.map List.length) = .ok (some 50) ∧
    sampleLevel2.level = 2 ∧ isSymlinkMode sampleLevel2.mode = false ∧ cstr sampleLevel2.name ≠ [] ∧ sampleLevel2.name.head? ≠ some 0xc3 ∧
    (∀ b ∈ cstr sampleLevel2.name, 32 ≤ b) ∧ IsBytes sampleLevel2.method ∧ sampleLevel2.method.length = 5 := by
  refine ⟨by decide +kernel, by decide, by decide, by decide, by decide, by decide, ?_, by decide⟩
  unfold IsBytes
  decide

/-- The specification of level-2 headers is met by one: the header another program writes for a file `a`, with the checksum filled in. -/
example : ∃ c, (⟨[45, 108, 104, 48, 45], 1, 1, 0, 0, 0x55⟩ : Entry2).IsHeader [97]
    ((⟨[45, 108, 104, 48, 45], 1, 1, 0, 0, 0x55⟩ : Entry2).header 35 [(0, le 2 c), (1, [97])] []) := by
  generalize hc : crc16 0 ((⟨[45, 108, 104, 48, 45], 1, 1, 0, 0, 0x55⟩ : Entry2).header 35 [(0, [0, 0]), (1, [97])] []) = c
  exact ⟨c, [], c, [], [(1, [97])], [], rfl, rfl, by simp, by simp [Entry2.header, Entry2.basic, extChain, le],
    by simp [Entry2.header, Entry2.basic, extChain, le], by simp [le], hc.symm, by simp⟩

end Lha
