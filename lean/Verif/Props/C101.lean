import Verif.Props.C01
import Verif.Props.C49
/-!
# C101: a file is listed under its name
-/

namespace Lha

open Spec

/-- The names that can be recorded: short enough, without NUL (which would end it), without backslash (which separates directories in the archive), and without capital letters
if the option for the conversion of case is used with the generic format. -/
def Keepable (f : Fmt) (n : List Nat) : Prop :=
  n.length ≤ (if f.generic then 233 else 221) ∧ 0 ∉ n ∧ 0x5c ∉ n ∧ (f.generic = true ∧ f.convertCase = true → ∀ b ∈ n, ¬ (65 ≤ b ∧ b ≤ 90))

/-- What becomes of one byte of a name. -/
def backByte (f : Fmt) (b : Nat) : Nat :=
  if b = 0x5c then 0x2f else if f.generic = true ∧ f.convertCase = true ∧ 65 ≤ b ∧ b ≤ 90 then b + 32 else b

theorem cstr_takeName (n : List Nat) : ∀ k L, L ≤ k → (cstr (n.take k)).take L = (cstr n).take L := by
  induction n with
  | nil => intro k L _; simp
  | cons a n ih =>
    intro k L h
    cases k with
    | zero => have : L = 0 := by omega
              subst this; simp
    | succ k =>
      cases L with
      | zero => simp
      | succ L =>
        rw [List.take_succ_cons]
        unfold cstr
        rw [List.takeWhile_cons, List.takeWhile_cons]
        split
        · rw [List.take_succ_cons, List.take_succ_cons]
          have := ih k L (by omega)
          unfold cstr at this
          rw [this]
        · rfl

theorem cstr_zeros (n : List Nat) (k : Nat) : cstr (n ++ List.replicate k 0) = cstr n := by
  induction k with
  | zero => simp
  | succ k ih => rw [List.replicate_succ', ← List.append_assoc, cstr_append_zero, ih]

theorem cstr_copyName (n : List Nat) (L : Nat) (hL : L ≤ 1024) : (cstr (copyInto newHdr.name n)).take L = (cstr n).take L := by
  have : copyInto newHdr.name n = n.take 1024 ++ List.replicate (1024 - n.length) 0 := by
    unfold copyInto
    rw [newHdr_name]
    congr 1
    show List.drop _ (List.replicate 1024 0) = _
    rw [List.drop_replicate]
    congr 1
    rw [List.length_take]
    omega
  rw [this, cstr_zeros, cstr_takeName n 1024 L hL]

theorem rName_back (f : Fmt) (l : List Nat) : rName f (l.map (wByte f) ++ [0]) = l.map (backByte f) ++ [0] := by
  by_cases hf : f.generic = true ∧ f.convertCase = true
  · have hw : ∀ b, wByte f b = if b = 0x2f then 0x5c else if isLowerB b = true then b - 32 else b := by
      intro b
      unfold wByte convByte
      rw [if_pos hf]
      have : delimIndex [0x2f] 0 b = if b = 0x2f then some 0 else none := by
        unfold delimIndex delimIndex
        by_cases h : b = 0x2f
        · subst h; rfl
        · rw [if_neg (by omega), if_neg h]
      rw [this]
      by_cases h : b = 0x2f
      · subst h; rfl
      · simp [h]
    have hnolow : (l.map (wByte f) ++ [0]).any isLowerB = false := by
      rw [List.any_eq_false]
      intro x hx
      rcases List.mem_append.1 hx with hx | hx
      · obtain ⟨b, _, rfl⟩ := List.mem_map.1 hx
        rw [hw]
        split
        · decide
        · split
          · rename_i h
            unfold isLowerB at h ⊢
            simp at h ⊢
            omega
          · assumption
      · rw [List.mem_singleton] at hx; subst hx; decide
    unfold rName convertFilename
    rw [if_pos hf, hnolow]
    simp only [Bool.false_eq_true, and_false, if_false]
    rw [List.map_append, List.map_map]
    congr 1
    apply List.map_congr_left
    intro b _
    simp only [Function.comp, hw]
    unfold backByte
    have hc : ∀ c, c ≠ 0xff → convByte [0xff, 0x5c] [0x2f, 0x2f] .toLower c = if c = 0x5c then 0x2f else if isUpperB c = true then c + 32 else c := by
      intro c hc
      unfold convByte
      have : delimIndex [0xff, 0x5c] 0 c = if c = 0x5c then some 1 else none := by
        unfold delimIndex delimIndex delimIndex
        rw [if_neg (by omega)]
        by_cases h : c = 0x5c
        · subst h; rfl
        · rw [if_neg (by omega), if_neg h]
      rw [this]
      by_cases h : c = 0x5c
      · subst h; rfl
      · simp [h]
    by_cases h1 : b = 0x2f
    · subst h1
      rw [if_pos rfl, hc _ (by omega)]
      simp
    · rw [if_neg h1]
      by_cases h2 : 97 ≤ b ∧ b ≤ 122
      · rw [if_pos (by unfold isLowerB; simp; exact h2), hc _ (by omega), if_neg (by omega), if_pos (by unfold isUpperB; simp; omega), if_neg (by omega),
          if_neg (by omega)]
        omega
      · rw [if_neg (by unfold isLowerB; simp; omega)]
        by_cases hff : b = 0xff
        · subst hff
          rw [if_neg (by omega), if_neg (by omega)]
          decide
        · rw [hc b hff]
          by_cases h3 : b = 0x5c
          · rw [if_pos h3, if_pos h3]
          · rw [if_neg h3, if_neg h3]
            by_cases h4 : 65 ≤ b ∧ b ≤ 90
            · rw [if_pos (by unfold isUpperB; simp; exact h4), if_pos ⟨hf.1, hf.2, h4⟩]
            · rw [if_neg (by unfold isUpperB; simp; omega), if_neg (fun h => h4 h.2.2)]
  · have hc : (if f.generic = true ∧ f.convertCase = true then CaseTo.toLower else .none) = .none := if_neg hf
    have hc' : (if f.generic = true ∧ f.convertCase = true then CaseTo.toUpper else .none) = .none := if_neg hf
    unfold rName convertFilename
    simp only [hc]
    simp only [reduceCtorEq, false_and, and_false, if_false]
    rw [List.map_append, List.map_map]
    congr 1
    apply List.map_congr_left
    intro b hb
    have : wByte f b = convByte [0x2f] [0x5c] .none b := by unfold wByte; rw [hc']
    simp only [Function.comp, this]
    unfold backByte
    rw [if_neg (c := f.generic = true ∧ _) (fun h => hf ⟨h.1, h.2.1⟩)]
    by_cases h : b = 0x5c
    · subst h; rw [if_pos rfl]; decide
    · rw [if_neg h]; exact convByte_id b h

/-- The name listed, in all cases. -/
def listedName (f : Fmt) (n : List Nat) : List Nat := ((n.takeWhile (· ≠ 0)).take (if f.generic then 233 else 221)).map (backByte f)

theorem listedName_eq (f : Fmt) (n : List Nat) :
    rName f (((cstr (copyInto newHdr.name n)).take (limit0 f)).map (wByte f) ++ [0]) = listedName f n ++ [0] := by
  rw [cstr_copyName n _ (by unfold limit0; split <;> omega), rName_back]
  rfl

theorem map_eq_self {g : Nat → Nat} {l : List Nat} (h : l.map g = l) : ∀ b ∈ l, g b = b := by
  intro b hb
  obtain ⟨i, hi, rfl⟩ := List.getElem_of_mem hb
  have : (l.map g)[i]? = l[i]? := by rw [h]
  rw [List.getElem?_map, List.getElem?_eq_getElem hi] at this
  simpa using this

theorem listedName_iff (f : Fmt) (n : List Nat) : listedName f n = n ↔ Keepable f n := by
  constructor
  · intro h
    have hlen := congrArg List.length h
    unfold listedName at hlen h
    rw [List.length_map, List.length_take] at hlen
    have hw : n.takeWhile (· ≠ 0) = n := by
      have hp := List.takeWhile_prefix (fun b => decide (b ≠ 0)) (l := n)
      exact hp.eq_of_length (by have := hp.length_le; omega)
    have hL : n.length ≤ (if f.generic then 233 else 221) := by rw [hw] at hlen; omega
    rw [hw, List.take_of_length_le hL] at h
    have hb := map_eq_self h
    refine ⟨hL, ?_, ?_, ?_⟩
    · intro h0
      rw [← hw] at h0
      have key : ∀ l : List Nat, 0 ∉ l.takeWhile (· ≠ 0) := by
        intro l
        induction l with
        | nil => simp
        | cons a l ih =>
          rw [List.takeWhile_cons]
          split
          · rename_i ha
            intro h
            rcases List.mem_cons.1 h with h | h
            · subst h; simp at ha
            · exact ih h
          · simp
      exact key n h0
    · intro h5
      have := hb _ h5
      unfold backByte at this
      rw [if_pos rfl] at this
      omega
    · intro hg b hbm hu
      have := hb _ hbm
      unfold backByte at this
      rw [if_neg (by omega), if_pos ⟨hg.1, hg.2, hu⟩] at this
      omega
  · rintro ⟨h1, h2, h3, h4⟩
    unfold listedName
    have hw : n.takeWhile (· ≠ 0) = n := cstr_self h2
    rw [hw, List.take_of_length_le h1]
    conv_rhs => rw [← List.map_id n]
    apply List.map_congr_left
    intro b hb
    unfold backByte
    have hb5 : b ≠ 0x5c := fun h => h3 (h ▸ hb)
    rw [if_neg hb5, if_neg (fun h => h4 ⟨h.1, h.2.1⟩ b hb h.2.2)]
    rfl

/-- **C101 (partial).**  Full statement: whatever the options, a file archived by `CompressBytes` is listed by `Headers` under its (base) name.  Proved, for files as in C01: which
names are kept (exactly), and what is listed for the others. -/
theorem C101_partial (f : Fmt) (oth : Oth) (tab : Arr) (ht : makeCrcTable = .ok tab) (e : Env) (hperm : e.perm < 512)
    (m : Nat) (hm : m = 5 ∨ m = 6 ∨ m = 7) (archive name body : List Nat) (hname : name ≠ archive)
    (p : Proc) (hp : ∀ g, geoOf m = some g → ProcOk g p) (hD : IsBytes body) (hlen : body.length < 2 ^ 32)
    (hfirst : body.getD 0 0 &&& 32 = 0) (hpack : body ≠ [] → Packs m tab p body) (h7 : m = 7 → body.length < 65536)
    (hf : Hf) (hok : HfOk hf) :
    ∃ c a g hf1, compressBytes f tab e m 0 archive name body none p = .ok (some c) ∧ c.err = false ∧ c.archive = some a ∧
      headers f oth tab Opts.default hf (some a) = .ok ⟨false, [g], hf1⟩ ∧ g.name = listedName f (baseName name) ++ [0] ∧
      (g.name = baseName name ++ [0] ↔ Keepable f (baseName name)) := by
  obtain ⟨c, a, g, hf1, h1, h2, h3, h4, _, _, _, _, h5, _⟩ := C01_round_trip_partial f oth tab ht e hperm m hm archive name body hname p hp hD hlen hfirst hpack h7 hf hok
  rw [listedName_eq] at h5
  refine ⟨c, a, g, hf1, h1, h2, h3, h4, h5, ?_⟩
  rw [h5, ← listedName_iff]
  exact ⟨fun h => List.append_cancel_right h, fun h => by rw [h]⟩

/-- **C101 is false** of names with a backslash; and, with the two options, of names with capital letters: `README` is listed as `readme`. -/
theorem C101_false : listedName ⟨false, false⟩ [97, 0x5c, 98] = [97, 0x2f, 98] ∧ baseName [97, 0x5c, 98] = [97, 0x5c, 98] ∧
    listedName ⟨true, true⟩ [82, 69, 65, 68, 77, 69] = [114, 101, 97, 100, 109, 101] ∧ ¬ Keepable ⟨true, true⟩ [82, 69, 65, 68, 77, 69] := by
  refine ⟨by decide, by decide, by decide, ?_⟩
  rintro ⟨_, _, _, h⟩
  exact h ⟨rfl, rfl⟩ 82 (by decide) (by decide)

/-- Two files of different names are listed under the same name then. -/
theorem C101_same : listedName ⟨true, true⟩ [65] = listedName ⟨true, true⟩ [97] := by decide

/-- The hypotheses are met: an empty file `a` is listed as `a`. -/
example (oth : Oth) (tab : Arr) (ht : makeCrcTable = .ok tab) (hf : Hf) (hok : HfOk hf) (p : Proc) (hp : ∀ g, geoOf 5 = some g → ProcOk g p) :
    ∃ c a g hf1, compressBytes ⟨true, true⟩ tab ⟨0, 0o644, 0, 0, fun _ => ⟨1970, 1, 1, 0, 0, 0⟩⟩ 5 0 [120] [97] [] none p = .ok (some c) ∧ c.archive = some a ∧
      headers ⟨true, true⟩ oth tab Opts.default hf (some a) = .ok ⟨false, [g], hf1⟩ ∧ g.name = [97, 0] := by
  obtain ⟨c, a, g, hf1, h1, _, h3, h4, _, h6⟩ := C101_partial ⟨true, true⟩ oth tab ht ⟨0, 0o644, 0, 0, fun _ => ⟨1970, 1, 1, 0, 0, 0⟩⟩ (by decide) 5 (Or.inl rfl) [120] [97] []
    (by decide) p hp (by unfold IsBytes; decide) (by decide) (by decide) (fun h => absurd rfl h) (by decide) hf hok
  exact ⟨c, a, g, hf1, h1, h3, h4, h6.2 ⟨by decide, by decide, by decide, by decide⟩⟩

end Lha
