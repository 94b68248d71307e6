import Verif.Props.C11
import Verif.Props.C45
import Verif.Props.C67
/-!
# C79: asking for an entry that is not in the archive is reported

The property: `DecompresBytes` and `Decompress`, called for a name that no entry of the archive has, return an error.
-/

namespace Lha

open Spec

/-- **C79 is false** of `DecompresBytes`, for every archive (of any methods) whose names do not get longer: the call returns no data and no error, just what it
returns for an entry without content. -/
theorem C79_false (f : Fmt) (hg : f.generic = false) (tab : Arr) (ht : makeCrcTable = .ok tab) (es : List Entry) (name : List Nat)
    (hok : ∀ x ∈ es, x.Ok) (hno : ∀ x ∈ es, x.name ≠ name) (hinc : NonInc 1024 es) (t : List Nat) (htl : Tail t) (hf : Hf) (hgk : GOk hf) :
    ∃ hf', GOk hf' ∧ decompresBytes f (others tab) tab false (name ++ [0]) hf (some (archive es t)) = .ok ⟨false, [], hf'⟩ := by
  obtain ⟨hf', ok', h⟩ := extractBytesLoop_good f hg ht name htl es
    ((archive es t).length + 1) newHdr hf [] (by have := archive_length es t; omega)
    (fun x hx => ⟨hok x hx, fun he => absurd he (hno x hx)⟩) hgk newHdr_method (by rw [newHdr_name]; exact hinc)
  refine ⟨hf', ok', ?_⟩
  unfold decompresBytes
  simp only [Bool.false_eq_true, if_false]
  rw [ok_bind, h]
  have hl : ∀ (es : List Entry) d, (∀ x ∈ es, x.name ≠ name) → lastOf name d es = d := by
    intro es
    induction es with
    | nil => intro d _; rfl
    | cons x es ih =>
      intro d hx
      unfold lastOf
      rw [List.foldl_cons, if_neg (hx x List.mem_cons_self)]
      exact ih d (fun y hy => hx y (List.mem_cons_of_mem _ hy))
  rw [hl es [] hno]

/-- … and of `Decompress`: no error, and nothing is extracted. -/
theorem C79_false_files (f : Fmt) (hg : f.generic = false) (tab : Arr) (es : List Entry) (name : List Nat)
    (hok : ∀ x ∈ es, x.Ok) (hno : ∀ x ∈ es, x.name ≠ name) (hinc : NonInc 1024 es) (t : List Nat) (htl : Tail t) (s : Sys) (hf : Hf) (hgk : GOk hf) :
    ∃ hf', GOk hf' ∧ decompressD f (others tab) tab Opts.default false (name ++ [0]) hf s (some (archive es t)) = .ok (false, s, hf') := by
  have skip : ∀ (l : List Entry) (s : Sys), (∀ x ∈ l, x.name ≠ name) → RunD tab Opts.default (fun n => decide (n = name ++ [0])) s l s := by
    intro l
    induction l with
    | nil => intro s _; exact .nil s
    | cons x l ih =>
      intro s hx
      refine .cons (s1 := s) ?_ (ih s fun y hy => hx y (List.mem_cons_of_mem _ hy))
      intro g hf T _ P
      refine Or.inl ⟨?_, rfl⟩
      rw [P.name]
      simpa using hx x List.mem_cons_self
  obtain ⟨hf', ok', h⟩ := (skip es s hno).loop f hg htl ((archive es t).length + 1) newHdr hf (by have := archive_length es t; omega)
    hok hgk newHdr_method (by rw [newHdr_name]; exact hinc)
  refine ⟨hf', ok', ?_⟩
  unfold decompressD
  simp only [Bool.false_eq_true, if_false]
  rw [ok_bind, h]

/-- **C79 (partial).** Full statement: see the head of the file.  What is true, of archives of any content: if there is no archive the call returns an error; and if `DecompresBytes` returns data
without an error, some header in the archive has the name asked for and the method, checksum and place of that data (`Verified`, from C11). -/
theorem C79_partial (f : Fmt) (tab : Arr) (ht : makeCrcTable = .ok tab) (sfx : Bool) (want : List Nat) (hf : Hf) :
    decompresBytes f (others tab) tab sfx want hf none = .ok ⟨true, [], hf⟩ ∧
    (∀ o s, decompressD f (others tab) tab o sfx want hf s none = .ok (true, s, hf)) ∧
    ∀ a (r : ReadOut), decompresBytes f (others tab) tab sfx want hf (some a) = .ok r → r.err = false → r.data ≠ [] → Verified f tab a want r.data :=
  ⟨rfl, fun _ _ => rfl, fun a r hr he hd => (C11_verified_partial f tab ht sfx want hf a r hr he).resolve_left hd⟩

/-! ### Cases covered -/

/-- `C79_false`, `C79_false_files`: the name `z` is not in the archive of `d/ab` and `b`. -/
example : ∀ x ∈ [sampleEntry [45, 108, 122, 115, 45] [100, 47, 97, 98] [0xa0, 0x80] [65], sampleEntry [45, 108, 122, 115, 45] [98] [0xa0, 0x80] [65]],
    x.Ok ∧ x.name ≠ [122] := by
  intro e he
  simp only [List.mem_cons, List.not_mem_nil, or_false] at he
  rcases he with rfl | rfl
  · exact ⟨(sample_sound _ (by decide) (by decide) (by decide)).ok, (by decide : ([100, 47, 97, 98] : List Nat) ≠ [122])⟩
  · exact ⟨(sample_sound _ (by decide) (by decide) (by decide)).ok, (by decide : ([98] : List Nat) ≠ [122])⟩

/-- `C79_partial`: by C45 the entry `b` is found. -/
example (tab : Arr) (ht : makeCrcTable = .ok tab) (hf : Hf) (hgk : GOk hf) : ∃ hf',
    decompresBytes ⟨false, false⟩ (others tab) tab false [98, 0] hf
      (some (archive [sampleEntry [45, 108, 122, 115, 45] [98] [0xa0, 0x80] [65]] [0])) = .ok ⟨false, [65], hf'⟩ := by
  have hs := sample_sound (name := [98]) (by decide) (by decide) (by decide)
  obtain ⟨hf', _, h⟩ := C45_partial ⟨false, false⟩ rfl tab ht [] [] (sampleEntry [45, 108, 122, 115, 45] [98] [0xa0, 0x80] [65])
    (by intro x hx; simp only [List.nil_append, List.mem_singleton] at hx; subst hx; exact hs.ok)
    (by intro x hx _; simp only [List.nil_append, List.mem_singleton] at hx; subst hx; exact ⟨hs, rfl⟩)
    (by intro x hx; cases hx) ⟨by decide, trivial⟩ [0] (Or.inr ⟨[], rfl⟩) hf hgk
  exact ⟨hf', h⟩

end Lha
