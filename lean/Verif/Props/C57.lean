import Verif.Props.C55
/-!
# C57: the answers to the question whether to overwrite are obeyed
-/

namespace Lha

open Spec

/-- No 'Y': the question is put again and again until the input ends, and then the program crashes. -/
theorem inquire_never {ls : List (List Nat)} (h : ∀ a ∈ ls, a.head? ≠ some 0x59) : inquire ls = panic := by
  induction ls with
  | nil => rfl
  | cons l ls ih =>
    unfold inquire
    cases l with
    | nil => rfl
    | cons c cs =>
      simp only []
      rw [if_neg (fun hc => h (c :: cs) List.mem_cons_self (by simp [hc]))]
      exact ih (fun a ha => h a (List.mem_cons_of_mem _ ha))

/-- Lines before the first 'Y' count for nothing. -/
theorem inquire_yes {u : List (List Nat)} (hu : ∀ a ∈ u, a ≠ [] ∧ a.head? ≠ some 0x59) (y : List Nat) (hy : y.head? = some 0x59)
    (ls : List (List Nat)) : inquire (u ++ y :: ls) = .ok ls := by
  induction u with
  | nil =>
    cases y with
    | nil => cases hy
    | cons c cs =>
      have : c = 0x59 := by simpa using hy
      rw [List.nil_append]
      unfold inquire
      rw [if_pos this]
  | cons a u ih =>
    obtain ⟨h1, h2⟩ := hu a List.mem_cons_self
    cases a with
    | nil => exact absurd rfl h1
    | cons c cs =>
      rw [List.cons_append]
      unfold inquire
      rw [if_neg (fun hc => h2 (by simp [hc]))]
      exact ih (fun a ha => hu a (List.mem_cons_of_mem _ ha))

/-- **C57 is false**: whatever is answered to the question whether an existing file is to be overwritten, 'n', 'N', 's', 'a', 'y' or nothing, unless
some line begins with 'Y' the program crashes when the answers end; the file is not kept and the next entry not reached, as it should be
for 'N' and 'S', nor overwritten as for 'y' and 'A'. -/
theorem C57_false (f : Fmt) (hg : f.generic = false) (tab : Arr) (e : Entry) (he : Sound e) (es : List Entry) (t : List Nat) (s : Sys)
    (hc : s.Creatable (lastName e.name)) (c : List Nat) (m : Meta) (hn : s.node (lastName e.name) = some (.file c m))
    (ha : ∀ a ∈ s.answers, a.head? ≠ some 0x59) (hf : Hf) :
    commandExtractD f (others tab) tab Opts.default false hf s (some (archive (e :: es) t)) = panic := by
  obtain ⟨ho, hk, k, hidx, hp⟩ := he
  obtain ⟨g, e1, P⟩ := entry_parse f hg tab e ho newHdr newHdr_method (by rw [newHdr_name]; have := ho.name; omega) (archive es t)
  unfold commandExtractD
  simp only [Bool.false_eq_true, if_false]
  rw [ok_bind]
  unfold extractLoopD
  rw [archive_cons, e1, ok_bind]
  simp only []
  rw [if_pos (by simp [needFile, Opts.default])]
  unfold extractOneD
  rw [P.entryName, ok_bind]
  simp only [P.method, hidx]
  rw [if_pos ⟨(P.fileType ho).trans hk, hp.ndir⟩, show Opts.default.force = false from rfl]
  unfold inquireExtract
  rw [lstat_of hc, hn]
  simp only [Bool.false_eq_true, if_false]
  rw [inquire_never ha]
  rfl

/-- **C57 (partial).**  Full statement: 'Y' and 'y' overwrite the file, 'N', 'n' and Return keep it, 'A' and 'a' overwrite it and all others, 'S' and
's' keep it and all others.  Proved: 'Y', even after other answers, overwrites the file, which keeps its attributes, and nothing else is
changed. -/
theorem C57_partial (f : Fmt) (hg : f.generic = false) (tab : Arr) (ht : makeCrcTable = .ok tab) (e : Entry) (he : Sound e) (t : List Nat)
    (htl : Tail t) (s : Sys) (hc : s.Creatable (lastName e.name)) (c : List Nat) (m : Meta) (hn : s.node (lastName e.name) = some (.file c m))
    (u : List (List Nat)) (hu : ∀ a ∈ u, a ≠ [] ∧ a.head? ≠ some 0x59) (y : List Nat) (hy : y.head? = some 0x59) (ls : List (List Nat))
    (ha : s.answers = u ++ y :: ls) (hf : Hf) (hok : GOk hf) :
    ∃ hf', GOk hf' ∧ commandExtractD f (others tab) tab Opts.default false hf s (some (archive [e] t)) =
      .ok (false, ({ s with answers := ls } : Sys).set (lastName e.name) (.file e.content m), hf') := by
  have h1 := he.step_yes ht (needFile Opts.default) (by simp [needFile, Opts.default]) hc hn (ls := ls) (by rw [ha]; exact inquire_yes hu y hy ls)
  exact (RunD.cons h1 (RunD.nil _)).extract f hg htl (by simpa using he.ok) ⟨by have := he.ok.name; omega, trivial⟩ hf hok

/-- The hypotheses are met by an entry `e/b`, the sample directory, in which `b` is a file, and the answers `N` or `N`, `Y`. -/
example : Sound (sampleEntry [45, 108, 122, 115, 45] [101, 47, 98] [0xa0, 0x80] [65]) ∧
    Sys.sample.Creatable (lastName [101, 47, 98]) ∧ Sys.sample.node (lastName [101, 47, 98]) = some (.file [1, 2] ⟨0o600, 7, 1, 1⟩) ∧
    (∀ a ∈ [[78, 10]], a ≠ [] ∧ a.head? ≠ some 0x59) ∧ [89, 10].head? = some 0x59 :=
  ⟨sample_sound _ (by decide) (by decide) (by decide), ⟨by decide, by decide, rfl⟩, rfl, by decide, rfl⟩

end Lha
