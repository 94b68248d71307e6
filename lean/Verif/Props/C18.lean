import Verif.Proof.Path
import Verif.Proof.Names
/-!
# C18: the check for `..`

`isDirectoryTraversal` forgets that it is at the start of a component when that component is empty: after "//" or a leading "/" it misses `..`.
-/

namespace Lha

open Spec

/-- **C18 is false**: `/../x` has the component `..`, the check says no. -/
theorem C18_false : [0x2e, 0x2e] ∈ comps [47, 46, 46, 47, 120] ∧ isDirectoryTraversal [47, 46, 46, 47, 120] = false := by
  decide

/-- **C18**, one direction in full: whenever the check fires, there is a `..` component. -/
theorem C18_sound (path : List Nat) (h : isDirectoryTraversal path = true) : [0x2e, 0x2e] ∈ comps path := by
  obtain ⟨c, t, hc⟩ := comps_cons path
  rw [hc]
  rcases trav_sound path 0 c t hc h with (⟨_, h⟩ | ⟨h, _⟩ | ⟨h, _⟩) | h
  · simp [h]
  · omega
  · omega
  · simp [h]

/-- **C18**, the other direction for paths without empty components.  (Full statement: the same without `hne`.) -/
theorem C18_complete_partial (path : List Nat) (hne : [] ∉ comps path) :
    isDirectoryTraversal path = true ↔ [0x2e, 0x2e] ∈ comps path := by
  refine ⟨C18_sound path, fun h => ?_⟩
  obtain ⟨c, t, hc⟩ := comps_cons path
  rw [hc] at h hne
  refine trav_complete path 0 c t hc (fun e => hne (by simp [e])) (fun _ e => hne (by simp [e])) ?_
  rcases List.mem_cons.mp h with h | h
  · exact Or.inl (Or.inl ⟨rfl, h.symm⟩)
  · exact Or.inr h

/-- `a/../x` and its components. -/
example : comps [97, 47, 46, 46, 47, 120] = [[97], [46, 46], [120]] ∧ isDirectoryTraversal [97, 47, 46, 46, 47, 120] = true := by decide

/-- A further consequence: extraction hands the check only the part of the name from the last '/' on, where it never fires if that part ends
in NUL (as level-0 names do). -/
theorem C18_never_fires (A Y : List Nat) (hY : 0x2f ∉ Y) :
    isDirectoryTraversal ((A ++ 0x2f :: (Y ++ [0])).drop (lastSlash (A ++ 0x2f :: (Y ++ [0])))) = false := by
  rw [lastSlash_some A (Y ++ [0]) (by simp [hY]), List.drop_left]
  show travLoop 3 (Y ++ [0]) = false
  exact trav_no_slash Y hY 3

/-- A traversing name of the kind `C18_never_fires` is about: `../x` as it stands in a header. -/
example : 0x2f ∉ [120] ∧ isDirectoryTraversal ([46, 46] ++ 0x2f :: ([120] ++ [0])) = true ∧
    isDirectoryTraversal (([46, 46] ++ 0x2f :: ([120] ++ [0])).drop (lastSlash ([46, 46] ++ 0x2f :: ([120] ++ [0])))) = false := by decide

end Lha
