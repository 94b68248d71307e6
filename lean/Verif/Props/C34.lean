import Verif.Props.C33
/-!
# C34: the exclusion list

False for lists of two and more patterns: a file is added once for every pattern it does not match.
-/

namespace Lha

/-- `commandAdd` depends on the exclusion list only through `timesAdded`. -/
theorem addItems_excl (f : Fmt) (tab : Arr) (e : Env) (up : List Nat → List Nat) (m level : Nat) (name : List Nat)
    (x y : List (List Nat)) (items : List (List Nat × Option (List Nat))) (h : ∀ i ∈ items, timesAdded up x i.1 = timesAdded up y i.1) :
    ∀ st, addItems f tab e up m level name x items st = addItems f tab e up m level name y items st := by
  induction items with
  | nil => intro st; rfl
  | cons i items ih =>
    intro st
    have ih := ih (fun j hj => h j (List.mem_cons_of_mem _ hj))
    have hi := h i (List.mem_cons_self ..)
    obtain ⟨n, b⟩ := i
    unfold addItems
    simp only [ih]
    cases b with
    | none => rfl
    | some b => simp only [] at hi ⊢; rw [hi]

theorem commandAdd_excl (f : Fmt) (tab : Arr) (e : Env) (up : List Nat → List Nat) (m level : Nat) (name : List Nat)
    (x y : List (List Nat)) (move : Bool) (items : List (List Nat × Option (List Nat))) (h : ∀ i ∈ items, timesAdded up x i.1 = timesAdded up y i.1)
    (arch : Option (List Nat)) (p : Proc) :
    commandAdd f tab e up m level name x move items arch p = commandAdd f tab e up m level name y move items arch p := by
  unfold commandAdd
  rw [addItems_excl f tab e up m level name x y items h]

/-- **C34 is false**: with two patterns, one matching the file and one not, the file is added as if there were no exclusion list. -/
theorem C34_false (f : Fmt) (tab : Arr) (e : Env) (up : List Nat → List Nat) (m level : Nat) (name file x y : List Nat)
    (hx : up x = up (baseName file)) (hy : up y ≠ up (baseName file)) (move : Bool) (body arch : Option (List Nat)) (p : Proc) :
    commandAdd f tab e up m level name [x, y] move [(file, body)] arch p = commandAdd f tab e up m level name [] move [(file, body)] arch p := by
  refine commandAdd_excl f tab e up m level name [x, y] [] move _ ?_ arch p
  intro i hi
  rw [List.mem_singleton.mp hi]
  simp [timesAdded, hx, hy]

/-- … and with two patterns not matching, it is added twice. -/
theorem C34_false_twice (up : List Nat → List Nat) (file x y : List Nat) (hx : up x ≠ up (baseName file)) (hy : up y ≠ up (baseName file)) :
    timesAdded up [x, y] file = 2 := by
  simp [timesAdded, hx, hy]

/-- What holds (full statement: for lists of any length): a list of one pattern excludes exactly the files it matches.  If all files match nothing is
added; if none does the list does not matter. -/
theorem C34_single_partial (f : Fmt) (tab : Arr) (e : Env) (up : List Nat → List Nat) (m level : Nat) (name x : List Nat) (move : Bool)
    (items : List (List Nat × Option (List Nat))) (p : Proc) :
    ((∀ i ∈ items, up x ≠ up (baseName i.1)) → ∀ arch,
      commandAdd f tab e up m level name [x] move items arch p = commandAdd f tab e up m level name [] move items arch p) ∧
    (items ≠ [] → (∀ i ∈ items, up x = up (baseName i.1)) →
      ∃ d, commandAdd f tab e up m level name [x] move items none p = .ok (some ⟨false, some [0], d, p⟩)) := by
  refine ⟨?_, ?_⟩
  · intro h arch
    refine commandAdd_excl f tab e up m level name [x] [] move items ?_ arch p
    intro i hi
    simp [timesAdded, h i hi]
  · intro hne h
    have key : ∀ (l : List (List Nat × Option (List Nat))) st, (∀ i ∈ l, up x = up (baseName i.1)) →
        addItems f tab e up m level name [x] l st = .ok (some st) := by
      intro l
      induction l with
      | nil => intro st _; rfl
      | cons i l ih =>
        intro st h
        have ih := ih st (fun j hj => h j (List.mem_cons_of_mem _ hj))
        have hi := h i (List.mem_cons_self ..)
        obtain ⟨n, b⟩ := i
        unfold addItems
        simp only [ih]
        split
        · rfl
        · cases b with
          | none => rfl
          | some b =>
            have : timesAdded up [x] n = 0 := by simp [timesAdded]; exact hi
            simp only [this]
            unfold appendTimes
            rw [ok_bind]
            exact ih
    unfold commandAdd
    rw [if_neg hne]
    simp only [key items _ h]
    exact ⟨_, rfl⟩

/-- The hypotheses are met: file `d/a`, patterns `a` and `b`. -/
example : id [97] = id (baseName [100, 47, 97]) ∧ id [98] ≠ id (baseName [100, 47, 97]) := by decide

end Lha
