import Verif.Props.C62
/-!
# C63: the options of the command line program do what their help says
-/

namespace Lha

open Spec

theorem parseOption_ignores (fl : Flags) (a b c : Bool) : parseOption { fl with noexec := a, force := b, verbose := c } = parseOption fl := rfl

/-- **C63 is false** of `-n` ("not execute"), `-f` ("force") and `-v`: they change nothing at all. -/
theorem C63_false (oth : Oth) (tab : Arr) (e : Env) (up : List Nat → List Nat) (fs : Fs) (body : List Nat → Option (List Nat)) (fl : Flags)
    (a b c : Bool) (arch : Option (List Nat)) :
    lharc oth tab e up fs body { fl with noexec := a, force := b, verbose := c } arch = lharc oth tab e up fs body fl arch := rfl

theorem parseSub_keeps (fl : Flags) (s : Settings) : (parseSubOption fl s).cmd = s.cmd ∧ (parseSubOption fl s).files = s.files ∧
    (parseSubOption fl s).deleteAfterAppend = s.deleteAfterAppend ∧ (parseSubOption fl s).verify = s.verify ∧ (parseSubOption fl s).stdout = s.stdout := by
  unfold parseSubOption
  split <;> (simp only []; repeat' split) <;> exact ⟨rfl, rfl, rfl, rfl, rfl⟩

theorem onlyIf_keeps {α : Type} (P : Settings → α) {b : Prop} [Decidable b] {g : Settings → Settings} (hg : ∀ s, P (g s) = P s) (s : Settings) :
    P (onlyIf b g s) = P s := by
  unfold onlyIf
  split
  · exact hg s
  · rfl

theorem parseCommand_delete (fl : Flags) : (parseCommand fl).deleteAfterAppend = false := by
  unfold parseCommand
  have key : ∀ (b : Prop) [Decidable b] (g : Settings → Settings) (s : Settings), (∀ s, (g s).deleteAfterAppend = s.deleteAfterAppend) →
      s.deleteAfterAppend = false → (onlyIf b g s).deleteAfterAppend = false :=
    fun b _ g s hg hs => (onlyIf_keeps Settings.deleteAfterAppend hg s).trans hs
  iterate 7 refine key _ _ _ (fun _ => rfl) ?_
  rfl

theorem parseOption_delete (fl : Flags) : (parseOption fl).deleteAfterAppend = false := by
  unfold parseOption
  repeat' split
  · rfl
  · rfl
  · rfl
  · exact (parseSub_keeps _ _).2.2.1.trans (parseCommand_delete fl)

/-- It is false of `-m` ("move to archive"): no file is ever removed. -/
theorem C63_false_move (oth : Oth) (tab : Arr) (e : Env) (up : List Nat → List Nat) (fs : Fs) (body : List Nat → Option (List Nat)) (fl : Flags)
    (arch : Option (List Nat)) (out : CliOut) (h : lharc oth tab e up fs body fl arch = .ok (some out)) : out.deleted = [] := by
  unfold lharc at h
  split at h
  · cases h; rfl
  · simp only [] at h
    split at h
    · split at h
      · obtain ⟨x, _, h⟩ := bind_ok h
        cases h; rfl
      · obtain ⟨x, _, h⟩ := bind_ok h
        cases h; rfl
    · obtain ⟨c, hc, h⟩ := bind_ok h
      cases c with
      | none => cases h
      | some c =>
        cases h
        unfold commandAddS at hc
        rw [parseOption_delete] at hc
        split at hc
        · cases hc; rfl
        · obtain ⟨o, _, h2⟩ := bind_ok hc
          cases o with
          | none => cases h2
          | some st =>
            obtain ⟨new, _, h4⟩ := bind_ok h2
            cases h4
            rfl
    · obtain ⟨x, _, h⟩ := bind_ok h
      cases h; rfl
    · cases h; rfl
    · cases h; rfl

/-- It is false of `-d` ("delete from archive"): nothing is done, and success is reported. -/
theorem C63_false_delete (oth : Oth) (tab : Arr) (e : Env) (up : List Nat → List Nat) (fs : Fs) (body : List Nat → Option (List Nat)) (a : List Nat)
    (arch : Option (List Nat)) :
    lharc oth tab e up fs body { archive := a, delete := true } arch = .ok (some ⟨0, arch, [], [], []⟩) := by
  unfold lharc
  split
  · rfl
  · have : (parseOption { archive := a, delete := true }).cmd = .delete := by simp [parseOption, parseSubOption, parseCommand, onlyIf, Settings.init]
    simp only [this]

/-- It is false of `-u` ("update newer files to archive"): it is the same as `-a` if a file is given that way, and an error otherwise. -/
theorem C63_false_update (oth : Oth) (tab : Arr) (e : Env) (up : List Nat → List Nat) (fs : Fs) (body : List Nat → Option (List Nat)) (fl : Flags)
    (hfl : fl.add ≠ [] ∧ fl.delete = false) (a : List Nat) (ha : a ≠ []) (arch : Option (List Nat)) :
    lharc oth tab e up fs body { fl with update := true } arch = lharc oth tab e up fs body { fl with update := false } arch ∧
      lharc oth tab e up fs body { archive := a, update := true } arch = .ok (some ⟨1, arch, [], [], []⟩) := by
  constructor
  · have : parseOption { fl with update := true } = parseOption { fl with update := false } := by
      have hc : parseCommand { fl with update := true } = parseCommand { fl with update := false } := by
        unfold parseCommand
        simp only [onlyIf, hfl.1, hfl.2, ne_eq, not_false_eq_true, if_true, Bool.false_eq_true, if_false]
      have hs : ∀ s, parseSubOption { fl with update := true } s = parseSubOption { fl with update := false } s := fun _ => rfl
      unfold parseOption
      simp only [hc, hs]
    unfold lharc
    simp only [this]
  · unfold lharc
    rw [if_neg ha]
    have h1 : (parseOption { archive := a, update := true }).cmd = .add := by simp [parseOption, parseSubOption, parseCommand, onlyIf, Settings.init]
    have h2 : (parseOption { archive := a, update := true }).files = [] := by simp [parseOption, parseSubOption, parseCommand, onlyIf, Settings.init]
    simp only [h1, h2, sortFiles, List.map_nil]
    rfl

/-- It is false of `-x` with two names: the file `a` is added twice by `-x b,c` (once for every name that is not excluded). -/
theorem C63_false_exclude : ∃ tab, makeCrcTable = .ok tab ∧
    ((do let o ← lharc (others tab) tab ⟨0, 0o644, 0, 0, fun _ => ⟨1970, 1, 1, 0, 0, 0⟩⟩ id
           ⟨fun _ => true, fun _ => false⟩ (fun _ => some []) { archive := [120], create := [97], generic := 5, exclude := [98, 44, 99] } none
         match o with
         | none => panic
         | some o => do
           let l ← commandList ⟨false, false⟩ tab Opts.default o.arch
           .ok (o.exit, l.rows.map Row.name)) : G (Nat × List (List Nat))) = .ok (0, [[97, 0], [97, 0]]) := by
  have h : ((do let tab ← makeCrcTable
                let o ← lharc (others tab) tab ⟨0, 0o644, 0, 0, fun _ => ⟨1970, 1, 1, 0, 0, 0⟩⟩ id
                  ⟨fun _ => true, fun _ => false⟩ (fun _ => some []) { archive := [120], create := [97], generic := 5, exclude := [98, 44, 99] } none
                match o with
                | none => panic
                | some o => do
                  let l ← commandList ⟨false, false⟩ tab Opts.default o.arch
                  .ok (o.exit, l.rows.map Row.name)) : G (Nat × List (List Nat))) = .ok (0, [[97, 0], [97, 0]]) := by decide +kernel
  cases ht : makeCrcTable with
  | error e => rw [ht] at h; cases h
  | ok tab =>
    rw [ht, ok_bind] at h
    exact ⟨tab, rfl, h⟩

/-! ### What holds -/

/-- Cutting at commas: the parts have no comma, and put together again they give the argument. -/
theorem splitComma_spec (l : List Nat) : (∀ x ∈ splitComma l, 0x2c ∉ x) ∧ splitComma l ≠ [] ∧ List.intercalate [0x2c] (splitComma l) = l := by
  induction l with
  | nil => simp [splitComma, List.intercalate]
  | cons c cs ih =>
    obtain ⟨h1, h2, h3⟩ := ih
    unfold splitComma
    split
    · contradiction
    · rename_i x xs heq
      rw [heq] at h1 h3
      split
      · rename_i hc
        refine ⟨?_, by simp, ?_⟩
        · intro y hy
          rcases List.mem_cons.1 hy with rfl | hy
          · simp
          · exact h1 y hy
        · rw [← h3, hc]
          simp [List.intercalate, List.intersperse]
      · rename_i hc
        refine ⟨?_, by simp, ?_⟩
        · intro y hy
          rcases List.mem_cons.1 hy with rfl | hy
          · have := h1 x List.mem_cons_self
            simp only [List.mem_cons, not_or]
            exact ⟨fun h => hc h.symm, this⟩
          · exact h1 y (List.mem_cons_of_mem _ hy)
        · rw [← h3]
          cases xs <;> simp [List.intercalate, List.intersperse]

/-- **C63 (partial).**  Full statement: every option does what the help says.  Proved: `-l`, `-lv`, `-e`, `-t` and `-p` leave the archive alone, and only
`-e` creates files. -/
theorem C63_partial (oth : Oth) (tab : Arr) (e : Env) (up : List Nat → List Nat) (fs : Fs) (body : List Nat → Option (List Nat)) (fl : Flags)
    (hfl : fl.list = true ∨ fl.extract = true ∨ fl.print = true ∨ fl.verboseList = true ∨ fl.test = true) (arch : Option (List Nat)) (out : CliOut)
    (h : lharc oth tab e up fs body fl arch = .ok (some out)) : out.arch = arch ∧ (fl.extract = false → out.created = []) := by
  have hcmd : (parseOption fl).cmd ≠ .add ∧ (fl.extract = false → (parseOption fl).cmd = .extract → ((parseOption fl).verify || (parseOption fl).stdout) = true) := by
    unfold parseOption
    split
    · exact ⟨by simp, by simp⟩
    · split
      · rename_i h; exact ⟨by simp, by simp [h]⟩
      · split
        · exact ⟨by simp, by simp⟩
        · rename_i h1 h2 h3
          have hv : fl.verboseList = true ∨ fl.test = true := (((hfl.resolve_left h1).resolve_left h2).resolve_left h3)
          rw [(parseSub_keeps _ _).1, (parseSub_keeps _ _).2.2.2.1, (parseSub_keeps _ _).2.2.2.2]
          unfold parseCommand
          generalize onlyIf (fl.move = true) _ _ = s
          by_cases ht : fl.test = true
          · rw [show ∀ g s, onlyIf (fl.test = true) g s = g s from fun g s => if_pos ht]
            exact ⟨by simp, by simp⟩
          · rw [show ∀ g s, onlyIf (fl.test = true) g s = s from fun g s => if_neg ht,
              show ∀ g s, onlyIf (fl.verboseList = true) g s = g s from fun g s => if_pos (hv.resolve_right ht)]
            exact ⟨by simp, by simp⟩
  unfold lharc at h
  split at h
  · cases h; exact ⟨rfl, fun _ => rfl⟩
  · simp only [] at h
    split at h
    · rename_i hc
      split at h
      · obtain ⟨x, _, h⟩ := bind_ok h
        cases h; exact ⟨rfl, fun _ => rfl⟩
      · rename_i hvs
        obtain ⟨x, _, h⟩ := bind_ok h
        cases h
        exact ⟨rfl, fun he => absurd (hcmd.2 he hc) hvs⟩
    · rename_i hc
      exact absurd hc hcmd.1
    · obtain ⟨x, _, h⟩ := bind_ok h
      cases h; exact ⟨rfl, fun _ => rfl⟩
    · cases h; exact ⟨rfl, fun _ => rfl⟩
    · cases h; exact ⟨rfl, fun _ => rfl⟩

/-- … `-x` keeps the file of that base name out (`up` is `strings.ToUpper`) … -/
theorem C63_exclude_partial (oth : Oth) (tab : Arr) (e : Env) (up : List Nat → List Nat) (fs : Fs) (body : List Nat → Option (List Nat))
    (arc name x : List Nat) (harc : arc ≠ []) (hname : name ≠ []) (hx : x ≠ []) (hcomma : 0x2c ∉ x) (hup : up x = up (baseName name)) :
    lharc oth tab e up fs body { archive := arc, create := name, exclude := x } none = .ok (some ⟨0, some [0], [], [], []⟩) := by
  have hsplit : splitComma x = [x] := by
    obtain ⟨_, h2, h3⟩ := splitComma_spec x
    have : ∀ l : List Nat, 0x2c ∉ l → splitComma l = [l] := by
      intro l
      induction l with
      | nil => intro _; rfl
      | cons c cs ih =>
        intro hl
        simp only [List.mem_cons, not_or] at hl
        unfold splitComma
        rw [ih hl.2]
        simp only []
        rw [if_neg (fun h => hl.1 h.symm)]
    exact this x hcomma
  have hparse : parseOption { archive := arc, create := name, exclude := x } =
      { Settings.init with cmd := .add, files := [name], generic := true, level := 2, exclude := [x] } := by
    simp [parseOption, parseSubOption, parseCommand, onlyIf, Settings.init, hname, hx, hsplit]
  have ht : timesAdded up [x] name = 0 := by simp [timesAdded, hup]
  unfold lharc
  rw [if_neg harc]
  simp only [hparse, sortFiles, List.map_cons, List.map_nil]
  unfold commandAddS
  rw [if_neg (by simp)]
  unfold addItemsS
  have hnil : ∀ st, addItemsS ⟨true, false⟩ tab e up 5 2 arc [x] [] st = .ok (some st) := fun _ => rfl
  have h0 : ∀ D st, appendTimesS ⟨true, false⟩ tab e 5 2 name D 0 st = .ok (some st) := fun _ _ => rfl
  split
  · rw [show Settings.init.method = 5 from rfl, hnil, ok_bind]
    rfl
  · split
    · rw [show Settings.init.method = 5 from rfl, hnil, ok_bind]
      rfl
    · rw [show Settings.init.method = 5 from rfl, ht, h0, ok_bind]
      simp only []
      rw [hnil, ok_bind]
      rfl

/-- … for instance: `-x A` with `ToUpper` and the file `d/a`. -/
example : (fun l : List Nat => l.map fun c => if 97 ≤ c ∧ c ≤ 122 then c - 32 else c) [65] =
    (fun l : List Nat => l.map fun c => if 97 ≤ c ∧ c ≤ 122 then c - 32 else c) (baseName [100, 47, 97]) := by decide

/-- The hypotheses of `C63_partial` are met by `-t`, and something is tested: an archive of one empty file. -/
example (tab : Arr) : ({ archive := [120], test := true } : Flags).test = true ∧
    lharc (others tab) tab ⟨0, 0o644, 0, 0, fun _ => ⟨1970, 1, 1, 0, 0, 0⟩⟩ id ⟨fun _ => true, fun _ => false⟩ (fun _ => none)
      { archive := [120], test := true } (some [0]) = .ok (some ⟨0, some [0], [], [], []⟩) := ⟨rfl, rfl⟩

end Lha
