import Verif.Props.C62
/-!
# C64: adding to an existing archive keeps its entries

With the command line program (`SortContents`).  See C19 and C51 for the library functions.
-/

namespace Lha

open Spec

/-- `addOne` does not look at the old archive. -/
theorem addOne_old (f : Fmt) (tab : Arr) (e : Env) (m : Nat) (h : Hdr) (body new : List Nat) (p : Proc) (x y : Option (List Nat)) :
    addOne f tab e m h body ⟨new, x, p⟩ = (addOne f tab e m h body ⟨new, y, p⟩).map (fun s => { s with old := x }) := by
  unfold addOne
  cases writeHeader f tab (e.gst h.stamp) h with
  | error e => rfl
  | ok w =>
    simp only [ok_bind]
    split
    · rfl
    · cases encodeLzhuf m tab p h.originalSize body with
      | error e => rfl
      | ok r =>
        simp only [ok_bind]
        split
        · cases writeHeader f tab (e.gst h.stamp) { h with crc := r.crc, method := r.method, originalSize := r.original, packedSize := r.packed } with
          | error e => rfl
          | ok w => rfl
        · cases copyfile h.originalSize r.rest with
          | error e => rfl
          | ok c =>
            obtain ⟨o, n, z⟩ := c
            simp only [ok_bind]
            cases writeHeader f tab (e.gst h.stamp) { h with crc := 0, method := lh0, originalSize := n, packedSize := n } with
            | error e => rfl
            | ok w => rfl

theorem appendOneS_new (f : Fmt) (tab : Arr) (e : Env) (m level : Nat) (name body new : List Nat) (p : Proc) :
    appendOneS f tab e m level name body ⟨new, none, p⟩ =
      (addOne f tab e m (initHeader e level name body.length false) body ⟨new, none, p⟩).map some := by
  unfold appendOneS
  simp only []
  cases addOne f tab e m (initHeader e level name body.length false) body ⟨new, none, p⟩ <;> rfl

/-- One file added once. -/
theorem commandAddS_one (f : Fmt) (tab : Arr) (e : Env) (up : List Nat → List Nat) (m level : Nat) (arc name body : List Nat) (hname : name ≠ arc)
    (move : Bool) (arch : Option (List Nat)) (p : Proc) : commandAddS f tab e up m level arc [] move [(name, some body)] arch p = (do
      match ← appendOneS f tab e m level name body ⟨[], arch, p⟩ with
      | none => .ok none
      | some st => do
        let new ← copyRest f tab st
        .ok (some ⟨false, some (new ++ [0]), if move then [name] else [], st.proc⟩)) := by
  have hfil : (List.filter (fun x => decide (x.1 ≠ arc)) [(name, some body)]).map Prod.fst = [name] := by simp [hname]
  unfold commandAddS
  rw [if_neg (by simp)]
  unfold addItemsS
  rw [if_neg hname]
  simp only [timesAdded, if_true]
  unfold appendTimesS
  cases appendOneS f tab e m level name body ⟨[], arch, p⟩ with
  | error e => rfl
  | ok o =>
    cases o with
    | none => rfl
    | some st =>
      simp only [ok_bind]
      unfold appendTimesS
      simp only [ok_bind]
      unfold addItemsS
      simp only [ok_bind, hfil]

theorem commandAddS_drops (f : Fmt) (tab : Arr) (e : Env) (up : List Nat → List Nat) (m level : Nat) (arc name body : List Nat) (hname : name ≠ arc)
    (move : Bool) (o : List Nat) (p : Proc) (rest : List Nat) (hrest : (∃ h, getHeader f tab newHdr o = .ok (.got h rest)) ∨
      (getHeader f tab newHdr o = .ok .fin ∧ rest = o.drop 1) ∨ (getHeader f tab newHdr o = .ok .eof ∧ rest = o)) (r : HdrRes)
    (hr : getHeader f tab newHdr rest = .ok r) (hno : ∀ g R, r ≠ .got g R) :
    commandAddS f tab e up m level arc [] move [(name, some body)] (some o) p =
      commandAddS f tab e up m level arc [] move [(name, some body)] none p := by
  rw [commandAddS_one _ _ _ _ _ _ _ _ _ hname, commandAddS_one _ _ _ _ _ _ _ _ _ hname, appendOneS_new]
  have h1 : appendOneS f tab e m level name body ⟨[], some o, p⟩ =
      (addOne f tab e m (initHeader e level name body.length false) body ⟨[], none, p⟩).map (fun s => some { s with old := some rest }) := by
    unfold appendOneS
    rcases hrest with ⟨h, hh⟩ | ⟨hh, hr⟩ | ⟨hh, hr⟩
    · simp only [hh, ok_bind]
      rw [addOne_old f tab e m _ body [] p (some rest) none]
      cases addOne f tab e m (initHeader e level name body.length false) body ⟨[], none, p⟩ <;> rfl
    · simp only [hh, ok_bind]
      rw [← hr, addOne_old f tab e m _ body [] p (some rest) none]
      cases addOne f tab e m (initHeader e level name body.length false) body ⟨[], none, p⟩ <;> rfl
    · simp only [hh, ok_bind]
      rw [← hr, addOne_old f tab e m _ body [] p (some rest) none]
      cases addOne f tab e m (initHeader e level name body.length false) body ⟨[], none, p⟩ <;> rfl
  rw [h1]
  have hold := addOne_old f tab e m (initHeader e level name body.length false) body [] p none none
  cases ha : addOne f tab e m (initHeader e level name body.length false) body ⟨[], none, p⟩ with
  | error e => rfl
  | ok st =>
    rw [ha] at hold
    have hst : st.old = none := by
      have := Except.ok.inj hold
      exact congrArg AddSt.old this
    show (copyRest f tab { st with old := some rest } >>= _) = (copyRest f tab st >>= _)
    have e1 : copyRest f tab { st with old := some rest } = .ok st.new := by
      unfold copyRest
      simp only [hr, ok_bind]
    have e2 : copyRest f tab st = .ok st.new := by
      unfold copyRest
      rw [hst]
    rw [e1, e2]

/-- **C64 is false.**  Let the archive begin with an entry, and let what is behind the header of that entry, that is the packed data of the entry
and whatever follows, not happen to look like a header again (it does not crash the reader either).  Then adding a file replaces the whole archive by
that file: the result is what it would be if there had not been any archive, and success is reported. -/
theorem C64_false (oth : Oth) (tab : Arr) (e : Env) (up : List Nat → List Nat) (fs : Fs) (body : List Nat → Option (List Nat)) (arc name : List Nat)
    (hname : name ≠ arc) (m : Nat) (D : List Nat) (hb : body name = some D) (hne0 : name ≠ [])
    (o : List Nat) (h : Hdr) (rest : List Nat) (hh : getHeader ⟨true, false⟩ tab newHdr o = .ok (.got h rest)) (r : HdrRes)
    (hr : getHeader ⟨true, false⟩ tab newHdr rest = .ok r) (hno : ∀ g R, r ≠ .got g R) (harc : arc ≠ []) :
    lharc oth tab e up fs body { archive := arc, add := name, method := m } (some o) =
      lharc oth tab e up fs body { archive := arc, add := name, method := m } none := by
  have h1 : (parseOption { archive := arc, add := name, method := m }).cmd = .add ∧ (parseOption { archive := arc, add := name, method := m }).files = [name] ∧
      (parseOption { archive := arc, add := name, method := m }).exclude = [] ∧ (parseOption { archive := arc, add := name, method := m }).generic = true := by
    by_cases h0 : m = 0 <;> by_cases h5 : m = 5 ∨ m = 6 ∨ m = 7 <;> simp [parseOption, parseSubOption, parseCommand, onlyIf, Settings.init, hne0, h0, h5]
  obtain ⟨c1, c2, c3, c4⟩ := h1
  unfold lharc
  rw [if_neg harc, if_neg harc]
  simp only [c1, c2, c3, c4, sortFiles, List.map_cons, List.map_nil, hb]
  rw [commandAddS_drops ⟨true, false⟩ tab e up _ _ arc name D hname _ o _ rest (Or.inl ⟨h, hh⟩) r hr hno]

/-- **C64 (partial).**  Full statement: after adding a file to an existing archive, all entries are still in it.  Proved for the archive without
entries: the file is added as to a new archive (see `C62_partial`). -/
theorem C64_partial (oth : Oth) (tab : Arr) (e : Env) (up : List Nat → List Nat) (fs : Fs) (body : List Nat → Option (List Nat)) (arc name : List Nat)
    (hname : name ≠ arc) (m : Nat) (D : List Nat) (hb : body name = some D) (hne0 : name ≠ []) (o : List Nat) (ho : o = [] ∨ o = [0]) (harc : arc ≠ []) :
    lharc oth tab e up fs body { archive := arc, add := name, method := m } (some o) =
      lharc oth tab e up fs body { archive := arc, add := name, method := m } none := by
  have h1 : (parseOption { archive := arc, add := name, method := m }).cmd = .add ∧ (parseOption { archive := arc, add := name, method := m }).files = [name] ∧
      (parseOption { archive := arc, add := name, method := m }).exclude = [] ∧ (parseOption { archive := arc, add := name, method := m }).generic = true := by
    by_cases h0 : m = 0 <;> by_cases h5 : m = 5 ∨ m = 6 ∨ m = 7 <;> simp [parseOption, parseSubOption, parseCommand, onlyIf, Settings.init, hne0, h0, h5]
  obtain ⟨c1, c2, c3, c4⟩ := h1
  unfold lharc
  rw [if_neg harc, if_neg harc]
  simp only [c1, c2, c3, c4, sortFiles, List.map_cons, List.map_nil, hb]
  rw [commandAddS_drops ⟨true, false⟩ tab e up _ _ arc name D hname _ o _ [] (by
    rcases ho with rfl | rfl
    · exact Or.inr (Or.inr ⟨rfl, rfl⟩)
    · exact Or.inr (Or.inl ⟨rfl, rfl⟩)) .eof rfl (by simp)]

/-- The hypotheses of `C64_false` are met by an archive of one entry whose packed data begins with zero, as lh5 data of less than 256 code words does,
for instance the entry `b`. -/
example (tab : Arr) (P R : List Nat) (hP : P.length + 1 < 2 ^ 32) : ∃ h, getHeader ⟨true, false⟩ tab newHdr
    (archive [⟨[45, 108, 104, 53, 45], [98], [], 0 :: P, 0, 0, 0, 0o644, 0, 0, 0x20, 0o100000⟩] R) = .ok (.got h (0 :: P ++ R)) ∧
    getHeader ⟨true, false⟩ tab newHdr (0 :: P ++ R) = .ok .fin := by
  obtain ⟨g, e1, _⟩ := entry_parse ⟨false, false⟩ rfl tab ⟨[45, 108, 104, 53, 45], [98], [], 0 :: P, 0, 0, 0, 0o644, 0, 0, 0x20, 0o100000⟩
    ⟨rfl, (by decide : 1 ≤ 221), (by decide : 0 ∉ [98]), (by decide : 0x5c ∉ [98]), hP, (by decide : 0 < 2 ^ 32), (by decide : 0 < 2 ^ 16), (by decide : 0o644 < 2 ^ 12), Or.inl rfl⟩ newHdr newHdr_method
    (by rw [newHdr_name]; show 1 < 1024; omega) R
  refine ⟨g, ?_, rfl⟩
  unfold archive
  rw [List.flatMap_cons, List.flatMap_nil, List.append_nil]
  exact e1

end Lha
