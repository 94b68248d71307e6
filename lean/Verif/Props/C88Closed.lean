import Verif.Props.C88
import Verif.Props.C49
/-!
# C88: adding with a value that has made an archive, and with a new one

A value that has made an archive remembers that (`newArchive`).  `CommandAdd` on it closes the archive there is before reading it, finds no entries in it, and
replaces it by one with the new files only.
-/

namespace Lha

open Spec

/-- The same state with a closed archive instead of none. -/
def AddSt.closed (st : AddSt) : AddSt := { st with old := some [] }

theorem addOne_closed (f : Fmt) (tab : Arr) (e : Env) (m : Nat) (h : Hdr) (body : List Nat) (st : AddSt) :
    addOne f tab e m h body st.closed = (addOne f tab e m h body st).map AddSt.closed := by
  unfold addOne
  cases writeHeader f tab (e.gst h.stamp) h with
  | error x => rfl
  | ok w =>
    simp only [ok_bind]
    by_cases hz : h.originalSize = 0
    · rw [if_pos hz, if_pos hz]; rfl
    · rw [if_neg hz, if_neg hz, show st.closed.proc = st.proc from rfl]
      cases encodeLzhuf m tab st.proc h.originalSize body with
      | error x => rfl
      | ok r =>
        simp only [ok_bind]
        by_cases hr : r.packed < r.original
        · rw [if_pos hr, if_pos hr]
          cases writeHeader f tab (e.gst h.stamp) { h with crc := r.crc, method := r.method, originalSize := r.original, packedSize := r.packed } <;> rfl
        · rw [if_neg hr, if_neg hr]
          cases copyfile h.originalSize r.rest with
          | error x => rfl
          | ok c =>
            obtain ⟨o, n, _⟩ := c
            simp only [ok_bind]
            cases writeHeader f tab (e.gst h.stamp) { h with crc := 0, method := lh0, originalSize := n, packedSize := n } <;> rfl

theorem addOne_keepsOld {f : Fmt} {tab : Arr} {e : Env} {m : Nat} {h : Hdr} {body : List Nat} {st st' : AddSt} (ha : addOne f tab e m h body st = .ok st') : st'.old = st.old := by
  unfold addOne at ha
  obtain ⟨w, _, ha⟩ := bind_ok ha
  split at ha
  · cases ha; rfl
  · obtain ⟨r, _, ha⟩ := bind_ok ha
    split at ha
    · obtain ⟨_, _, ha⟩ := bind_ok ha
      cases ha; rfl
    · obtain ⟨c, _, ha⟩ := bind_ok ha
      obtain ⟨_, _, ha⟩ := bind_ok ha
      cases ha; rfl

theorem appendOne_closed (f : Fmt) (tab : Arr) (e : Env) (m level : Nat) (name body : List Nat) (st : AddSt) (hs : st.old = none) :
    appendOne f tab e m level name body st.closed = (appendOne f tab e m level name body st).map (Option.map AddSt.closed) ∧
    ∀ st', appendOne f tab e m level name body st = .ok (some st') → st'.old = none := by
  constructor
  · unfold appendOne
    simp only [hs, show st.closed.old = some [] from rfl]
    rw [addOne_closed]
    cases addOne f tab e m (initHeader e level name body.length false) body st <;> rfl
  · intro st' h
    unfold appendOne at h
    simp only [hs] at h
    obtain ⟨s, h1, h⟩ := bind_ok h
    cases h
    rw [addOne_keepsOld h1, hs]

theorem appendTimes_closed (f : Fmt) (tab : Arr) (e : Env) (m level : Nat) (name body : List Nat) (n : Nat) : ∀ st : AddSt, st.old = none →
    appendTimes f tab e m level name body n st.closed = (appendTimes f tab e m level name body n st).map (Option.map AddSt.closed) ∧
    ∀ st', appendTimes f tab e m level name body n st = .ok (some st') → st'.old = none := by
  induction n with
  | zero => exact fun st hs => ⟨rfl, fun st' h => by cases h; exact hs⟩
  | succ n ih =>
    intro st hs
    obtain ⟨h1, h2⟩ := appendOne_closed f tab e m level name body st hs
    unfold appendTimes
    rw [h1]
    cases ha : appendOne f tab e m level name body st with
    | error x => exact ⟨rfl, fun st' h => by cases h⟩
    | ok o =>
      cases o with
      | none => exact ⟨rfl, fun st' h => by cases h⟩
      | some s => exact ih s (h2 s ha)

theorem addItems_closed (f : Fmt) (tab : Arr) (e : Env) (up : List Nat → List Nat) (m level : Nat) (arch : List Nat) (excl : List (List Nat))
    (items : List (List Nat × Option (List Nat))) : ∀ st : AddSt, st.old = none →
    addItems f tab e up m level arch excl items st.closed = (addItems f tab e up m level arch excl items st).map (Option.map AddSt.closed) ∧
    ∀ st', addItems f tab e up m level arch excl items st = .ok (some st') → st'.old = none := by
  induction items with
  | nil => exact fun st hs => ⟨rfl, fun st' h => by cases h; exact hs⟩
  | cons x items ih =>
    intro st hs
    obtain ⟨name, body⟩ := x
    unfold addItems
    by_cases hn : name = arch
    · simp only [if_pos hn]
      exact ih st hs
    · simp only [if_neg hn]
      cases body with
      | none => exact ih st hs
      | some body =>
        obtain ⟨h1, h2⟩ := appendTimes_closed f tab e m level name body (timesAdded up excl name) st hs
        simp only []
        rw [h1]
        cases ha : appendTimes f tab e m level name body (timesAdded up excl name) st with
        | error x => exact ⟨rfl, fun st' h => by cases h⟩
        | ok o =>
          cases o with
          | none => exact ⟨rfl, fun st' h => by cases h⟩
          | some s => exact ih s (h2 s ha)

/-- Adding to a closed archive is adding to no archive. -/
theorem commandAdd_closed (f : Fmt) (tab : Arr) (e : Env) (up : List Nat → List Nat) (m level : Nat) (arch : List Nat) (excl : List (List Nat)) (move : Bool)
    (items : List (List Nat × Option (List Nat))) (hi : items ≠ []) (p : Proc) :
    commandAdd f tab e up m level arch excl move items (some []) p = commandAdd f tab e up m level arch excl move items none p := by
  unfold commandAdd
  rw [if_neg hi, if_neg hi]
  obtain ⟨h1, h2⟩ := addItems_closed f tab e up m level arch excl items ⟨[], none, p⟩ rfl
  rw [show (⟨[], some [], p⟩ : AddSt) = AddSt.closed ⟨[], none, p⟩ from rfl, h1]
  cases ha : addItems f tab e up m level arch excl items ⟨[], none, p⟩ with
  | error x => rfl
  | ok o =>
    cases o with
    | none => rfl
    | some s =>
      have := h2 s ha
      obtain ⟨a, b, c⟩ := s
      cases this
      rfl

/-- **C88 is false** for the archive that is added to: after `Compress` or `CompressBytes` on a value, with no archive there, whatever was compressed and how it went, `CommandAdd`
on that value (with any other files and options set since) does to an existing archive what it does without one: nothing of the old archive, whatever it is, is kept. -/
theorem C88_false_closed (f : Fmt) (tab : Arr) (e : Env) (up : List Nat → List Nat) (m level : Nat) (arch name : List Nat) (p : Proc) (c : Option CallOut) (v0 v : Val)
    (hv : (∃ body, Val.compressBytes f tab e up m level arch name body none p v0 = .ok (c, v)) ∨
      ∃ body, Val.compress f tab e up m level arch name body none p v0 = .ok (c, v))
    (files : List (List Nat)) (hfiles : files ≠ []) (m2 level2 : Nat) (arch2 : List Nat) (body2 : List Nat → Option (List Nat)) (p2 : Proc) (old : List Nat) :
    ({ v with files := files, method := m2, level := level2 } : Val).add f tab e up arch2 body2 (some old) p2 =
      ({ Val.new with files := files, method := m2, level := level2, excl := v.excl, move := v.move } : Val).add f tab e up arch2 body2 none p2 := by
  have hn : v.newArchive = true := by
    rcases hv with ⟨body, h⟩ | ⟨body, h⟩
    · unfold Val.compressBytes at h
      simp only [] at h
      obtain ⟨_, _, h⟩ := bind_ok h
      cases h
      simp
    · unfold Val.compress at h
      simp only [] at h
      obtain ⟨_, _, h⟩ := bind_ok h
      cases h
      rfl
  unfold Val.add
  simp only [hn, true_and, if_pos hfiles, Option.map_some]
  rw [commandAdd_closed _ _ _ _ _ _ _ _ _ _ (by simpa using hfiles)]
  rw [if_neg (by simp [Val.new])]

/-- **C88**, new values (full statement above): a new value on which only the name of one file has been set adds it, if there is no archive, as a level-0 entry packed with the
method lh5, under the hypotheses of C49. -/
theorem C88_default_partial (f : Fmt) (hgen : f.generic = false) (tab : Arr) (ht : makeCrcTable = .ok tab) (e : Env) (hperm : e.perm < 512) (up : List Nat → List Nat)
    (arch name body : List Nat) (hname : name ≠ arch) (hb1 : (baseName name).length ≤ 221) (hb2 : 0 ∉ baseName name) (hb3 : 0x5c ∉ baseName name)
    (p : Proc) (hp : ∀ g, geoOf 5 = some g → ProcOk g p) (hD : IsBytes body) (hlen : body.length < 2 ^ 32) (hne : body ≠ [])
    (hfirst : body.getD 0 0 &&& 32 = 0) (hpack : Packs 5 tab p body) :
    ∃ c en, ({ Val.new with files := [name] } : Val).add f tab e up arch (fun _ => some body) none p = .ok (some c) ∧ c.err = false ∧ c.archive = some (archive [en] [0]) ∧
      en.Ok ∧ en.name = baseName name ∧ en.content = body ∧ en.method = [45, 108, 104, 53, 45] ∧ Conforms 5 en.packed body := by
  obtain ⟨c, en, k1, k2, k3, k4, _, k5, k6, _, _, _, _, _, k⟩ := C49_partial f hgen tab ht e hperm 5 (Or.inl rfl) arch name body hname hb1 hb2 hb3 p hp hD hlen hfirst (fun _ => hpack)
  rcases k with ⟨h, _⟩ | ⟨_, h1, h2⟩
  · exact absurd h hne
  · refine ⟨c, en, ?_, k2, k3, k4, k5, k6, h1, h2⟩
    rw [← k1]
    unfold Val.add compressBytes
    rw [if_neg (by simp [Val.new])]
    exact commandAdd_up f tab e up 5 0 arch false [(name, some body)] none p

/-- **C88 is false**, the two together: whatever archive there is (`old`), a value that has compressed a file into a new archive and is then told to add one other file replaces
the archive by one with that file only, without an error. -/
theorem C88_false_replaced (f : Fmt) (hgen : f.generic = false) (tab : Arr) (ht : makeCrcTable = .ok tab) (e : Env) (hperm : e.perm < 512) (up : List Nat → List Nat)
    (arch n1 name body : List Nat) (b1 : List Nat → Option (List Nat)) (p1 : Proc) (m level : Nat) (c1 : Option CallOut) (v : Val)
    (hv : Val.compress f tab e up m level arch n1 b1 none p1 Val.new = .ok (c1, v))
    (hname : name ≠ arch) (hb1 : (baseName name).length ≤ 221) (hb2 : 0 ∉ baseName name) (hb3 : 0x5c ∉ baseName name)
    (p : Proc) (hp : ∀ g, geoOf 5 = some g → ProcOk g p) (hD : IsBytes body) (hlen : body.length < 2 ^ 32) (hne : body ≠ [])
    (hfirst : body.getD 0 0 &&& 32 = 0) (hpack : Packs 5 tab p body) (old : List Nat) :
    ∃ c en, ({ v with files := [name], method := 5, level := 0 } : Val).add f tab e up arch (fun _ => some body) (some old) p = .ok (some c) ∧ c.err = false ∧
      c.archive = some (archive [en] [0]) ∧ en.Ok ∧ en.name = baseName name ∧ en.content = body := by
  obtain ⟨c, en, h1, h2, h3, h4, h5, h6, _⟩ := C88_default_partial f hgen tab ht e hperm up arch name body hname hb1 hb2 hb3 p hp hD hlen hne hfirst hpack
  refine ⟨c, en, ?_, h2, h3, h4, h5, h6⟩
  rw [C88_false_closed f tab e up m level arch n1 p1 c1 Val.new v (Or.inr ⟨b1, hv⟩) [name] (by simp), ← h1]
  unfold Val.compress at hv
  simp only [] at hv
  obtain ⟨_, _, hv⟩ := bind_ok hv
  cases hv
  rfl

/-- `Compress` of an empty file `a` into a new archive `x` ends normally (the hypothesis of `C88_false_closed` and `C88_false_replaced`). -/
example : (do
    let tab ← makeCrcTable
    let env : Env := ⟨0, 0o644, 0, 0, fun _ => ⟨1970, 1, 1, 0, 0, 0⟩⟩
    let (c, v) ← Val.compress ⟨false, false⟩ tab env id 5 0 [120] [97] (fun _ => some []) none Proc.fresh Val.new
    .ok (c.map (fun c => c.err), v.newArchive, c.isSome) : G _) = .ok (some false, true, true) := by decide +kernel

/-- The other hypotheses: see the example beside `C88_false`. -/
example (tab : Arr) (ht : makeCrcTable = .ok tab) : Packs 5 tab Proc.fresh sampleBody ∧ IsBytes sampleBody ∧ sampleBody.getD 0 0 &&& 32 = 0 ∧ sampleBody ≠ [] :=
  ⟨sampleBody_packs tab ht, by intro x hx; rw [List.eq_of_mem_replicate hx]; decide, by decide, by decide⟩

end Lha
