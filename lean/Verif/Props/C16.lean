import Verif.Proof.Header
/-!
# C16: level-1 headers cannot be written

The property is false: `writeHeaderLevel1` slices beyond the capacity of its buffer (or with a negative bound).
-/

namespace Lha

open Spec

/-- `WriteHeader` panics for every level-1 header it does not refuse (it refuses symbolic links without `'|'` in the
name). -/
theorem C16_false (f : Fmt) (tab : Arr) (gst : Nat) (h : Hdr) (hl : h.level = 1)
    (hsym : isSymlinkMode h.mode = false ∨ 0x7c ∈ h.name) : writeHeader f tab gst h = .error .panic := by
  unfold writeHeader
  simp only [hl]
  rw [if_neg (by rcases hsym with e | e <;> simp [e]), if_neg (by omega), if_pos trivial]
  have : ∀ P, writeLevel1 h P = panic := by
    intro P
    unfold writeLevel1
    split
    · rfl
    · unfold takeExact
      split
      · rw [ok_bind]
        simp only []
        rw [if_neg (by simp)]
      · rfl
  rw [this]; rfl

/-- **C16, what holds** (the full statement: every level-1 header is written): the call returns only for headers it refuses, symbolic links
without a target, and then writes nothing.  Headers of levels 0 and 3 never make it crash: level 0 is written, level 3 refused. -/
theorem C16_partial (f : Fmt) (tab : Arr) (gst : Nat) (h : Hdr) :
    (h.level = 1 → (writeHeader f tab gst h = .ok none ↔ isSymlinkMode h.mode = true ∧ 0x7c ∉ h.name)) ∧
    (h.level = 0 → (isSymlinkMode h.mode = false ∨ 0x7c ∈ h.name) → 5 ≤ h.method.length →
      ∃ bytes, writeHeader f tab gst h = .ok (some bytes) ∧ bytes.getD 20 0 = 0) ∧
    (3 ≤ h.level → writeHeader f tab gst h = .ok none) := by
  refine ⟨fun hl => ⟨fun e => ?_, fun ⟨h1, h2⟩ => ?_⟩, fun hl hs hm => ?_, fun hl => ?_⟩
  · by_contra hc
    rw [C16_false f tab gst h hl (by
      by_contra hn
      simp only [not_or, Bool.not_eq_false] at hn
      exact hc hn)] at e
    cases e
  · unfold writeHeader
    simp only []
    rw [if_pos ⟨h1, by simpa using h2⟩]
  · unfold writeHeader
    simp only [hl]
    rw [if_neg (by rcases hs with e | e <;> simp [e]), if_pos trivial]
    refine ⟨_, rfl, ?_⟩
    unfold writeLevel0
    simp only [hl]
    have h5 : (h.method.take 5).length = 5 := by simp; omega
    match hq : h.method.take 5, h5 with
    | [a, b, c, d, e], _ => simp [le32]
  · unfold writeHeader
    simp only []
    split
    · rfl
    · rw [if_neg (by omega), if_neg (by omega), if_neg (by omega)]

/-- No level-1 header is ever written. -/
theorem C16_never_written (f : Fmt) (tab : Arr) (gst : Nat) (h : Hdr) (hl : h.level = 1) (bytes : List Nat) :
    writeHeader f tab gst h ≠ .ok (some bytes) := by
  by_cases hs : isSymlinkMode h.mode = false ∨ 0x7c ∈ h.name
  · rw [C16_false f tab gst h hl hs]; intro e; cases e
  · intro e
    unfold writeHeader at e
    simp only [not_or] at hs
    rw [if_pos ⟨by simpa using hs.1, by simpa using hs.2⟩] at e
    cases e

/-- An ordinary file: the theorem applies. -/
example : ({ newHdr with level := 1, mode := 0o100644, name := [97] } : Hdr).level = 1 ∧
    isSymlinkMode ({ newHdr with level := 1, mode := 0o100644, name := [97] } : Hdr).mode = false := by decide

/-- A refused one: a symbolic link without target. -/
example : ({ newHdr with level := 1, mode := 0o120777, name := [97] } : Hdr).level = 1 ∧
    isSymlinkMode ({ newHdr with level := 1, mode := 0o120777, name := [97] } : Hdr).mode = true ∧
    0x7c ∉ ({ newHdr with level := 1, mode := 0o120777, name := [97] } : Hdr).name := by decide

/-- Reading a level-1 header with extended headers never succeeds either: `GetHeader` returns an error or faults as soon
as the size of the first extended header is not zero. -/
theorem C16_extended_never_read (h : Hdr) (d inp : List Nat) (x : Hdr × List Nat) (hs0 : d.getD 0 0 ≠ 0)
    (hx : getLevel1 h d inp = .ok (some x)) : x.1.headerSize = d.getD 0 0 + 2 := by
  unfold getLevel1 at hx
  rw [getByte_lt (by omega), ok_bind, getByte_lt (by omega), ok_bind] at hx
  split at hx
  · cases hx
  · split at hx
    · cases hx
    · split at hx
      · cases hx
      · obtain ⟨⟨m, _⟩, _, hx⟩ := bind_ok hx
        obtain ⟨_, _, hx⟩ := bind_ok hx
        obtain ⟨_, _, hx⟩ := bind_ok hx
        obtain ⟨_, _, hx⟩ := bind_ok hx
        obtain ⟨_, _, hx⟩ := bind_ok hx
        obtain ⟨_, _, hx⟩ := bind_ok hx
        obtain ⟨_, _, hx⟩ := bind_ok hx
        obtain ⟨⟨_, i⟩, _, hx⟩ := bind_ok hx
        obtain ⟨_, _, hx⟩ := bind_ok hx
        obtain ⟨_, _, hx⟩ := bind_ok hx
        obtain ⟨_, _, hx⟩ := bind_ok hx
        obtain ⟨_, _, hx⟩ := bind_ok hx
        split at hx
        · obtain ⟨r, h1, hx⟩ := bind_ok hx
          cases r with
          | none => cases hx
          | some r => exact absurd h1 (extLoop_never _ _ _ _ _ hs0)
        · cases hx; rfl

/-- A level 1 header that is read (it has no extended headers), for `C16_extended_never_read`. -/
example : [26, 54, 45, 108, 104, 48, 45, 0, 0, 0, 0, 0, 0, 0, 0, 0, 0, 0, 0, 0x20, 1].getD 0 0 ≠ 0 ∧
    (getLevel1 newHdr [26, 54, 45, 108, 104, 48, 45, 0, 0, 0, 0, 0, 0, 0, 0, 0, 0, 0, 0, 0x20, 1] [1, 97, 0, 0, 85, 0, 0]).map Option.isSome =
      .ok true :=
  ⟨by decide, by decide +kernel⟩

end Lha
