import Verif.Props.C01
import Verif.Props.C20
import Verif.Model.Methods
/-!
# C70: the compression method asked for is used, or refused

`CompressBytes` (and `Compress`, `CommandAdd`) take a method number.  The property: the call either returns an error, or the entry is
compressed with that method and can be read again.  It is false in two ways: most numbers are silently replaced by 0 (stored, which loses the body,
C20), and 1 writes data that the decoder of `-lh1-` does not understand.
-/

namespace Lha

open Spec

theorem encodeLzhuf_none {m : Nat} (hm : geoOf m = none) (tab : Arr) (p : Proc) (size : Nat) (inp : List Nat) :
    encodeLzhuf m tab p size inp = encodeLzhuf 0 tab p size inp := by
  unfold encodeLzhuf
  rw [hm, show geoOf 0 = none from rfl]

theorem addOne_none {m : Nat} (hm : geoOf m = none) (f : Fmt) (tab : Arr) (e : Env) :
    addOne f tab e m = addOne f tab e 0 := by
  funext h body st
  unfold addOne
  simp only [encodeLzhuf_none hm]

theorem appendTimes_none {m : Nat} (hm : geoOf m = none) (f : Fmt) (tab : Arr) (e : Env) (level : Nat) (name body : List Nat) :
    ∀ n st, appendTimes f tab e m level name body n st = appendTimes f tab e 0 level name body n st
  | 0, _ => rfl
  | n + 1, st => by
    unfold appendTimes appendOne
    simp only [addOne_none hm, appendTimes_none hm f tab e level name body n]

theorem addItems_none {m : Nat} (hm : geoOf m = none) (f : Fmt) (tab : Arr) (e : Env) (up : List Nat → List Nat) (level : Nat)
    (archive : List Nat) (excl : List (List Nat)) :
    ∀ items st, addItems f tab e up m level archive excl items st = addItems f tab e up 0 level archive excl items st
  | [], _ => rfl
  | (name, body) :: items, st => by
    unfold addItems
    cases body with
    | none => simp only [addItems_none hm f tab e up level archive excl items]
    | some b => simp only [appendTimes_none hm, addItems_none hm f tab e up level archive excl items]

/-- **C70 is false for every method number but 1, 5, 6, 7**: the call does exactly what it does for method 0, whatever the arguments and
the state of the process; no error is returned for the number. -/
theorem C70_ignored (m : Nat) (hm : m ≠ 1 ∧ m ≠ 5 ∧ m ≠ 6 ∧ m ≠ 7) (f : Fmt) (tab : Arr) (e : Env) (level : Nat)
    (archive name body : List Nat) (arch : Option (List Nat)) (p : Proc) :
    compressBytes f tab e m level archive name body arch p = compressBytes f tab e 0 level archive name body arch p ∧
    compress f tab e m level archive name (some body) arch p = compress f tab e 0 level archive name (some body) arch p ∧
    ∀ up excl move items, commandAdd f tab e up m level archive excl move items arch p =
      commandAdd f tab e up 0 level archive excl move items arch p := by
  have hg : geoOf m = none := by
    unfold geoOf
    split <;> simp_all
  have hc : ∀ up excl move items arch, commandAdd f tab e up m level archive excl move items arch p =
      commandAdd f tab e up 0 level archive excl move items arch p := by
    intro up excl move items arch
    unfold commandAdd
    simp only [addItems_none hg]
  refine ⟨?_, ?_, fun up excl move items => hc up excl move items arch⟩
  · unfold compressBytes
    cases arch with
    | none => exact hc _ _ _ _ _
    | some _ => rfl
  · unfold compress
    cases arch with
    | none => exact hc _ _ _ _ _
    | some _ => rfl

/-- … so with `m = 4`, say, every body starting with a zero byte is lost without any error being reported. -/
theorem C70_lost (f : Fmt) (oth : Oth) (tab : Arr) (e : Env) (hperm : e.perm < 512) (m : Nat) (hm : m ≠ 1 ∧ m ≠ 5 ∧ m ≠ 6 ∧ m ≠ 7)
    (archive name body : List Nat) (hname : name ≠ archive) (p : Proc) (hf : Hf) :
    ∃ a g, compressBytes f tab e m 0 archive name (0 :: body) none p = .ok (some ⟨false, some a, [], p⟩) ∧
      headers f oth tab Opts.default hf (some a) = .ok ⟨false, [g], hf⟩ ∧
      decompresBytes f oth tab false g.name hf (some a) = .ok ⟨false, [], hf⟩ := by
  obtain ⟨a, g, h1, h2, h3⟩ := C20_silent_loss f oth tab e hperm 0 rfl archive name body hname p hf
  exact ⟨a, g, by rw [(C70_ignored m hm f tab e 0 archive name (0 :: body) none p).1]; exact h1, h2, h3⟩

/-- Everything a fresh process does to compress forty times `A` with method 1, list the archive and read the entry in another fresh process:
the method in the header, and what `DecompresBytes` returns. -/
def lh1Trip : G (Bool × List (List Nat) × Bool × List Nat) := do
  let tab ← makeCrcTable
  match ← compressBytes ⟨false, false⟩ tab ⟨0, 0o644, 0, 0, fun _ => ⟨1970, 1, 1, 0, 0, 0⟩⟩ 1 0 [120] [97] sampleBody none Proc.fresh with
  | none => diverge
  | some c => do
    let hs ← headers ⟨false, false⟩ (others tab) tab Opts.default Hf.fresh c.archive
    let r ← decompresBytes ⟨false, false⟩ (others tab) tab false (hs.headers.getD 0 newHdr).name Hf.fresh c.archive
    .ok (c.err, hs.headers.map (·.method), r.err, r.data)

/-- **C70 is false for method 1**: no error is returned by `CompressBytes`, the entry is listed as `-lh1-`, but it cannot be read back. -/
theorem C70_lh1_false : lh1Trip = .ok (false, [[45, 108, 104, 49, 45]], true, []) := by decide +kernel

/-- What holds (full statement: for every method number and every body the call returns an error, or this): for 5, 6 and 7 and the bodies of C01, the
entry is marked with the method asked for and gives back the body. -/
theorem C70_honoured_partial (f : Fmt) (oth : Oth) (tab : Arr) (ht : makeCrcTable = .ok tab) (e : Env) (hperm : e.perm < 512)
    (m : Nat) (hm : m = 5 ∨ m = 6 ∨ m = 7) (archive name body : List Nat) (hname : name ≠ archive)
    (p : Proc) (hp : ∀ g, geoOf m = some g → ProcOk g p) (hD : IsBytes body) (hlen : body.length < 2 ^ 32) (hne : body ≠ [])
    (hfirst : body.getD 0 0 &&& 32 = 0) (hpack : Packs m tab p body) (h7 : m = 7 → body.length < 65536)
    (hf : Hf) (hok : HfOk hf) :
    ∃ c a g hf1 hf2, compressBytes f tab e m 0 archive name body none p = .ok (some c) ∧ c.err = false ∧ c.archive = some a ∧
      headers f oth tab Opts.default hf (some a) = .ok ⟨false, [g], hf1⟩ ∧ g.method = [45, 108, 104, 48 + m, 45] ∧
      decompresBytes f oth tab false g.name hf1 (some a) = .ok ⟨false, body, hf2⟩ := by
  obtain ⟨c, a, g, hf1, h1, h2, h3, h4, k1, h5, _, _, _, h9⟩ := C01_round_trip_partial f oth tab ht e hperm m hm archive name body hname
    p hp hD hlen hfirst (fun _ => hpack) h7 hf hok
  obtain ⟨hf2, _, h5⟩ := h5 hf1 k1
  exact ⟨c, a, g, hf1, hf2, h1, h2, h3, h4, h9 hne, h5⟩

/-- The hypotheses are met (see also the example in C01). -/
example (tab : Arr) (ht : makeCrcTable = .ok tab) : Packs 5 tab Proc.fresh sampleBody ∧ sampleBody ≠ [] ∧
    ((4 : Nat) ≠ 1 ∧ (4 : Nat) ≠ 5 ∧ (4 : Nat) ≠ 6 ∧ (4 : Nat) ≠ 7) :=
  ⟨sampleBody_packs tab ht, by decide, by decide⟩

end Lha
