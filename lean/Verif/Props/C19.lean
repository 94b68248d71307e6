import Verif.Props.C01
/-!
# C19: adding to an existing archive

False: if the archive exists, `os.Stat` returns a nil error, for which `os.IsExist` is false, and that nil error is returned.
-/

namespace Lha

open Spec

/-- **C19 is false** for every existing archive, file, method and header level: no error, nothing changed. -/
theorem C19_false (f : Fmt) (tab : Arr) (e : Env) (m level : Nat) (archive name body old : List Nat) (p : Proc) :
    compressBytes f tab e m level archive name body (some old) p = .ok (some ⟨false, some old, [], p⟩) ∧
      compress f tab e m level archive name (some body) (some old) p = .ok (some ⟨false, some old, [], p⟩) := ⟨rfl, rfl⟩

/-- What holds (full statement: also for existing archives): with no archive there, the file is added (the archive produced lists it), under
the hypotheses of C01. -/
theorem C19_new_partial (f : Fmt) (oth : Oth) (tab : Arr) (ht : makeCrcTable = .ok tab) (e : Env) (hperm : e.perm < 512)
    (m : Nat) (hm : m = 5 ∨ m = 6 ∨ m = 7) (archive name body : List Nat) (hname : name ≠ archive)
    (p : Proc) (hp : ∀ g, geoOf m = some g → ProcOk g p) (hD : IsBytes body) (hlen : body.length < 2 ^ 32)
    (hfirst : body.getD 0 0 &&& 32 = 0) (hpack : body ≠ [] → Packs m tab p body) (h7 : m = 7 → body.length < 65536)
    (hf : Hf) (hok : HfOk hf) :
    ∃ c a g hf1, compress f tab e m 0 archive name (some body) none p = .ok (some c) ∧ c.err = false ∧ c.archive = some a ∧
      headers f oth tab Opts.default hf (some a) = .ok ⟨false, [g], hf1⟩ ∧ g.originalSize = body.length := by
  obtain ⟨c, a, g, hf1, h1, h2, h3, h4, _, _, h6, _⟩ := C01_round_trip_partial f oth tab ht e hperm m hm archive name body hname p hp hD hlen hfirst
    hpack h7 hf hok
  exact ⟨c, a, g, hf1, h1, h2, h3, h4, h6⟩

/-- The hypotheses are met: see the example after `C01_round_trip_partial`.  An existing archive, changed by nothing: -/
example (tab : Arr) : compressBytes ⟨false, false⟩ tab ⟨0, 0o644, 0, 0, fun _ => ⟨1970, 1, 1, 0, 0, 0⟩⟩ 5 0 [120] [97] [65, 65] (some [0]) Proc.fresh =
    .ok (some ⟨false, some [0], [], Proc.fresh⟩) := rfl

end Lha
