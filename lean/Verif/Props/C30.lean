import Verif.Proof.Header
/-!
# C30: later entries are not parsed independently of earlier ones

Extraction reads every header into the same `LzHeader`; `getHeaderLevel0` uses the length of the name read before as a limit
for the next name.  The property is false.
-/

namespace Lha

open Spec

/-- Headers of two files, `a` and `bcd`, as `WriteHeader` produces them. -/
def hdrA : Hdr := { newHdr with method := lh0, level := 0, name := [97], crc := 0x1111, mode := 0o100644, attr := 0x20 }
def hdrB : Hdr := { newHdr with method := lh0, level := 0, name := [98, 99, 100], crc := 0x2222, mode := 0o100644, attr := 0x20 }

/-- Name and CRC that `GetHeader` gives for `hdrB` in receiver `g`. -/
def readB (g : Hdr) : G (List Nat × Nat) :=
  (getHeader ⟨false, false⟩ (Arr.mk' 256 0) g (writeLevel0 ⟨false, false⟩ 0 hdrB (hdrB.name ++ [0]))).map (fun r => match r with
    | .got g _ => (g.name, g.crc)
    | _ => ([], 0))

/-- Parsed first, the second header gives name `bcd` and CRC 0x2222; parsed after the first one, into the header it filled in,
it gives another name and another CRC, without any error. -/
theorem C30_false :
    readB newHdr = .ok ([98, 99, 100, 0], 0x2222) ∧
    ∃ g, getHeader ⟨false, false⟩ (Arr.mk' 256 0) newHdr (writeLevel0 ⟨false, false⟩ 0 hdrA (hdrA.name ++ [0])) = .ok (.got g []) ∧
      readB g = .ok ([98, 0, 0, 0], 0x6463) := by
  refine ⟨by decide +kernel, ?_⟩
  have h : (getHeader ⟨false, false⟩ (Arr.mk' 256 0) newHdr (writeLevel0 ⟨false, false⟩ 0 hdrA (hdrA.name ++ [0])) >>= fun r =>
      match r with
      | .got g [] => readB g
      | _ => panic) = .ok ([98, 0, 0, 0], 0x6463) := by decide +kernel
  obtain ⟨r, h1, h2⟩ := bind_ok h
  split at h2
  · exact ⟨_, h1, h2⟩
  · cases h2

/-- What holds: a level-0 header written by the library is parsed the same way into any receiver whose previous name is at least
as long (names shrinking through the archive), in the Unix format. -/
theorem C30_partial (f : Fmt) (tab : Arr) (gst : Nat) (h g : Hdr) (R : List Nat) (hf : f.generic = false) (hlevel : h.level = 0)
    (hmethod : h.method.length = 5) (hmode : h.mode < 2 ^ 16) (hsym : isSymlinkMode h.mode = false)
    (hgm : g.method.length = 5) (hg : (cstr h.name).length < g.name.length) :
    ∃ bytes g1 g2, writeHeader f tab gst h = .ok (some bytes) ∧
      getHeader f tab newHdr (bytes ++ R) = .ok (.got g1 R) ∧ getHeader f tab g (bytes ++ R) = .ok (.got g2 R) ∧
      g1.method = g2.method ∧ g1.packedSize = g2.packedSize ∧ g1.originalSize = g2.originalSize ∧ g1.name = g2.name ∧
      g1.crc = g2.crc ∧ g1.hasCrc = g2.hasCrc ∧ g1.extendType = g2.extendType ∧ g1.stamp = g2.stamp ∧ g1.mode = g2.mode ∧
      g1.uid = g2.uid ∧ g1.gid = g2.gid ∧ g1.attr = g2.attr := by
  have hm : h.mode % 65536 = h.mode := Nat.mod_eq_of_lt (by simpa using hmode)
  have hlim : limit0 f = 221 := by simp [limit0, hf]
  obtain ⟨g1, a, a1, a2, a3, a4, a5, a6, a7, a8, a9, a10, a11, a12, a13, a14⟩ := header0_read f tab gst newHdr h R hmethod hlevel
    (by rw [hm]; exact hsym) newHdr_method (by rw [hlim, newHdr_name, List.length_take]; omega) (by simp [hf])
  obtain ⟨g2, b, b1, b2, b3, b4, b5, b6, b7, b8, b9, b10, b11, b12, b13, b14⟩ := header0_read f tab gst g h R hmethod hlevel
    (by rw [hm]; exact hsym) hgm (by rw [List.length_take]; omega) (by simp [hf])
  exact ⟨_, g1, g2, writeHeader_level0 f tab gst h hlevel hsym, a, b, by rw [a1, b1], by rw [a2, b2], by rw [a3, b3], by rw [a6, b6],
    by rw [a8, b8], by rw [a9, b9], by rw [a10, b10], by rw [a11, b11], by rw [a12, b12], by rw [a13, b13], by rw [a14, b14],
    by rw [a4, b4]⟩

example : hdrA.level = 0 ∧ hdrA.method.length = 5 ∧ hdrA.mode < 2 ^ 16 ∧ isSymlinkMode hdrA.mode = false ∧
    (cstr hdrA.name).length < hdrB.name.length := by decide

end Lha
