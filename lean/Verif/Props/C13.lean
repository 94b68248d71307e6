import Verif.Proof.Header
/-!
# C13: level-0 header round trip
-/

namespace Lha

open Spec

/-- A level-0 header of a file that is not a symbolic link, written by `WriteHeader` in the Unix format and read back
by `GetHeader` into a fresh header: all fields are preserved and the reader is left exactly behind the header,
whatever follows. -/
theorem C13_header_round_trip (f : Fmt) (tab : Arr) (gst : Nat) (h : Hdr) (R : List Nat)
    (hf : f.generic = false) (hlevel : h.level = 0) (hmethod : h.method.length = 5)
    (hpacked : h.packedSize < 2 ^ 32) (horiginal : h.originalSize < 2 ^ 32) (hcrc : h.crc < 2 ^ 16)
    (hmode : h.mode < 2 ^ 16) (hsym : isSymlinkMode h.mode = false)
    (hname : 0x5c ∉ cstr h.name) (hlen : (cstr h.name).length ≤ 221) :
    ∃ bytes g, writeHeader f tab gst h = .ok (some bytes) ∧
      getHeader f tab newHdr (bytes ++ R) = .ok (.got g R) ∧
      g.method = h.method ∧ g.packedSize = h.packedSize ∧ g.originalSize = h.originalSize ∧ g.attr = h.attr ∧
      g.level = h.level ∧ g.name = cstr h.name ++ [0] ∧ g.crc = h.crc ∧ g.hasCrc = true ∧ g.extendType = 0x55 ∧
      g.stamp = h.stamp % 2 ^ 32 ∧ g.mode = h.mode ∧ g.uid = h.uid % 2 ^ 16 ∧ g.gid = h.gid % 2 ^ 16 := by
  have hm : h.mode % 65536 = h.mode := Nat.mod_eq_of_lt (by simpa using hmode)
  have hlim : limit0 f = 221 := by simp [limit0, hf]
  have htake : (cstr h.name).take (limit0 f) = cstr h.name := by
    rw [hlim]; exact List.take_of_length_le hlen
  obtain ⟨g, e, e1, e2, e3, e4, e5, e6, e7, e8, e9, e10, e11, e12, e13, e14⟩ := header0_read f tab gst newHdr h R hmethod hlevel
    (by rw [hm]; exact hsym) newHdr_method (by rw [htake, newHdr_name]; omega) (by simp [hf])
  refine ⟨_, g, writeHeader_level0 f tab gst h hlevel hsym, e, e1, ?_, ?_, e4, ?_, ?_, ?_, e9, ?_, ?_, ?_, ?_, ?_⟩
  · rw [e2, Nat.mod_eq_of_lt hpacked]
  · rw [e3, Nat.mod_eq_of_lt horiginal]
  · rw [e5, hlevel]
  · rw [e6, htake]; exact rName_wByte f (Or.inl hf) _ hname
  · rw [e8, Nat.mod_eq_of_lt hcrc]
  · rw [e10]; simp [hf]
  · rw [e11]; simp [hf]
  · rw [e12]; simp [hf]; simpa using hmode
  · rw [e13]; simp [hf]
  · rw [e14]; simp [hf]

/-- The generic format (no Unix information): everything the format holds is preserved. -/
theorem C13_generic_round_trip (f : Fmt) (tab : Arr) (gst : Nat) (h : Hdr) (R : List Nat)
    (hf : f.generic = true) (hcase : f.convertCase = false) (hlevel : h.level = 0) (hmethod : h.method.length = 5)
    (hpacked : h.packedSize < 2 ^ 32) (horiginal : h.originalSize < 2 ^ 32) (hcrc : h.crc < 2 ^ 16)
    (hmode : h.mode < 2 ^ 16) (hsym : isSymlinkMode h.mode = false)
    (hname : 0x5c ∉ cstr h.name) (hlen : (cstr h.name).length ≤ 233) :
    ∃ bytes g, writeHeader f tab gst h = .ok (some bytes) ∧
      getHeader f tab newHdr (bytes ++ R) = .ok (.got g R) ∧
      g.method = h.method ∧ g.packedSize = h.packedSize ∧ g.originalSize = h.originalSize ∧ g.attr = h.attr ∧
      g.level = h.level ∧ g.name = cstr h.name ++ [0] ∧ g.crc = h.crc ∧ g.hasCrc = true ∧ g.extendType = 0 ∧
      g.stamp = gst % 2 ^ 32 := by
  have hm : h.mode % 65536 = h.mode := Nat.mod_eq_of_lt (by simpa using hmode)
  have hlim : limit0 f = 233 := by simp [limit0, hf]
  have htake : (cstr h.name).take (limit0 f) = cstr h.name := by
    rw [hlim]; exact List.take_of_length_le hlen
  obtain ⟨g, e, e1, e2, e3, e4, e5, e6, e7, e8, e9, e10, e11, e12, e13, e14⟩ := header0_read f tab gst newHdr h R hmethod hlevel
    (by rw [hm]; exact hsym) newHdr_method (by rw [htake, newHdr_name]; omega) (fun _ => newHdr_ext)
  refine ⟨_, g, writeHeader_level0 f tab gst h hlevel hsym, e, e1, ?_, ?_, e4, ?_, ?_, ?_, e9, ?_, ?_⟩
  · rw [e2, Nat.mod_eq_of_lt hpacked]
  · rw [e3, Nat.mod_eq_of_lt horiginal]
  · rw [e5, hlevel]
  · rw [e6, htake]; exact rName_wByte f (Or.inr hcase) _ hname
  · rw [e8, Nat.mod_eq_of_lt hcrc]
  · rw [e10]; simp [hf]
  · rw [e11]; simp [hf]

/-- A name that does not fit is cut, nothing else is lost. -/
theorem C13_long_name_truncated (f : Fmt) (tab : Arr) (gst : Nat) (h : Hdr) (R : List Nat)
    (hf : f.generic = false) (hlevel : h.level = 0) (hmethod : h.method.length = 5)
    (hmode : h.mode < 2 ^ 16) (hsym : isSymlinkMode h.mode = false) (hname : 0x5c ∉ cstr h.name) :
    ∃ bytes g, writeHeader f tab gst h = .ok (some bytes) ∧
      getHeader f tab newHdr (bytes ++ R) = .ok (.got g R) ∧ g.name = (cstr h.name).take 221 ++ [0] ∧
      g.method = h.method ∧ g.packedSize = h.packedSize % 2 ^ 32 := by
  have hm : h.mode % 65536 = h.mode := Nat.mod_eq_of_lt (by simpa using hmode)
  have hlim : limit0 f = 221 := by simp [limit0, hf]
  obtain ⟨g, e, e1, e2, e3, e4, e5, e6, e7, e8, e9, e10, e11, e12, e13, e14⟩ := header0_read f tab gst newHdr h R hmethod hlevel
    (by rw [hm]; exact hsym) newHdr_method (by rw [hlim, newHdr_name, List.length_take]; omega) (by simp [hf])
  refine ⟨_, g, writeHeader_level0 f tab gst h hlevel hsym, e, ?_, e1, e2⟩
  rw [e6, hlim]
  exact rName_wByte f (Or.inl hf) _ (fun hc => hname (List.mem_of_mem_take hc))

/-- A header meeting every hypothesis: name `dir/a.txt` with trailing NULs, mode 0100644. -/
def sampleHdr : Hdr :=
  { newHdr with method := [45, 108, 104, 53, 45], packedSize := 70000, originalSize := 123456, attr := 0x20, level := 0,
                name := [100, 105, 114, 47, 97, 46, 116, 120, 116, 0, 0], crc := 0xBB3D, mode := 0o100644, uid := 1000,
                gid := 100, stamp := 1700000000, extendType := 0x55 }

example : sampleHdr.level = 0 ∧ sampleHdr.method.length = 5 ∧ sampleHdr.packedSize < 2 ^ 32 ∧ sampleHdr.originalSize < 2 ^ 32 ∧
    sampleHdr.crc < 2 ^ 16 ∧ sampleHdr.mode < 2 ^ 16 ∧ isSymlinkMode sampleHdr.mode = false ∧ 0x5c ∉ cstr sampleHdr.name ∧
    (cstr sampleHdr.name).length ≤ 221 ∧ cstr sampleHdr.name = [100, 105, 114, 47, 97, 46, 116, 120, 116] := by decide

end Lha
