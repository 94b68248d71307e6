import Verif.Props.C52
/-!
# C52: level-1 headers with bytes of their own

The format leaves room for an "extended area" between the byte of the system and the length of the first extended header; readers have to pass over it.
-/

namespace Lha

namespace Spec

/-- The entry with the bytes `X` in the extended area, no extended headers. -/
def Entry1.padded (e : Entry1) (X : List Nat) : List Nat :=
  let b := e.body ++ X ++ [0, 0]
  b.length :: b.sum % 256 :: b ++ e.packed

end Spec

open Spec

/-- `getLevel1` on a complete basic header with an extended area. -/
theorem getLevel1_extra (h : Hdr) (hs s : Nat) (method : List Nat) (packed original time attr : Nat) (nm : List Nat) (crc os : Nat) (X R : List Nat)
    (hm : method.length = 5) (hm' : h.method.length = 5) (hn : nm.length + X.length ≤ 230) (hl : nm.length ≤ h.name.length) (B : List Nat)
    (hB : B = method ++ le32 packed ++ le32 original ++ le32 time ++ [attr, 1, nm.length] ++ nm ++ le16 crc ++ [os] ++ X ++ le16 0)
    (hh : hs = B.length) (hsum : s = B.sum % 256) :
    getLevel1 h (hs :: s :: B.take 19) (B.drop 19 ++ R) =
      (do
        let name ← zeroAt nm nm.length
        .ok (some ({ hdr1 h hs method packed original time attr name crc os with headerSize := hs + 2 }, R))) := by
  have hlen : B.length = 25 + nm.length + X.length := by rw [hB]; simp [le32, le16, hm]; omega
  unfold getLevel1
  have x1 : getByte (hs :: s :: B.take 19) 0 = .ok hs := by simp [getByte]
  have x2 : getByte (hs :: s :: B.take 19) 1 = .ok s := by simp [getByte]
  rw [x1, ok_bind, x2, ok_bind, if_neg (by omega)]
  have x3 : readF (hs + 2 - 21) (B.drop 19 ++ R) = some (B.drop 19, R) := by
    unfold readF
    have y : hs + 2 - 21 = (B.drop 19).length := by simp [hh]
    have : B.drop 19 ≠ [] := by
      intro hh'
      rw [hh'] at y; simp at y; omega
    rw [if_neg (by simp; omega), y]
    simp
  rw [x3]
  simp only []
  have x4 : hs :: s :: B.take 19 ++ B.drop 19 = hs :: s :: B := by simp
  rw [x4]
  have x5 : calcSum (hs :: s :: B) 2 hs = s := by
    rw [calcSum_eq, hsum]
    simp [hh]
  rw [x5, if_neg (by simp)]
  generalize hd : hs :: s :: B = d
  have d2 : d.drop 2 = method ++ (le32 packed ++ (le32 original ++ (le32 time ++ ([attr, 1, nm.length] ++ (nm ++ (le16 crc ++ (os :: (X ++ (le16 0 ++ []))))))))) := by
    rw [← hd, hB]; simp
  have d7 : d.drop 7 = _ := drop_add_of (n := 5) d2 hm
  have d11 : d.drop 11 = _ := drop_add_of (n := 4) d7 rfl
  have d15 : d.drop 15 = _ := drop_add_of (n := 4) d11 rfl
  have d19 : d.drop 19 = _ := drop_add_of (n := 4) d15 rfl
  have d20 : d.drop 20 = 1 :: ([nm.length] ++ (nm ++ (le16 crc ++ (os :: (X ++ (le16 0 ++ [])))))) := drop_succ_of d19
  have d21 : d.drop 21 = nm.length :: (nm ++ (le16 crc ++ (os :: (X ++ (le16 0 ++ []))))) := drop_succ_of d20
  have d22 : d.drop 22 = nm ++ (le16 crc ++ (os :: (X ++ (le16 0 ++ [])))) := drop_succ_of d21
  have dc : d.drop (22 + nm.length) = le16 crc ++ (os :: (X ++ (le16 0 ++ []))) := drop_add_of d22 rfl
  have dx : d.drop (22 + nm.length + 2) = os :: (X ++ (le16 0 ++ [])) := drop_add_of (n := 2) dc rfl
  have de : d.drop (22 + nm.length + 3) = X ++ (le16 0 ++ []) := drop_succ_of dx
  have dw : d.drop (22 + nm.length + 3 + X.length) = le16 0 ++ [] := drop_add_of de rfl
  have q : hs + 2 - nm.length - 27 = X.length := by omega
  rw [getBytes_drop d2 hm (by omega) (by omega), ok_bind]
  simp only []
  rw [getLong_drop d7 (by omega), ok_bind, getLong_drop d11 (by omega), ok_bind, getLong_drop d15 (by omega), ok_bind,
    getByte_drop d19 (by omega), ok_bind, getByte_drop d20 (by omega), ok_bind, getByte_drop d21 (by omega), ok_bind,
    getBytes_drop d22 rfl (by omega) (by omega), ok_bind]
  simp only []
  simp only [q, getWord_drop dc (show 22 + nm.length + 1 < 4096 by omega), getByte_drop dx (show 22 + nm.length + 2 < 4096 by omega),
    getWord_drop dw (show 22 + nm.length + 3 + X.length + 1 < 4096 by omega), ok_bind]
  rfl

/-- **C52 (partial), extended area.**  Full statement: as for `C52_partial`, whatever is in the extended area.  Proved without extended headers and for names of at least one byte:
whatever bytes the area has, everything but the name is right, the name lacks its last byte, and the reader stands at the packed data. -/
theorem C52_extra_partial (f : Fmt) (tab : Arr) (e : Entry1) (ho : e.Ok) (hne : e.name ≠ []) (hx : e.exts = []) (hos : e.os = 0x55)
    (hd : 0x5c ∉ e.name) (X : List Nat) (hX : e.name.length + X.length ≤ 230) (R : List Nat) :
    ∃ g, getHeader f tab newHdr (e.padded X ++ R) = .ok (.got g (e.packed ++ R)) ∧ g.method = e.method ∧ g.packedSize = e.packed.length ∧
      g.originalSize = e.content.length ∧ g.crc = e.crc ∧ g.hasCrc = true ∧ g.attr = e.attr ∧ g.level = 1 ∧ g.stamp = e.dosTime ∧
      fileType g.mode = 0o100000 ∧ g.name = e.name.dropLast ++ [0] := by
  have hpk := ho.packed
  rw [hx] at hpk
  have hpk' : e.packed.length < 2 ^ 32 := by simpa [extChain] using hpk
  generalize hB : e.body ++ X ++ [0, 0] = B
  have hB' : B = e.method ++ le32 e.packed.length ++ le32 e.content.length ++ le32 e.dosTime ++
      [e.attr, 1, e.name.length] ++ e.name ++ le16 e.crc ++ [e.os] ++ X ++ le16 0 := by
    rw [← hB]; unfold Entry1.body; simp only [le_four, le_two, hx]; rfl
  have hlen : B.length = 25 + e.name.length + X.length := by rw [hB']; simp [le32, le16, ho.method]; omega
  have hlv : B.getD 18 0 = 1 := by
    have : B = (e.method ++ le32 e.packed.length ++ le32 e.content.length ++ le32 e.dosTime ++ [e.attr]) ++
        (1 :: (e.name.length :: e.name ++ le16 e.crc ++ [e.os] ++ X ++ le16 0)) := by
      rw [hB']; simp
    rw [this, List.getD_eq_getElem?_getD, List.getElem?_append_right (by simp [le32, ho.method])]
    simp [le32, ho.method]
  have hb : e.padded X ++ R = B.length :: B.sum % 256 :: B ++ (e.packed ++ R) := by
    unfold Entry1.padded
    rw [hB]
    simp
  rw [hb, getHeader_level1 f tab newHdr _ _ B _ rfl (by omega) hlv,
    getLevel1_extra newHdr B.length _ e.method _ _ _ _ e.name e.crc e.os X _ ho.method newHdr_method hX (by rw [newHdr_name]; omega) B hB' rfl rfl,
    zeroAt_last hne, ok_bind, ok_bind]
  simp only []
  refine ⟨_, by unfold finishHdr; simp only []; rw [if_neg (by show ¬ isSymlinkMode 0o100666 = true; decide)], ?_⟩
  simp only [hdr1, hos]
  refine ⟨by simp, ?_, ?_, ?_, trivial, trivial, trivial, ?_, by decide, ?_⟩
  · exact Nat.mod_eq_of_lt (by omega)
  · exact Nat.mod_eq_of_lt ho.content
  · exact Nat.mod_eq_of_lt ho.crc
  · exact Nat.mod_eq_of_lt ho.dosTime
  · simp only [or_true, true_or, if_true, if_false, reduceCtorEq, false_and, and_false, Nat.reduceEqDiff, convertFilename]
    rw [List.map_append, List.map_cons, List.map_nil]
    have hmap : ∀ b ∈ e.name.dropLast, convByte [0xff, 0x5c] [0x2f, 0x2f] .none b = b := by
      intro b hb
      have h2 : b ≠ 0x5c := fun h => hd (h ▸ List.dropLast_subset _ hb)
      unfold convByte
      have : delimIndex [0xff, 0x5c] 0 b = none := by
        have h2 : ¬ (b < 128 ∧ 255 = b) := by omega
        have h3 : ¬ (b < 128 ∧ 92 = b) := by omega
        simp only [delimIndex, h2, h3, if_false]
      simp [this]
    rw [List.map_congr_left hmap]
    simp [convByte_nul]

/-- Case covered: the sample of `C52_partial` with three bytes in the extended area. -/
example : (sample1 []).Ok ∧ (sample1 []).name ≠ [] ∧ (sample1 []).exts = [] ∧ 0x5c ∉ (sample1 []).name ∧ (sample1 []).name.length + [1, 2, 3].length ≤ 230 ∧
    (sample1 []).padded [1, 2, 3] ≠ (sample1 []).bytes := by
  refine ⟨⟨rfl, by decide, by decide, by decide, by decide, by decide, by decide, by decide⟩, by decide, rfl, by decide, by decide, by decide⟩

end Lha
