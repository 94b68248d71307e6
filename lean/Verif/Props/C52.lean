import Verif.Spec.Level1
import Verif.Proof.Entry
/-!
# C52: level-1 headers written by other programs
-/

namespace Lha

open Spec

/-- `getHeader` on a level-1 basic header `B` followed by anything. -/
theorem getHeader_level1 (f : Fmt) (tab : Arr) (h : Hdr) (hs s : Nat) (B R : List Nat) (hB : B.length = hs) (h21 : 19 < hs)
    (hlv : B.getD 18 0 = 1) :
    getHeader f tab h (hs :: s :: B ++ R) =
      (do match ← getLevel1 h (hs :: s :: B.take 19) (B.drop 19 ++ R) with
          | none => .ok .bad
          | some (h, rest) => .ok (finishHdr f h rest)) := by
  rw [show hs :: s :: B ++ R = hs :: (s :: (B ++ R)) from rfl, getHeader_cons f tab h hs _ (by omega) (by simp)]
  have a1 : (s :: (B ++ R)).take 20 = s :: B.take 19 := by simp [List.take_append]; omega
  have a2 : (s :: (B ++ R)).drop 20 = B.drop 19 ++ R := by
    have : 19 - B.length = 0 := by omega
    simp [List.drop_append, this]
  have a3 : (s :: B.take 19).length = 20 := by simp; omega
  rw [a1, a2, a3, Nat.sub_self, List.replicate_zero, List.append_nil]
  have e3 : (hs :: s :: B.take 19).getD 20 0 = 1 := by
    have : (hs :: s :: B.take 19).getD 20 0 = (B.take 19).getD 18 0 := rfl
    rw [this, List.getD_eq_getElem?_getD, List.getElem?_take_of_lt (by omega), ← List.getD_eq_getElem?_getD]
    exact hlv
  have e5 : byLevel tab h (hs :: s :: B.take 19) (B.drop 19 ++ R) = getLevel1 h (hs :: s :: B.take 19) (B.drop 19 ++ R) := by
    unfold byLevel; rw [e3]; rfl
  rw [e5]
  rfl

/-- The fields read from the basic header, before anything is done about extended headers. -/
def hdr1 (h : Hdr) (hs : Nat) (method : List Nat) (packed original time attr : Nat) (nm : List Nat) (crc os : Nat) : Hdr :=
  { h with sizeFieldLength := 2, headerSize := hs, method := method, packedSize := packed % 4294967296,
           originalSize := original % 4294967296, stamp := time % 4294967296, attr := attr, level := 1,
           name := nm, mode := 0o100666, gid := 0, uid := 0, hasCrc := true, crc := crc % 65536, extendType := os }

/-- `getLevel1` on a complete basic header; `w` is the length of the first extended header. -/
theorem getLevel1_ok (h : Hdr) (hs s : Nat) (method : List Nat) (packed original time attr : Nat) (nm : List Nat) (crc os w : Nat) (R : List Nat)
    (hm : method.length = 5) (hm' : h.method.length = 5) (hn : nm.length ≤ 230) (hl : nm.length ≤ h.name.length) (B : List Nat)
    (hB : B = method ++ le32 packed ++ le32 original ++ le32 time ++ [attr, 1, nm.length] ++ nm ++ le16 crc ++ [os] ++ le16 w)
    (hh : hs = B.length) (hsum : s = B.sum % 256) :
    getLevel1 h (hs :: s :: B.take 19) (B.drop 19 ++ R) =
      (do
        let name ← zeroAt nm nm.length
        let g := hdr1 h hs method packed original time attr name crc os
        if w % 65536 > 0 then do
          match ← extLoop (R.length + 1) ⟨g, List.replicate 4096 0, List.replicate 1024 0, (w % 65536 : Nat)⟩ (w % 65536 : Nat) R with
          | none => .ok none
          | some (h, whole, inp) =>
            .ok (some ({ h with packedSize := h.packedSize - whole.toNat, headerSize := h.headerSize + whole.toNat + 2 }, inp))
        else .ok (some ({ g with headerSize := hs + 2 }, R))) := by
  have hlen : B.length = 25 + nm.length := by rw [hB]; simp [le32, le16, hm]; omega
  unfold getLevel1
  have x1 : getByte (hs :: s :: B.take 19) 0 = .ok hs := by simp [getByte]
  have x2 : getByte (hs :: s :: B.take 19) 1 = .ok s := by simp [getByte]
  rw [x1, ok_bind, x2, ok_bind, if_neg (by omega)]
  have x3 : readF (hs + 2 - 21) (B.drop 19 ++ R) = some (B.drop 19, R) := by
    unfold readF
    have y : hs + 2 - 21 = (B.drop 19).length := by simp [hh]
    have : B.drop 19 ≠ [] := by
      intro hh'
      rw [hh'] at y; simp at y; omega
    rw [if_neg (by simp; omega), y]
    simp
  rw [x3]
  simp only []
  have x4 : hs :: s :: B.take 19 ++ B.drop 19 = hs :: s :: B := by simp
  rw [x4]
  have x5 : calcSum (hs :: s :: B) 2 hs = s := by
    rw [calcSum_eq, hsum]
    simp [hh]
  rw [x5, if_neg (by simp)]
  generalize hd : hs :: s :: B = d
  have d2 : d.drop 2 = method ++ (le32 packed ++ (le32 original ++ (le32 time ++ ([attr, 1, nm.length] ++ (nm ++ (le16 crc ++ (os :: (le16 w ++ [])))))))) := by
    rw [← hd, hB]; simp
  have d7 : d.drop 7 = _ := drop_add_of (n := 5) d2 hm
  have d11 : d.drop 11 = _ := drop_add_of (n := 4) d7 rfl
  have d15 : d.drop 15 = _ := drop_add_of (n := 4) d11 rfl
  have d19 : d.drop 19 = _ := drop_add_of (n := 4) d15 rfl
  have d20 : d.drop 20 = 1 :: ([nm.length] ++ (nm ++ (le16 crc ++ (os :: (le16 w ++ []))))) := drop_succ_of d19
  have d21 : d.drop 21 = nm.length :: (nm ++ (le16 crc ++ (os :: (le16 w ++ [])))) := drop_succ_of d20
  have d22 : d.drop 22 = nm ++ (le16 crc ++ (os :: (le16 w ++ []))) := drop_succ_of d21
  have dc : d.drop (22 + nm.length) = le16 crc ++ (os :: (le16 w ++ [])) := drop_add_of d22 rfl
  have dx : d.drop (22 + nm.length + 2) = os :: (le16 w ++ []) := drop_add_of (n := 2) dc rfl
  have dw : d.drop (22 + nm.length + 3) = le16 w ++ [] := drop_succ_of dx
  have q : hs + 2 - nm.length - 27 = 0 := by omega
  rw [getBytes_drop d2 hm (by omega) (by omega), ok_bind]
  simp only []
  rw [getLong_drop d7 (by omega), ok_bind, getLong_drop d11 (by omega), ok_bind, getLong_drop d15 (by omega), ok_bind,
    getByte_drop d19 (by omega), ok_bind, getByte_drop d20 (by omega), ok_bind, getByte_drop d21 (by omega), ok_bind,
    getBytes_drop d22 rfl (by omega) (by omega), ok_bind]
  simp only []
  simp only [q, Nat.add_zero, getWord_drop dc (show 22 + nm.length + 1 < 4096 by omega), getByte_drop dx (show 22 + nm.length + 2 < 4096 by omega),
    getWord_drop dw (show 22 + nm.length + 3 + 1 < 4096 by omega), ok_bind]
  rfl

theorem zeroAt_last {l : List Nat} (h : l ≠ []) : zeroAt l l.length = .ok (l.dropLast ++ [0]) := by
  have := List.length_pos_iff.mpr h
  unfold zeroAt
  rw [if_neg (by omega), List.drop_length, List.dropLast_eq_take]

/-- The length field in front of a chain. -/
theorem extChain_head (es : List (Nat × List Nat)) (h : ∀ x ∈ es, x.2.length + 3 < 2 ^ 16) :
    ∃ w T, extChain es = le16 w ++ T ∧ w < 2 ^ 16 ∧ (es = [] → w = 0 ∧ T = []) ∧ (es ≠ [] → 0 < w) := by
  cases es with
  | nil => exact ⟨0, [], rfl, by omega, fun _ => ⟨rfl, rfl⟩, fun h => absurd rfl h⟩
  | cons x es =>
    obtain ⟨t, d⟩ := x
    refine ⟨d.length + 3, t :: d ++ extChain es, ?_, h _ (List.mem_cons_self ..), fun h => (by cases h), fun _ => by omega⟩
    show le 2 (d.length + 3) ++ t :: d ++ extChain es = _
    rw [le_two, List.append_assoc]

/-- Reading an entry comes down to what happens to the name and the extended headers. -/
theorem level1_read (f : Fmt) (tab : Arr) (h : Hdr) (hm : h.method.length = 5) (e : Entry1) (ho : e.Ok) (hn : e.name.length ≤ h.name.length)
    (R : List Nat) : ∃ hs w T, hs ≠ 0 ∧ w < 2 ^ 16 ∧ (e.exts = [] → w = 0 ∧ T = []) ∧ (e.exts ≠ [] → 0 < w) ∧
    getHeader f tab h (e.bytes ++ R) = (do
      let r ← (do
        let name ← zeroAt e.name e.name.length
        let g := hdr1 h hs e.method (e.packed.length + ((extChain e.exts).length - 2)) e.content.length e.dosTime e.attr name e.crc e.os
        if w % 65536 > 0 then do
          match ← extLoop ((T ++ (e.packed ++ R)).length + 1) ⟨g, List.replicate 4096 0, List.replicate 1024 0, (w % 65536 : Nat)⟩ (w % 65536 : Nat)
              (T ++ (e.packed ++ R)) with
          | none => .ok none
          | some (h, whole, inp) =>
            .ok (some ({ h with packedSize := h.packedSize - whole.toNat, headerSize := h.headerSize + whole.toNat + 2 }, inp))
        else .ok (some ({ g with headerSize := hs + 2 }, T ++ (e.packed ++ R))))
      match r with
      | none => .ok .bad
      | some (h, rest) => .ok (finishHdr f h rest)) := by
  obtain ⟨w, T, hE, hw, h0, h1⟩ := extChain_head e.exts ho.exts
  have htk : (extChain e.exts).take 2 = le16 w := by rw [hE]; rfl
  generalize hB : e.body ++ le16 w = B
  have hB' : B = e.method ++ le32 (e.packed.length + ((extChain e.exts).length - 2)) ++ le32 e.content.length ++ le32 e.dosTime ++
      [e.attr, 1, e.name.length] ++ e.name ++ le16 e.crc ++ [e.os] ++ le16 w := by
    rw [← hB]; unfold Entry1.body; simp only [le_four, le_two]
  have hlen : B.length = 25 + e.name.length := by rw [hB']; simp [le32, le16, ho.method]; omega
  have hlv : B.getD 18 0 = 1 := by
    have : B = (e.method ++ le32 (e.packed.length + ((extChain e.exts).length - 2)) ++ le32 e.content.length ++ le32 e.dosTime ++ [e.attr]) ++
        (1 :: (e.name.length :: e.name ++ le16 e.crc ++ [e.os] ++ le16 w)) := by
      rw [hB']; simp
    rw [this, List.getD_eq_getElem?_getD, List.getElem?_append_right (by simp [le32, ho.method])]
    simp [le32, ho.method]
  have hb : e.bytes ++ R = B.length :: B.sum % 256 :: B ++ (T ++ (e.packed ++ R)) := by
    unfold Entry1.bytes Entry1.header
    rw [htk, hB, hE]
    simp only []
    rw [← hB]
    simp
  refine ⟨B.length, w, T, by omega, hw, h0, h1, ?_⟩
  rw [hb, getHeader_level1 f tab h _ _ B _ rfl (by omega) hlv,
    getLevel1_ok h B.length _ e.method _ _ _ _ e.name e.crc e.os w _ ho.method hm ho.name hn B hB' rfl rfl]

/-- **C52 is false**: an entry with a level-1 header whose name is not empty is read with a wrong name (the last character is lost), … -/
theorem C52_false_name (f : Fmt) (tab : Arr) (e : Entry1) (ho : e.Ok) (hne : e.name ≠ []) (R : List Nat) (g : Hdr) (rest : List Nat)
    (hg : getHeader f tab newHdr (e.bytes ++ R) = .ok (.got g rest)) : (cstr g.name).length < e.name.length := by
  obtain ⟨hs, w, T, hs0, hw, h0, h1, hr⟩ := level1_read f tab newHdr newHdr_method e ho (by rw [newHdr_name]; have := ho.name; omega) R
  rw [hr, zeroAt_last hne, ok_bind] at hg
  simp only [] at hg
  by_cases hx : e.exts = []
  · obtain ⟨rfl, rfl⟩ := h0 hx
    rw [if_neg (by omega), ok_bind] at hg
    simp only [] at hg
    have hg' : finishHdr f _ _ = .got g rest := Except.ok.inj hg
    unfold finishHdr at hg'
    simp only [] at hg'
    rw [if_neg (by show ¬ isSymlinkMode 0o100666 = true; decide)] at hg'
    cases hg'
    show (cstr (convertFilename true _ _ _ (e.name.dropLast ++ [0]))).length < _
    have hpos := List.length_pos_iff.mpr hne
    unfold convertFilename
    rw [List.map_append]
    refine Nat.lt_of_le_of_lt (m := e.name.dropLast.length) ?_ (by rw [List.length_dropLast]; omega)
    have hz : ∀ (F T' : List Nat) (c : CaseTo), 0 ∉ F → (e.name.dropLast.map (convByte F T' c) ++ [0].map (convByte F T' c)) =
        e.name.dropLast.map (convByte F T' c) ++ [0] := by
      intro F T' c hF
      simp [convByte_nul F T' c hF]
    have hcl : ∀ (l : List Nat), (cstr (l ++ [0])).length ≤ l.length := by
      intro l
      rw [cstr_append_zero]
      exact (List.takeWhile_sublist _).length_le
    split
    all_goals (rw [hz _ _ _ (by decide)]; refine Nat.le_trans (hcl _) (by simp))
  · have hw0 : w % 65536 > 0 := by have := h1 hx; omega
    rw [if_pos hw0] at hg
    obtain ⟨o, ho1, hg⟩ := bind_ok hg
    obtain ⟨o', ho2, ho1⟩ := bind_ok ho1
    cases o' with
    | none => cases ho1; cases hg
    | some y => exact absurd ho2 (extLoop_never _ _ _ _ _ hs0)

/-- … one with an empty name in the basic header (usual for directories and when the name is in an extended header) makes the library crash, … -/
theorem C52_false_empty (f : Fmt) (tab : Arr) (e : Entry1) (ho : e.Ok) (hne : e.name = []) (R : List Nat) :
    getHeader f tab newHdr (e.bytes ++ R) = .error .panic := by
  obtain ⟨hs, w, T, hs0, hw, h0, h1, hr⟩ := level1_read f tab newHdr newHdr_method e ho (by rw [newHdr_name]; have := ho.name; omega) R
  rw [hr, hne]
  rfl

/-- … and one with an extended header is never read. -/
theorem C52_false_ext (f : Fmt) (tab : Arr) (e : Entry1) (ho : e.Ok) (hx : e.exts ≠ []) (R : List Nat) (g : Hdr) (rest : List Nat) :
    getHeader f tab newHdr (e.bytes ++ R) ≠ .ok (.got g rest) := by
  intro hg
  obtain ⟨hs, w, T, hs0, hw, h0, h1, hr⟩ := level1_read f tab newHdr newHdr_method e ho (by rw [newHdr_name]; have := ho.name; omega) R
  rw [hr] at hg
  obtain ⟨o, ho1, hg⟩ := bind_ok hg
  obtain ⟨nm, _, ho1⟩ := bind_ok ho1
  simp only [] at ho1
  have hw0 : w % 65536 > 0 := by have := h1 hx; omega
  rw [if_pos hw0] at ho1
  obtain ⟨o', ho2, ho1⟩ := bind_ok ho1
  cases o' with
  | none => cases ho1; cases hg
  | some y => exact absurd ho2 (extLoop_never _ _ _ _ _ hs0)

/-- **C52 (partial).**  Full statement: `GetHeader` reads every level-1 header, with the method, sizes, checksum, name and attribute the header records,
and leaves the reader at the packed data.  Proved without extended headers and for names of at least one byte: everything but the name is right, and
the name (of an archive made under Unix, with no delimiters in it) lacks its last byte. -/
theorem C52_partial (f : Fmt) (tab : Arr) (e : Entry1) (ho : e.Ok) (hne : e.name ≠ []) (hx : e.exts = []) (hos : e.os = 0x55)
    (hd : 0x5c ∉ e.name) (R : List Nat) :
    ∃ g, getHeader f tab newHdr (e.bytes ++ R) = .ok (.got g (e.packed ++ R)) ∧ g.method = e.method ∧ g.packedSize = e.packed.length ∧
      g.originalSize = e.content.length ∧ g.crc = e.crc ∧ g.hasCrc = true ∧ g.attr = e.attr ∧ g.level = 1 ∧ g.stamp = e.dosTime ∧
      fileType g.mode = 0o100000 ∧ g.name = e.name.dropLast ++ [0] := by
  obtain ⟨hs, w, T, hs0, hw, h0, h1, hr⟩ := level1_read f tab newHdr newHdr_method e ho (by rw [newHdr_name]; have := ho.name; omega) R
  obtain ⟨rfl, rfl⟩ := h0 hx
  rw [hr, zeroAt_last hne, ok_bind]
  simp only []
  rw [if_neg (by omega), ok_bind]
  simp only []
  have hpk := ho.packed
  rw [hx] at hpk
  have hpk' : e.packed.length < 2 ^ 32 := by simpa [extChain] using hpk
  refine ⟨_, by unfold finishHdr; simp only []; rw [if_neg (by show ¬ isSymlinkMode 0o100666 = true; decide)]; rfl, ?_⟩
  simp only [hdr1, hos]
  refine ⟨by simp, ?_, ?_, ?_, trivial, trivial, trivial, ?_, by decide, ?_⟩
  · rw [hx]
    show (e.packed.length + (2 - 2)) % 4294967296 = _
    exact Nat.mod_eq_of_lt (by omega)
  · exact Nat.mod_eq_of_lt ho.content
  · exact Nat.mod_eq_of_lt ho.crc
  · exact Nat.mod_eq_of_lt ho.dosTime
  · simp only [or_true, true_or, if_true, if_false, reduceCtorEq, false_and, and_false, Nat.reduceEqDiff, convertFilename]
    rw [List.map_append, List.map_cons, List.map_nil]
    have hmap : ∀ b ∈ e.name.dropLast, convByte [0xff, 0x5c] [0x2f, 0x2f] .none b = b := by
      intro b hb
      have h2 : b ≠ 0x5c := fun h => hd (h ▸ List.dropLast_subset _ hb)
      unfold convByte
      have : delimIndex [0xff, 0x5c] 0 b = none := by
        have h2 : ¬ (b < 128 ∧ 255 = b) := by omega
        have h3 : ¬ (b < 128 ∧ 92 = b) := by omega
        simp only [delimIndex, h2, h3, if_false]
      simp [this]
    rw [List.map_congr_left hmap]
    simp [convByte_nul]

/-- A level-1 entry `f.txt` made under Unix, with no extended headers; one with its time in an extended header. -/
def sample1 (exts : List (Nat × List Nat)) : Entry1 := ⟨[45, 108, 104, 48, 45], [102, 46, 116, 120, 116], [65], [65], 0x30c0, 677209180, 0x20, 0x55, exts⟩

example : (sample1 []).Ok ∧ (sample1 []).name ≠ [] ∧ 0x5c ∉ (sample1 []).name := by
  refine ⟨⟨rfl, by decide, by decide, by decide, by decide, by decide, by decide, by decide⟩, by decide, by decide⟩

example : (sample1 [(0x54, [0, 0, 0, 0])]).Ok ∧ (sample1 [(0x54, [0, 0, 0, 0])]).exts ≠ [] := by
  refine ⟨⟨rfl, by decide, by decide, by decide, by decide, by decide, by decide, by decide⟩, by decide⟩

end Lha
