import Verif.Model.Header
import Verif.Spec.Header
import Verif.Proof.Bound
/-!
# Header proofs: positions, checksum, level 0
-/

namespace Lha

open Spec

theorem getD_drop (d : List Nat) (p i : Nat) : (d.drop p).getD i 0 = d.getD (p + i) 0 := by
  simp [List.getD_eq_getElem?_getD, List.getElem?_drop]

theorem getByte_lt {d : List Nat} {p : Nat} (hp : p < 4096) : getByte d p = .ok (d.getD p 0) := by
  unfold getByte; rw [if_pos hp]

theorem getByte_drop {d t : List Nat} {p b : Nat} (h : d.drop p = b :: t) (hp : p < 4096) : getByte d p = .ok b := by
  have h2 : d.getD p 0 = b := by
    have := getD_drop d p 0
    rw [h] at this
    simpa using this.symm
  unfold getByte
  rw [if_pos hp, h2]

theorem drop_succ_of {d t : List Nat} {p b : Nat} (h : d.drop p = b :: t) : d.drop (p + 1) = t := by
  have : d.drop (p + 1) = (d.drop p).drop 1 := by rw [List.drop_drop]
  rw [this, h]; rfl

theorem drop_add_of {d a t : List Nat} {p n : Nat} (h : d.drop p = a ++ t) (hn : a.length = n) : d.drop (p + n) = t := by
  have : d.drop (p + n) = (d.drop p).drop n := by rw [List.drop_drop]
  rw [this, h, ← hn]; simp

theorem getWord_drop {d t : List Nat} {p v : Nat} (h : d.drop p = le16 v ++ t) (hp : p + 1 < 4096) :
    getWord d p = .ok (v % 65536) := by
  have h0 : d.drop p = v % 256 :: (v / 256 % 256) :: t := h
  have h1 := drop_succ_of h0
  unfold getWord
  rw [getByte_drop h0 (by omega), ok_bind, getByte_drop h1 hp, ok_bind]
  congr 1; omega

theorem getLong_drop {d t : List Nat} {p v : Nat} (h : d.drop p = le32 v ++ t) (hp : p + 3 < 4096) :
    getLong d p = .ok (v % 4294967296) := by
  have h0 : d.drop p = v % 256 :: (v / 256 % 256) :: (v / 65536 % 256) :: (v / 16777216 % 256) :: t := h
  have h1 := drop_succ_of h0
  have h2 := drop_succ_of h1
  have h3 := drop_succ_of h2
  unfold getLong
  rw [getByte_drop h0 (by omega), ok_bind, getByte_drop h1 (by omega), ok_bind, getByte_drop h2 (by omega), ok_bind,
    getByte_drop h3 (by omega), ok_bind]
  congr 1; omega

theorem getMany_drop (n : Nat) : ∀ {d a t : List Nat} {p : Nat}, d.drop p = a ++ t → a.length = n → p + n ≤ 4096 →
    getMany d p n = .ok a := by
  induction n with
  | zero =>
    intro d a t p h hn hp
    have : a = [] := List.eq_nil_of_length_eq_zero hn
    rw [this]; rfl
  | succ n ih =>
    intro d a t p h hn hp
    cases a with
    | nil => simp at hn
    | cons b a =>
      have h1 : d.drop p = b :: (a ++ t) := h
      unfold getMany
      rw [getByte_drop h1 (by omega), ok_bind, ih (drop_succ_of h1) (by simpa using hn) (by omega), ok_bind]

theorem calcSum_eq (n : Nat) : ∀ (d : List Nat) (s : Nat), calcSum d s n = ((d.drop s).take n).sum % 256 := by
  induction n with
  | zero => intro d s; simp [calcSum]
  | succ n ih =>
    intro d s
    unfold calcSum
    rw [ih]
    cases h : d.drop s with
    | nil =>
      have h2 : d.drop (s + 1) = [] := by
        have : d.drop (s + 1) = (d.drop s).drop 1 := by rw [List.drop_drop]
        rw [this, h]; rfl
      have h3 : d.getD s 0 = 0 := by
        have := getD_drop d s 0
        rw [h] at this
        simpa using this.symm
      rw [h2, h3]; simp
    | cons b t =>
      have h3 : d.getD s 0 = b := by
        have := getD_drop d s 0
        rw [h] at this
        simpa using this.symm
      rw [drop_succ_of h, h3]
      simp

theorem cLength_eq (l : List Nat) : cLength l = (cstr l).length := by
  induction l with
  | nil => rfl
  | cons b l ih =>
    unfold cLength cstr
    by_cases h : b = 0
    · simp [h]
    · rw [if_neg h, ih]
      simp [h, cstr]

theorem cstr_append_zero (l : List Nat) : cstr (l ++ [0]) = cstr l := by
  induction l with
  | nil => rfl
  | cons b l ih =>
    unfold cstr at *
    by_cases h : b = 0
    · simp [h]
    · simpa [h] using ih

theorem cstr_prefix (l : List Nat) : ∃ t, l = cstr l ++ t := by
  refine ⟨l.dropWhile (· ≠ 0), ?_⟩
  exact (List.takeWhile_append_dropWhile).symm

theorem take_cstr (l : List Nat) (n : Nat) (h : n ≤ (cstr l).length) : l.take n = (cstr l).take n := by
  obtain ⟨t, ht⟩ := cstr_prefix l
  have : l.take n = (cstr l ++ t).take n := by rw [← ht]
  rw [this, List.take_append_of_le_length h]

/-! ## Parsing a level-0 header -/

/-- The bytes of a level-0 header from the method on, before the optional part. -/
def body0 (method : List Nat) (packed original gst attr level : Nat) (nm : List Nat) (crc : Nat) (ext : List Nat) : List Nat :=
  method ++ le32 packed ++ le32 original ++ le32 gst ++ [attr, level, nm.length] ++ nm ++ le16 crc ++ ext

theorem body0_length (method : List Nat) (packed original gst attr level : Nat) (nm : List Nat) (crc : Nat) (ext : List Nat)
    (hm : method.length = 5) : (body0 method packed original gst attr level nm crc ext).length = 22 + nm.length + ext.length := by
  simp [body0, le32, le16, hm]; omega

theorem getBytes_drop {d a t : List Nat} {p n : Nat} {size : Nat} (h : d.drop p = a ++ t) (hn : a.length = n) (hp : p + n ≤ 4096)
    (hs : n ≤ size) : getBytes d p n size = .ok (a, n) := by
  unfold getBytes
  rw [Nat.min_eq_left hs, getMany_drop n h hn hp, ok_bind]
  simp

theorem zeroAt_append (a : List Nat) (c : Nat) (n : Nat) (hn : a.length = n) : zeroAt (a ++ [c]) (n + 1) = .ok (a ++ [0]) := by
  unfold zeroAt
  rw [if_neg (by simp [hn])]
  simp [← hn]

theorem parseLevel0_ok (h : Hdr) (hs s : Nat) (method : List Nat) (packed original gst attr level : Nat) (nm : List Nat) (crc : Nat)
    (ext : List Nat) (hm : method.length = 5) (hm' : h.method.length = 5) (hn : nm.length ≤ 255) (hl : nm.length < h.name.length)
    (hh : hs = 22 + nm.length + ext.length) :
    parseLevel0 h hs (hs :: s :: body0 method packed original gst attr level nm crc ext) =
      (let g : Hdr := { h with
        sizeFieldLength := 2, headerSize := hs, method := method, packedSize := packed % 4294967296,
        originalSize := original % 4294967296, stamp := gst % 4294967296, attr := attr, level := level, name := nm ++ [0],
        mode := 0o100666, gid := 0, uid := 0, hasCrc := true, crc := crc % 65536 }
      if ext.length = 0 then .ok (some g)
      else do
        let e ← getByte (hs :: s :: body0 method packed original gst attr level nm crc ext) (24 + nm.length)
        if e = 0x55 then
          if ext.length - 1 ≥ 11 then do
            let minor ← getByte (hs :: s :: body0 method packed original gst attr level nm crc ext) (25 + nm.length)
            let stamp ← getLong (hs :: s :: body0 method packed original gst attr level nm crc ext) (26 + nm.length)
            let mode ← getWord (hs :: s :: body0 method packed original gst attr level nm crc ext) (30 + nm.length)
            let uid ← getWord (hs :: s :: body0 method packed original gst attr level nm crc ext) (32 + nm.length)
            let gid ← getWord (hs :: s :: body0 method packed original gst attr level nm crc ext) (34 + nm.length)
            .ok (some { g with extendType := e, minorVersion := minor, stamp := stamp, mode := mode, uid := uid,
                               gid := gid, headerSize := hs + 2 })
          else .ok (some { g with extendType := 0, headerSize := hs + 2 })
        else .ok (some { g with extendType := e, headerSize := hs + 2 })) := by
  generalize hd : hs :: s :: body0 method packed original gst attr level nm crc ext = d
  have d2 : d.drop 2 = method ++ (le32 packed ++ (le32 original ++ (le32 gst ++ ([attr, level, nm.length] ++ (nm ++ (le16 crc ++ ext)))))) := by
    rw [← hd]; simp [body0]
  have d7 : d.drop 7 = _ := drop_add_of (n := 5) d2 hm
  have d11 : d.drop 11 = _ := drop_add_of (n := 4) d7 rfl
  have d15 : d.drop 15 = _ := drop_add_of (n := 4) d11 rfl
  have d19 : d.drop 19 = _ := drop_add_of (n := 4) d15 rfl
  have d20 : d.drop 20 = level :: ([nm.length] ++ (nm ++ (le16 crc ++ ext))) := drop_succ_of d19
  have d21 : d.drop 21 = nm.length :: (nm ++ (le16 crc ++ ext)) := drop_succ_of d20
  have d22 : d.drop 22 = nm ++ (le16 crc ++ ext) := drop_succ_of d21
  have d22' : d.drop 22 = (nm ++ [crc % 256]) ++ ((crc / 256 % 256) :: ext) := by rw [d22]; simp [le16]
  have dc : d.drop (22 + nm.length) = le16 crc ++ ext := drop_add_of d22 rfl
  have p1 : 22 + (nm.length + 1) - 1 = 22 + nm.length := by omega
  unfold parseLevel0
  rw [getBytes_drop d2 hm (by omega) (by omega), ok_bind]
  simp only []
  rw [getLong_drop d7 (by omega), ok_bind, getLong_drop d11 (by omega), ok_bind, getLong_drop d15 (by omega), ok_bind,
    getByte_drop d19 (by omega), ok_bind, getByte_drop d20 (by omega), ok_bind, getByte_drop d21 (by omega), ok_bind,
    getBytes_drop d22' (by simp) (by omega) (by omega), ok_bind]
  simp only []
  rw [zeroAt_append nm _ _ rfl, ok_bind, p1, if_neg (by omega), getWord_drop dc (by omega), ok_bind]
  by_cases he : ext.length = 0
  · rw [if_pos (by omega)]
    simp only [he, if_true]
  · rw [if_neg (by omega)]
    simp only [he, if_false]
    have q : hs + 2 - nm.length - 24 - 1 = ext.length - 1 := by omega
    have q1 : 22 + nm.length + 2 = 24 + nm.length := by omega
    have q2 : 22 + nm.length + 3 = 25 + nm.length := by omega
    have q3 : 22 + nm.length + 4 = 26 + nm.length := by omega
    have q4 : 22 + nm.length + 8 = 30 + nm.length := by omega
    have q5 : 22 + nm.length + 10 = 32 + nm.length := by omega
    have q6 : 22 + nm.length + 12 = 34 + nm.length := by omega
    rw [q, q1, q2, q3, q4, q5, q6]

/-- `getHeader` on a complete level-0 header followed by anything. -/
theorem getHeader_level0 (f : Fmt) (tab : Arr) (h : Hdr) (hs s : Nat) (B R : List Nat) (h0 : hs ≠ 0) (hB : B.length = hs)
    (h21 : 19 < hs) (hlv : B.getD 18 0 = 0) (hsum : B.sum % 256 = s) :
    getHeader f tab h (hs :: s :: B ++ R) =
      (do match ← parseLevel0 h hs (hs :: s :: B) with
          | none => .ok .bad
          | some h => .ok (finishHdr f h R)) := by
  have key : ∀ r : G (Option Hdr),
      (do
        let r ← (do match ← r with
                    | none => .ok none
                    | some h => .ok (some (h, R)) : G (Option (Hdr × List Nat)))
        match r with
        | none => .ok .bad
        | some (h, rest) => .ok (finishHdr f h rest)) =
      (do match ← r with
          | none => .ok .bad
          | some h => .ok (finishHdr f h R) : G HdrRes) := by
    intro r
    cases r with
    | error e => rfl
    | ok r => cases r <;> rfl
  show getHeader f tab h (hs :: (s :: B ++ R)) = _
  unfold getHeader
  simp only [h0, if_false]
  have e1 : readF 20 (s :: B ++ R) = some (s :: B.take 19, B.drop 19 ++ R) := by
    unfold readF
    rw [if_neg (by simp)]
    have a1 : (s :: B ++ R).take 20 = s :: B.take 19 := by
      simp [List.take_append]; omega
    have a2 : (s :: B ++ R).drop 20 = B.drop 19 ++ R := by
      have : (19 - B.length) = 0 := by omega
      simp [List.drop_append, this]
    rw [a1, a2]
  rw [e1]
  simp only []
  have e2 : List.replicate (20 - (s :: B.take 19).length) 0 = ([] : List Nat) := by
    have : 20 - (s :: B.take 19).length = 0 := by simp; omega
    rw [this]; rfl
  rw [e2, List.append_nil]
  have e3 : (hs :: s :: B.take 19).getD 20 0 = 0 := by
    have : (hs :: s :: B.take 19).getD 20 0 = (B.take 19).getD 18 0 := rfl
    rw [this, List.getD_eq_getElem?_getD, List.getElem?_take_of_lt (by omega), ← List.getD_eq_getElem?_getD]
    exact hlv
  have e5 : byLevel tab h (hs :: s :: B.take 19) (B.drop 19 ++ R) = getLevel0 h (hs :: s :: B.take 19) (B.drop 19 ++ R) := by
    unfold byLevel; rw [e3]; rfl
  rw [e5]
  have e4 : getLevel0 h (hs :: s :: B.take 19) (B.drop 19 ++ R) =
      (do match ← parseLevel0 h hs (hs :: s :: B) with
          | none => .ok none
          | some h => .ok (some (h, R))) := by
    have x1 : getByte (hs :: s :: B.take 19) 0 = .ok hs := by simp [getByte]
    have x2 : getByte (hs :: s :: B.take 19) 1 = .ok s := by simp [getByte]
    unfold getLevel0
    rw [x1, ok_bind, x2, ok_bind, if_neg (by omega)]
    have x3 : readF (hs + 2 - 21) (B.drop 19 ++ R) = some (B.drop 19, R) := by
      unfold readF
      have y : hs + 2 - 21 = (B.drop 19).length := by simp [hB]
      have : B.drop 19 ≠ [] := by
        intro hh
        rw [hh] at y; simp at y; omega
      rw [if_neg (by simp; omega), y]
      simp
    rw [x3]
    simp only []
    have x4 : hs :: s :: B.take 19 ++ B.drop 19 = hs :: s :: B := by simp
    rw [x4]
    have x5 : calcSum (hs :: s :: B) 2 hs = s := by
      rw [calcSum_eq, ← hsum]
      simp [← hB]
    rw [x5]
    simp
    rfl
  rw [e4]
  exact key _

theorem convByte_id (b : Nat) (h : b ≠ 0x5c) : convByte [0xff, 0x5c] [0x2f, 0x2f] .none (convByte [0x2f] [0x5c] .none b) = b := by
  unfold convByte
  by_cases h1 : b = 0x2f
  · subst h1; decide
  · have : delimIndex [0x2f] 0 b = none := by
      simp [delimIndex]; omega
    rw [this]
    have : delimIndex [0xff, 0x5c] 0 b = none := by
      have h2 : ¬ (b < 128 ∧ 255 = b) := by omega
      have h3 : ¬ (b < 128 ∧ 92 = b) := by omega
      simp only [delimIndex, h2, h3, if_false]
    simp [this]

/-! ## The writer's output in the same shape -/

/-- The part behind the CRC that `writeHeaderLevel0` emits. -/
def ext0 (f : Fmt) (h : Hdr) : List Nat :=
  if f.generic then [] else [0x55, 0x00] ++ le32 h.stamp ++ le16 h.mode ++ le16 h.uid ++ le16 h.gid

def limit0 (f : Fmt) : Nat := if f.generic then 233 else 221

theorem writeLevel0_eq (f : Fmt) (gst : Nat) (h : Hdr) (P : List Nat) (hm : h.method.length = 5) :
    let nm := (cstr P).take (limit0 f)
    let B := body0 h.method h.packedSize h.originalSize gst h.attr h.level nm h.crc (ext0 f h)
    writeLevel0 f gst h P = B.length :: B.sum % 256 :: B ∧ B.length = 22 + nm.length + (ext0 f h).length ∧ B.length < 256 := by
  intro nm B
  have hl : B.length = 22 + nm.length + (ext0 f h).length := body0_length _ _ _ _ _ _ _ _ _ hm
  have hnm : nm.length = min (cLength P) (if f.generic then 255 - 24 + 2 else 255 - 36 + 2) := by
    rw [cLength_eq]
    simp [nm, limit0]
    rw [Nat.min_comm]
  have he : (ext0 f h).length = if f.generic then 0 else 12 := by
    unfold ext0; split <;> simp [le32, le16]
  have hlim : nm.length ≤ if f.generic then 233 else 221 := by
    rw [hnm]; split <;> omega
  have h256 : B.length < 256 := by
    rw [hl, he]; split at hlim <;> rename_i hg <;> simp [hg] <;> omega
  refine ⟨?_, hl, h256⟩
  unfold writeLevel0
  simp only []
  rw [← hnm]
  have ht : P.take nm.length = nm := by
    rw [take_cstr P nm.length (by simp [nm])]
    simp [nm]
  rw [ht]
  have hB : h.method.take 5 ++ le32 h.packedSize ++ le32 h.originalSize ++ le32 gst ++ [h.attr, h.level, nm.length] ++ nm ++
      le16 h.crc ++ (if f.generic then [] else [0x55, 0x00] ++ le32 h.stamp ++ le16 h.mode ++ le16 h.uid ++ le16 h.gid) = B := by
    have : h.method.take 5 = h.method := by rw [← hm]; simp
    rw [this]
    rfl
  rw [hB]
  have hhs : (if f.generic then 24 + nm.length - 2 else 36 + nm.length - 2) = B.length := by
    rw [hl, he]; split <;> omega
  rw [hhs, calcSum_eq, Nat.mod_eq_of_lt h256]
  simp

theorem convByte_zero (fromD toD : List Nat) (c : CaseTo) (b : Nat) (h0 : ∀ k, toD.getD k 0 ≠ 0 ∨ fromD.length ≤ k) :
    b ≠ 0 → convByte fromD toD c b ≠ 0 := by
  intro hb
  unfold convByte
  split
  · rename_i k hk
    have : ∀ (l : List Nat) (j : Nat), delimIndex l j b = some k → j ≤ k ∧ k < j + l.length := by
      intro l
      induction l with
      | nil => intro j hj; simp [delimIndex] at hj
      | cons c l ih =>
        intro j hj
        unfold delimIndex at hj
        split at hj
        · cases hj; simp
        · have := ih _ hj
          simp; omega
    have := this _ _ hk
    rcases h0 k with h | h
    · exact h
    · omega
  · split
    · rename_i h
      have := h.2
      simp [isLowerB] at this
      omega
    · split
      · omega
      · exact hb

theorem convByte_nul (fromD toD : List Nat) (c : CaseTo) (h : 0 ∉ fromD) : convByte fromD toD c 0 = 0 := by
  have : ∀ (l : List Nat) (j : Nat), 0 ∉ l → delimIndex l j 0 = none := by
    intro l
    induction l with
    | nil => intro j _; rfl
    | cons c l ih =>
      intro j hj
      simp at hj
      unfold delimIndex
      rw [if_neg (by omega)]
      exact ih _ hj.2
  unfold convByte
  rw [this _ _ h]
  simp [isLowerB, isUpperB]

theorem cstr_map (g : Nat → Nat) (h0 : g 0 = 0) (h1 : ∀ b, b ≠ 0 → g b ≠ 0) (l : List Nat) : cstr (l.map g) = (cstr l).map g := by
  induction l with
  | nil => rfl
  | cons b l ih =>
    unfold cstr at *
    by_cases h : b = 0
    · simp [h, h0]
    · have := h1 b h
      simp [h, this]
      simpa using ih

/-- How the writer transforms one byte of the name. -/
def wByte (f : Fmt) (b : Nat) : Nat := convByte [0x2f] [0x5c] (if f.generic ∧ f.convertCase then .toUpper else .none) b

theorem wByte_zero (f : Fmt) : wByte f 0 = 0 := convByte_nul _ _ _ (by simp)

theorem wByte_ne (f : Fmt) (b : Nat) (h : b ≠ 0) : wByte f b ≠ 0 := by
  apply convByte_zero _ _ _ _ _ h
  intro k
  cases k with
  | zero => left; simp
  | succ k => right; simp

theorem writeHeader_level0 (f : Fmt) (tab : Arr) (gst : Nat) (h : Hdr) (hl : h.level = 0) (hs : isSymlinkMode h.mode = false) :
    writeHeader f tab gst h = .ok (some (writeLevel0 f gst h ((h.name ++ [0]).map (wByte f)))) := by
  unfold writeHeader
  simp only [hl, hs, if_true, Bool.false_eq_true, false_and, if_false]
  unfold convertFilename
  simp only [Bool.false_eq_true, false_and, if_false]
  rfl

theorem ext0_read (f : Fmt) (h : Hdr) (hg : f.generic = false) (d : List Nat) (p : Nat) (hd : d.drop p = ext0 f h) (hp : p + 12 ≤ 4096) :
    getByte d p = .ok 0x55 ∧ getByte d (p + 1) = .ok 0 ∧ getLong d (p + 2) = .ok (h.stamp % 4294967296) ∧
    getWord d (p + 6) = .ok (h.mode % 65536) ∧ getWord d (p + 8) = .ok (h.uid % 65536) ∧ getWord d (p + 10) = .ok (h.gid % 65536) := by
  have d0 : d.drop p = 0x55 :: 0 :: (le32 h.stamp ++ (le16 h.mode ++ (le16 h.uid ++ (le16 h.gid ++ [])))) := by
    rw [hd]; simp [ext0, hg]
  have d1 := drop_succ_of d0
  have d2 : d.drop (p + 2) = _ := drop_succ_of d1
  have d6 : d.drop (p + 6) = _ := drop_add_of (n := 4) d2 rfl
  have d8 : d.drop (p + 8) = _ := drop_add_of (n := 2) d6 rfl
  have d10 : d.drop (p + 10) = _ := drop_add_of (n := 2) d8 rfl
  exact ⟨getByte_drop d0 (by omega), getByte_drop d1 (by omega), getLong_drop d2 (by omega), getWord_drop d6 (by omega),
    getWord_drop d8 (by omega), getWord_drop d10 (by omega)⟩

/-- How the reader transforms the stored name. -/
def rName (f : Fmt) (l : List Nat) : List Nat :=
  convertFilename true [0xff, 0x5c] [0x2f, 0x2f] (if f.generic ∧ f.convertCase then .toLower else .none) l

theorem header0_read (f : Fmt) (tab : Arr) (gst : Nat) (g h : Hdr) (R : List Nat) (hm : h.method.length = 5) (hl : h.level = 0)
    (hs : isSymlinkMode (h.mode % 65536) = false) (hgm : g.method.length = 5) (hgn : ((cstr h.name).take (limit0 f)).length < g.name.length)
    (hgx : f.generic = true → g.extendType = 0) :
    ∃ g', getHeader f tab g (writeLevel0 f gst h ((h.name ++ [0]).map (wByte f)) ++ R) = .ok (.got g' R) ∧
      g'.method = h.method ∧ g'.packedSize = h.packedSize % 2 ^ 32 ∧ g'.originalSize = h.originalSize % 2 ^ 32 ∧
      g'.attr = h.attr ∧ g'.level = 0 ∧
      g'.name = rName f (((cstr h.name).take (limit0 f)).map (wByte f) ++ [0]) ∧
      g'.realname = g.realname ∧
      g'.crc = h.crc % 2 ^ 16 ∧ g'.hasCrc = true ∧ g'.extendType = (if f.generic then 0 else 0x55) ∧
      g'.stamp = (if f.generic then gst % 2 ^ 32 else h.stamp % 2 ^ 32) ∧
      g'.mode = (if f.generic then 0o100666 else h.mode % 2 ^ 16) ∧
      g'.uid = (if f.generic then 0 else h.uid % 2 ^ 16) ∧
      g'.gid = (if f.generic then 0 else h.gid % 2 ^ 16) := by
  have hP : cstr ((h.name ++ [0]).map (wByte f)) = (cstr h.name).map (wByte f) := by
    rw [cstr_map _ (wByte_zero f) (wByte_ne f), cstr_append_zero]
  obtain ⟨e1, e2, e3⟩ := writeLevel0_eq f gst h ((h.name ++ [0]).map (wByte f)) hm
  rw [hP, ← List.map_take] at e1 e2 e3
  rw [e1]
  clear e1
  generalize hnm : ((cstr h.name).take (limit0 f)).map (wByte f) = nm at *
  generalize hB : body0 h.method h.packedSize h.originalSize gst h.attr h.level nm h.crc (ext0 f h) = B at *
  have hn : nm.length ≤ limit0 f := by rw [← hnm]; simp
  have hgn' : nm.length < g.name.length := by rw [← hnm, List.length_map]; exact hgn
  have hlim : limit0 f ≤ 233 := by unfold limit0; split <;> omega
  have hlv : B.getD 18 0 = 0 := by
    have : B = (h.method ++ le32 h.packedSize ++ le32 h.originalSize ++ le32 gst ++ [h.attr]) ++ (h.level :: (nm.length :: nm ++ le16 h.crc ++ ext0 f h)) := by
      rw [← hB]; simp [body0]
    rw [this, List.getD_eq_getElem?_getD, List.getElem?_append_right (by simp [le32, hm]), hl]
    simp [le32, hm]
  rw [getHeader_level0 f tab g B.length _ B R (by omega) rfl (by omega) hlv rfl]
  have hp := parseLevel0_ok g B.length (B.sum % 256) h.method h.packedSize h.originalSize gst h.attr h.level nm h.crc
    (ext0 f h) hm hgm (by omega) hgn' e2
  rw [hB] at hp
  by_cases hg : f.generic = true
  · have hx : ext0 f h = [] := by simp [ext0, hg]
    rw [hp]
    simp only [hx, List.length_nil, if_true, ok_bind]
    simp only [finishHdr, hgx hg]
    have hsm : isSymlinkMode 0o100666 = false := by decide
    simp [hsm, hg, hl, rName]
  · have hg' : f.generic = false := by simpa using hg
    have hxl : (ext0 f h).length = 12 := by simp [ext0, hg', le32, le16]
    have hd : (B.length :: B.sum % 256 :: B).drop (24 + nm.length) = ext0 f h := by
      rw [← hB]
      have : 24 + nm.length = (B.length :: B.sum % 256 :: (h.method ++ le32 h.packedSize ++ le32 h.originalSize ++ le32 gst ++ [h.attr, h.level, nm.length] ++ nm ++ le16 h.crc)).length := by
        simp [hm, le32, le16]; omega
      rw [this]
      unfold body0
      rw [show ∀ (a b : Nat) (l m : List Nat), a :: b :: (l ++ m) = (a :: b :: l) ++ m from fun _ _ _ _ => rfl]
      simp
    obtain ⟨x0, x1, x2, x3, x4, x5⟩ := ext0_read f h hg' _ _ hd (by omega)
    have r1 : 24 + nm.length + 1 = 25 + nm.length := by omega
    have r2 : 24 + nm.length + 2 = 26 + nm.length := by omega
    have r3 : 24 + nm.length + 6 = 30 + nm.length := by omega
    have r4 : 24 + nm.length + 8 = 32 + nm.length := by omega
    have r5 : 24 + nm.length + 10 = 34 + nm.length := by omega
    rw [r1] at x1; rw [r2] at x2; rw [r3] at x3; rw [r4] at x4; rw [r5] at x5
    rw [hp]
    simp only [hxl]
    rw [if_neg (by omega), x0, ok_bind, if_pos rfl, if_pos (by omega), x1, ok_bind, x2, ok_bind, x3, ok_bind, x4, ok_bind, x5, ok_bind, ok_bind]
    simp only [finishHdr]
    simp [hs, hg', hl, rName]

theorem rName_wByte (f : Fmt) (hf : f.generic = false ∨ f.convertCase = false) (l : List Nat) (hl : 0x5c ∉ l) :
    rName f (l.map (wByte f) ++ [0]) = l ++ [0] := by
  have hc : (if f.generic = true ∧ f.convertCase = true then CaseTo.toLower else .none) = .none := by
    rcases hf with h | h <;> simp [h]
  have hc' : (if f.generic = true ∧ f.convertCase = true then CaseTo.toUpper else .none) = .none := by
    rcases hf with h | h <;> simp [h]
  unfold rName convertFilename
  simp only [hc]
  simp only [reduceCtorEq, false_and, and_false, if_false]
  rw [List.map_append, List.map_map]
  congr 1
  conv_rhs => rw [← List.map_id l]
  apply List.map_congr_left
  intro b hb
  have : wByte f b = convByte [0x2f] [0x5c] .none b := by unfold wByte; rw [hc']
  simp only [Function.comp, this, id]
  exact convByte_id b (fun h => hl (h ▸ hb))

theorem newHdr_method : newHdr.method.length = 5 := List.length_replicate
theorem newHdr_name : newHdr.name.length = 1024 := List.length_replicate
theorem newHdr_ext : newHdr.extendType = 0 := rfl

/-! ## Headers that fail -/

theorem calcCrc_panic (tab : Arr) (l : List Nat) : ∀ (n crc : Nat), l.length < n → calcCrc tab n crc l = panic := by
  induction l with
  | nil =>
    intro n crc h
    cases n with
    | zero => simp at h
    | succ n => rfl
  | cons b l ih =>
    intro n crc h
    cases n with
    | zero => simp at h
    | succ n =>
      unfold calcCrc
      have : updateCrc tab crc b = panic ∨ ∃ v, updateCrc tab crc b = .ok v := by
        unfold updateCrc
        by_cases hi : (crc ^^^ b) &&& 0xff < tab.size
        · rw [rd_ok hi]; exact Or.inr ⟨_, rfl⟩
        · rw [rd_panic (by omega)]; exact Or.inl rfl
      rcases this with h1 | ⟨v, h1⟩
      · rw [h1]; rfl
      · rw [h1, ok_bind]
        exact ih n v (by simpa using h)

theorem copyInto_length (d s : List Nat) : (copyInto d s).length = d.length := by
  unfold copyInto
  simp

theorem readF_le {n : Nat} {inp x r : List Nat} (h : readF n inp = some (x, r)) : x.length ≤ n := by
  unfold readF at h
  split at h
  · cases h
  · cases h; simp

/-- A level-2 header is never read: an error or a panic. -/
theorem getLevel2_never (tab : Arr) (d inp : List Nat) : getLevel2 tab d inp = .ok none ∨ getLevel2 tab d inp = panic := by
  unfold getLevel2 getWord getByte
  simp only [if_pos (show 0 < 4096 by omega), if_pos (show 0 + 1 < 4096 by omega), ok_bind]
  split
  · exact Or.inl rfl
  · split
    · exact Or.inl rfl
    · rename_i x r hx
      right
      rw [calcCrc_panic _ _ _ _ (by rw [copyInto_length, List.length_replicate]; have := readF_le hx; omega)]
      rfl

theorem getLevel3_never (tab : Arr) (d inp : List Nat) : getLevel3 tab d inp = .ok none ∨ getLevel3 tab d inp = panic := by
  unfold getLevel3
  split
  · exact Or.inl rfl
  · rename_i x r hx
    obtain ⟨v, hv⟩ : ∃ v, getLong (d ++ x) 24 = .ok v := by
      unfold getLong
      rw [getByte_lt (by omega), ok_bind, getByte_lt (by omega), ok_bind, getByte_lt (by omega), ok_bind, getByte_lt (by omega), ok_bind]
      exact ⟨_, rfl⟩
    rw [hv, ok_bind]
    split
    · exact Or.inl rfl
    · right
      rw [calcCrc_panic _ _ _ _ (by rw [copyInto_length, List.length_replicate]; have := readF_le hx; omega)]
      rfl

theorem getLevel2_panic (tab : Arr) (d inp : List Nat) (h26 : 26 ≤ d.getD 1 0 * 256 + d.getD 0 0) (hi : inp ≠ []) :
    getLevel2 tab d inp = panic := by
  unfold getLevel2 getWord getByte
  simp only [if_pos (show 0 < 4096 by omega), if_pos (show 0 + 1 < 4096 by omega), ok_bind, Nat.zero_add]
  rw [if_neg (by omega)]
  have : readF 5 inp = some (inp.take 5, inp.drop 5) := by
    unfold readF; rw [if_neg (by simp [hi])]
  rw [this]
  simp only []
  rw [calcCrc_panic _ _ _ _ (by rw [copyInto_length, List.length_replicate]; omega)]
  rfl

/-- The loop over extended headers can only fail or panic once it is entered. -/
theorem extLoop_never (f : Nat) : ∀ (s : Ext) (whole : Int) (inp : List Nat) (x : Hdr × Int × List Nat), s.h.headerSize ≠ 0 →
    extLoop f s whole inp ≠ .ok (some x) := by
  induction f with
  | zero => intro s whole inp x _ h; cases h
  | succ f ih =>
    intro s whole inp x hs h
    unfold extLoop at h
    rw [if_pos hs] at h
    split at h
    · cases h
    · split at h
      · cases h
      · rename_i x r hx
        obtain ⟨⟨s', p⟩, h1, h2⟩ := bind_ok h
        obtain ⟨w, h3, h4⟩ := bind_ok h2
        refine ih _ _ _ _ ?_ h4
        have : s'.h.headerSize = s.h.headerSize := by
          unfold extCase at h1
          obtain ⟨t, _, h1⟩ := bind_ok h1
          simp only [] at h1
          split at h1
          · obtain ⟨_, _, h1⟩ := bind_ok h1; cases h1; rfl
          · obtain ⟨⟨_, _⟩, _, h1⟩ := bind_ok h1
            obtain ⟨_, _, h1⟩ := bind_ok h1; cases h1; rfl
          · obtain ⟨⟨_, _⟩, _, h1⟩ := bind_ok h1
            obtain ⟨_, _, h1⟩ := bind_ok h1; cases h1; rfl
          · obtain ⟨_, _, h1⟩ := bind_ok h1; cases h1; rfl
          · split at h1
            · cases h1; rfl
            · obtain ⟨_, _, h1⟩ := bind_ok h1; cases h1; rfl
          · cases h1; rfl
          · obtain ⟨_, _, h1⟩ := bind_ok h1; cases h1; rfl
          · obtain ⟨⟨_, _⟩, _, h1⟩ := bind_ok h1
            obtain ⟨_, _, h1⟩ := bind_ok h1; cases h1; rfl
          · obtain ⟨⟨_, _⟩, _, h1⟩ := bind_ok h1
            obtain ⟨_, _, h1⟩ := bind_ok h1; cases h1; rfl
          · obtain ⟨_, _, h1⟩ := bind_ok h1; cases h1; rfl
          · cases h1; rfl
        simpa [this] using hs

/-! ## The checksum -/

theorem getHeader_cons (f : Fmt) (tab : Arr) (h : Hdr) (b : Nat) (inp : List Nat) (hb : b ≠ 0) (hi : inp ≠ []) :
    getHeader f tab h (b :: inp) =
      (do match ← byLevel tab h (b :: inp.take 20 ++ List.replicate (20 - (inp.take 20).length) 0) (inp.drop 20) with
          | none => .ok .bad
          | some (h, rest) => .ok (finishHdr f h rest)) := by
  unfold getHeader
  simp only [hb, if_false]
  have : readF 20 inp = some (inp.take 20, inp.drop 20) := by
    unfold readF; rw [if_neg (by simp [hi])]
  rw [this]
  rfl

/-- Level 0 and level 1 compare the checksum before anything else. -/
theorem getLevel01_bad (h : Hdr) (d inp : List Nat)
    (hsum : ((d ++ inp.take (d.getD 0 0 + 2 - 21)).drop 2 |>.take (d.getD 0 0)).sum % 256 ≠ d.getD 1 0) :
    getLevel0 h d inp = .ok none ∧ getLevel1 h d inp = .ok none := by
  have x1 : getByte d 0 = .ok (d.getD 0 0) := by simp [getByte]
  have x2 : getByte d 1 = .ok (d.getD 1 0) := by simp [getByte]
  have x3 : readF (d.getD 0 0 + 2 - 21) inp = none ∨
      readF (d.getD 0 0 + 2 - 21) inp = some (inp.take (d.getD 0 0 + 2 - 21), inp.drop (d.getD 0 0 + 2 - 21)) := by
    unfold readF; split
    · exact Or.inl rfl
    · exact Or.inr rfl
  constructor
  · unfold getLevel0
    rw [x1, ok_bind, x2, ok_bind]
    split
    · rfl
    · rcases x3 with x3 | x3
      · rw [x3]
      · rw [x3]
        simp only []
        rw [calcSum_eq, if_pos hsum]
  · unfold getLevel1
    rw [x1, ok_bind, x2, ok_bind]
    split
    · rfl
    · rcases x3 with x3 | x3
      · rw [x3]
      · rw [x3]
        simp only []
        rw [calcSum_eq, if_pos hsum]

theorem getLevel01_got {h : Hdr} {d inp : List Nat} {x : Hdr × List Nat} (hx : getLevel0 h d inp = .ok (some x) ∨ getLevel1 h d inp = .ok (some x)) :
    21 < d.getD 0 0 + 2 ∧ inp ≠ [] ∧ ((d ++ inp.take (d.getD 0 0 + 2 - 21)).drop 2 |>.take (d.getD 0 0)).sum % 256 = d.getD 1 0 := by
  have x1 : getByte d 0 = .ok (d.getD 0 0) := by simp [getByte]
  have x2 : getByte d 1 = .ok (d.getD 1 0) := by simp [getByte]
  refine ⟨?_, ?_, ?_⟩
  · by_contra hc
    have hc' : d.getD 0 0 + 2 ≤ 21 := by omega
    rcases hx with hx | hx
    · unfold getLevel0 at hx
      rw [x1, ok_bind, x2, ok_bind, if_pos hc'] at hx; cases hx
    · unfold getLevel1 at hx
      rw [x1, ok_bind, x2, ok_bind, if_pos hc'] at hx; cases hx
  · intro hi
    have hr : 0 < d.getD 0 0 + 2 - 21 → readF (d.getD 0 0 + 2 - 21) inp = none := by
      intro h0; unfold readF; rw [if_pos ⟨by omega, hi⟩]
    rcases hx with hx | hx
    · unfold getLevel0 at hx
      rw [x1, ok_bind, x2, ok_bind] at hx
      split at hx
      · cases hx
      · rw [hr (by omega)] at hx; cases hx
    · unfold getLevel1 at hx
      rw [x1, ok_bind, x2, ok_bind] at hx
      split at hx
      · cases hx
      · rw [hr (by omega)] at hx; cases hx
  · by_contra hc
    have := getLevel01_bad h d inp hc
    rcases hx with hx | hx
    · rw [this.1] at hx; cases hx
    · rw [this.2] at hx; cases hx

end Lha
