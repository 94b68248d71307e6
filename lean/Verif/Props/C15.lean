import Verif.Proof.Header
/-!
# C15: level-2 headers cannot be read

The property is false: `getHeaderLevel2` computes a CRC over `uint(n - len(data))` bytes, about 2^64, and indexes out of range.
-/

namespace Lha

open Spec

/-- No bytes whatsoever are read as a header when the level byte is 2 or 3: `GetHeader` returns an error or panics. -/
theorem C15_never_read (f : Fmt) (tab : Arr) (h : Hdr) (b : Nat) (inp : List Nat) (hb : b ≠ 0)
    (hl : (b :: inp).getD 20 0 = 2 ∨ (b :: inp).getD 20 0 = 3) :
    getHeader f tab h (b :: inp) = .ok .bad ∨ getHeader f tab h (b :: inp) = .error .panic := by
  have hi : 20 ≤ inp.length := by
    by_contra hc
    rw [List.getD_eq_getElem?_getD, List.getElem?_eq_none (by simp; omega)] at hl
    simp at hl
  rw [getHeader_cons f tab h b inp hb (by intro e; rw [e] at hi; simp at hi)]
  generalize hd : b :: inp.take 20 ++ List.replicate (20 - (inp.take 20).length) 0 = d
  have hd' : d = (b :: inp).take 21 := by
    have : 20 - (inp.take 20).length = 0 := by simp; omega
    rw [← hd, this]; simp
  have d20 : d.getD 20 0 = (b :: inp).getD 20 0 := by
    rw [hd']; simp only [List.getD_eq_getElem?_getD]; rw [List.getElem?_take_of_lt (by omega)]
  rw [← d20] at hl
  unfold byLevel
  rcases hl with hl | hl
  · rw [hl]
    rcases getLevel2_never tab d (inp.drop 20) with e | e
    · left; show (getLevel2 tab d (inp.drop 20) >>= _) = _; rw [e]; rfl
    · right; show (getLevel2 tab d (inp.drop 20) >>= _) = _; rw [e]; rfl
  · rw [hl]
    rcases getLevel3_never tab d (inp.drop 20) with e | e
    · left; show (getLevel3 tab d (inp.drop 20) >>= _) = _; rw [e]; rfl
    · right; show (getLevel3 tab d (inp.drop 20) >>= _) = _; rw [e]; rfl

/-- **C15, what holds** (the full statement: a well-formed level-2 header is read): a level-2 header that is not well-formed, because it
claims to be shorter than any can be or because the archive ends behind its first 21 bytes, is refused with an error, without a crash; and
nothing else is. -/
theorem C15_partial (f : Fmt) (tab : Arr) (h : Hdr) (b : Nat) (inp : List Nat) (hb : b ≠ 0) (hl : (b :: inp).getD 20 0 = 2) :
    getHeader f tab h (b :: inp) = .ok .bad ↔ ((b :: inp).getD 1 0 * 256 + b < 26 ∨ inp.length = 20) := by
  have hi : 20 ≤ inp.length := by
    by_contra hc
    rw [List.getD_eq_getElem?_getD, List.getElem?_eq_none (by simp; omega)] at hl
    simp at hl
  rw [getHeader_cons f tab h b inp hb (by intro e; rw [e] at hi; simp at hi)]
  generalize hd : b :: inp.take 20 ++ List.replicate (20 - (inp.take 20).length) 0 = d
  have hd' : d = (b :: inp).take 21 := by
    have : 20 - (inp.take 20).length = 0 := by simp; omega
    rw [← hd, this]; simp
  have dg : ∀ i, i < 21 → d.getD i 0 = (b :: inp).getD i 0 := by
    intro i hi
    rw [hd']; simp only [List.getD_eq_getElem?_getD]; rw [List.getElem?_take_of_lt (by omega)]
  have d0 : d.getD 0 0 = b := by rw [dg 0 (by omega)]; rfl
  have d1 := dg 1 (by omega)
  unfold byLevel
  rw [dg 20 (by omega), hl]
  show (getLevel2 tab d (inp.drop 20) >>= _) = _ ↔ _
  by_cases hc : (b :: inp).getD 1 0 * 256 + b < 26 ∨ inp.length = 20
  · refine iff_of_true ?_ hc
    have : getLevel2 tab d (inp.drop 20) = .ok none := by
      unfold getLevel2 getWord getByte
      simp only [if_pos (show 0 < 4096 by omega), if_pos (show 0 + 1 < 4096 by omega), ok_bind, Nat.zero_add]
      rw [d0, d1]
      split
      · rfl
      · rename_i h26
        have e : inp.drop 20 = [] := List.drop_eq_nil_of_le (by omega)
        rw [e]
        have : readF 5 [] = none := by unfold readF; rw [if_pos (by simp)]
        rw [this]
    rw [this]; rfl
  · refine iff_of_false ?_ hc
    have hne : inp.drop 20 ≠ [] := by
      intro e
      have := List.drop_eq_nil_iff.1 e
      omega
    rw [getLevel2_panic tab d _ (by rw [d0, d1]; omega) hne]
    intro e
    cases e

/-- Both sides occur: a level-2 header of 25 bytes, and an archive of 21 bytes. -/
example : (25 :: (List.replicate 19 0 ++ [2, 0])).getD 20 0 = 2 ∧ (25 :: (List.replicate 19 0 ++ [2, 0])).getD 1 0 * 256 + 25 < 26 ∧
    (50 :: (List.replicate 19 0 ++ [2])).getD 20 0 = 2 ∧ (List.replicate 19 0 ++ [2]).length = 20 := by decide

theorem seal2_read (f : Fmt) (tab : Arr) (g : Hdr) (M F' B R bytes : List Nat) (hM18 : M.length = 18) (hF6 : F'.length = 6)
    (hB2 : 2 ≤ B.length) (hw : seal2 tab (M ++ 2 :: F') B = .ok bytes) : getHeader f tab g (bytes ++ R) = .error .panic := by
  unfold seal2 at hw
  simp only [] at hw
  generalize hPad : (if (2 + (M ++ 2 :: F').length + 2 + B.length) % 256 = 0 then [0] else ([] : List Nat)) = Pad at hw
  have hN : (2 + (M ++ 2 :: F').length + 2 + B.length + Pad.length) % 256 ≠ 0 := by
    rw [← hPad]; split
    · simp only [List.length_singleton]; omega
    · simp only [List.length_nil]; omega
  have hFl : (M ++ 2 :: F').length = 25 := by simp [hM18, hF6]
  have hN26 : 26 ≤ 2 + (M ++ 2 :: F').length + 2 + B.length + Pad.length := by omega
  generalize 2 + (M ++ 2 :: F').length + 2 + B.length + Pad.length = N at hw hN hN26
  split at hw
  · rename_i hn
    obtain ⟨hcrc, _, h1⟩ := bind_ok hw
    have e : bytes = N % 256 :: (N / 256 % 256 :: M ++ 2 :: (F' ++ le16 hcrc ++ B ++ Pad)) := by
      have := Except.ok.inj h1
      rw [← this]; simp [le16]
    rw [e]
    generalize hT : F' ++ le16 hcrc ++ B ++ Pad = T
    have hTl : 6 ≤ T.length := by rw [← hT]; simp only [List.length_append, hF6]; omega
    have e2 : N % 256 :: (N / 256 % 256 :: M ++ 2 :: T) ++ R = N % 256 :: ((N / 256 % 256 :: M ++ [2]) ++ (T ++ R)) := by simp
    rw [e2]
    have hX : (N / 256 % 256 :: M ++ [2]).length = 20 := by simp [hM18]
    rw [getHeader_cons f tab g _ _ hN (by simp)]
    have t1 : ((N / 256 % 256 :: M ++ [2]) ++ (T ++ R)).take 20 = N / 256 % 256 :: M ++ [2] := by
      rw [List.take_append_of_le_length (by omega), ← hX, List.take_length]
    have t2 : ((N / 256 % 256 :: M ++ [2]) ++ (T ++ R)).drop 20 = T ++ R := by
      rw [← hX]; exact List.drop_left
    rw [t1, t2, hX]
    simp only [Nat.sub_self, List.replicate_zero, List.append_nil]
    have hlv : (N % 256 :: (N / 256 % 256 :: M ++ [2])).getD 20 0 = 2 := by
      show (M ++ [2]).getD 18 0 = 2
      rw [List.getD_eq_getElem?_getD, List.getElem?_append_right (by omega)]
      simp [hM18]
    have hp : byLevel tab g (N % 256 :: (N / 256 % 256 :: M ++ [2])) (T ++ R) = panic := by
      unfold byLevel
      rw [hlv]
      show getLevel2 _ _ _ = _
      apply getLevel2_panic
      · show 26 ≤ N / 256 % 256 * 256 + N % 256
        omega
      · intro hc
        have : T.length = 0 := by rw [(List.append_eq_nil_iff.mp hc).1]; rfl
        omega
    have e3 : N % 256 :: (N / 256 % 256 :: M) ++ [2] = N % 256 :: (N / 256 % 256 :: M ++ [2]) := rfl
    rw [hp]
    rfl
  · cases hw

/-- Every level-2 header the library writes makes its own reader panic, whatever follows. -/
theorem C15_false (f : Fmt) (tab : Arr) (gst : Nat) (h g : Hdr) (bytes R : List Nat) (hl : h.level = 2)
    (hw : writeHeader f tab gst h = .ok (some bytes)) : getHeader f tab g (bytes ++ R) = .error .panic := by
  unfold writeHeader at hw
  simp only [hl] at hw
  split at hw
  · cases hw
  · rw [if_neg (by omega), if_neg (by omega), if_pos trivial] at hw
    obtain ⟨d, h1, h2⟩ := bind_ok hw
    cases h2
    unfold writeLevel2 at h1
    obtain ⟨m, hm, h1⟩ := bind_ok h1
    obtain ⟨dir, _, h1⟩ := bind_ok h1
    have hm5 : m.length = 5 := by
      unfold takeExact at hm
      split at hm
      · cases hm; simp; omega
      · cases hm
    refine seal2_read f tab g (m ++ le32 h.packedSize ++ le32 h.originalSize ++ le32 h.stamp ++ [0x20])
      (le16 h.crc ++ [if f.generic then 0 else 0x55] ++ le16 5 ++ [0]) _ R bytes (by simp [hm5, le32]) (by simp [le16]) ?_
      (by rw [hl] at h1; simpa only [List.append_assoc, List.cons_append, List.nil_append] using h1)
    simp only [List.length_append, le16, List.length_cons]
    omega

/-- A level-2 header of an ordinary file is written without trouble (so the hypothesis above is met) … -/
def sampleLevel2 : Hdr :=
  { newHdr with method := [45, 108, 104, 53, 45], packedSize := 7, originalSize := 20, attr := 0x20, level := 2,
                name := [97, 46, 116, 120, 116, 0, 0], crc := 0xBB3D, mode := 0o100644, extendType := 0x55 }

example : ((do let tab ← makeCrcTable
               writeHeader ⟨false, false⟩ tab 0 sampleLevel2) : G (Option (List Nat))).map (fun r => r.map List.length) = .ok (some 50) := by
  decide +kernel

/-- … and reading it back panics. -/
theorem C15_witness : ∃ tab bytes, makeCrcTable = .ok tab ∧ writeHeader ⟨false, false⟩ tab 0 sampleLevel2 = .ok (some bytes) ∧
    bytes.length = 50 ∧ getHeader ⟨false, false⟩ tab newHdr bytes = .error .panic := by
  have h : ((do let tab ← makeCrcTable
                writeHeader ⟨false, false⟩ tab 0 sampleLevel2) : G (Option (List Nat))).map (fun r => r.map List.length) = .ok (some 50) := by
    decide +kernel
  cases ht : makeCrcTable with
  | error e => rw [ht] at h; cases h
  | ok tab =>
    rw [ht, ok_bind] at h
    cases hw : writeHeader ⟨false, false⟩ tab 0 sampleLevel2 with
    | error e => rw [hw] at h; cases h
    | ok r =>
      rw [hw] at h
      cases r with
      | none => cases h
      | some bytes =>
        refine ⟨tab, bytes, rfl, hw, ?_, ?_⟩
        · have := Except.ok.inj h
          simpa using this
        · have := C15_false ⟨false, false⟩ tab 0 sampleLevel2 newHdr bytes [] rfl hw
          rwa [List.append_nil] at this

end Lha
