import Verif.Proof.Path
/-!
# Names as parsed from headers; the input consumed by a header
-/

namespace Lha

open Spec

theorem zeroAt_mem {l x : List Nat} {i : Nat} (h : zeroAt l i = .ok x) : 0 ∈ x := by
  unfold zeroAt at h
  split at h
  · cases h
  · cases h; simp

theorem parseLevel0_nul {h g : Hdr} {hs : Nat} {d : List Nat} (hx : parseLevel0 h hs d = .ok (some g)) : 0 ∈ g.name := by
  unfold parseLevel0 at hx
  obtain ⟨_, _, hx⟩ := bind_ok hx
  obtain ⟨_, _, hx⟩ := bind_ok hx
  obtain ⟨_, _, hx⟩ := bind_ok hx
  obtain ⟨_, _, hx⟩ := bind_ok hx
  obtain ⟨_, _, hx⟩ := bind_ok hx
  obtain ⟨_, _, hx⟩ := bind_ok hx
  obtain ⟨_, _, hx⟩ := bind_ok hx
  obtain ⟨⟨nm, i⟩, _, hx⟩ := bind_ok hx
  simp only [] at hx
  obtain ⟨nm', hz, hx⟩ := bind_ok hx
  have hm := zeroAt_mem hz
  split at hx
  · split at hx
    · cases hx; exact hm
    · cases hx
  · obtain ⟨_, _, hx⟩ := bind_ok hx
    split at hx
    · cases hx; exact hm
    · obtain ⟨_, _, hx⟩ := bind_ok hx
      split at hx
      · split at hx
        · obtain ⟨_, _, hx⟩ := bind_ok hx
          obtain ⟨_, _, hx⟩ := bind_ok hx
          obtain ⟨_, _, hx⟩ := bind_ok hx
          obtain ⟨_, _, hx⟩ := bind_ok hx
          obtain ⟨_, _, hx⟩ := bind_ok hx
          cases hx; exact hm
        · cases hx; exact hm
      · cases hx; exact hm

theorem readF_some {n : Nat} {inp x r : List Nat} (h : readF n inp = some (x, r)) : x = inp.take n ∧ r = inp.drop n := by
  unfold readF at h
  split at h
  · cases h
  · cases h; exact ⟨rfl, rfl⟩

theorem getLevel0_name {h g : Hdr} {d inp rest : List Nat} (hx : getLevel0 h d inp = .ok (some (g, rest))) :
    0 ∈ g.name ∧ ∃ k, rest = inp.drop k := by
  unfold getLevel0 at hx
  obtain ⟨hs, _, hx⟩ := bind_ok hx
  obtain ⟨sm, _, hx⟩ := bind_ok hx
  split at hx
  · cases hx
  · split at hx
    · cases hx
    · rename_i x r hr
      split at hx
      · cases hx
      · obtain ⟨y, hp, hx⟩ := bind_ok hx
        split at hx
        · cases hx
        · cases hx
          exact ⟨parseLevel0_nul hp, _, (readF_some hr).2⟩

theorem getLevel1_name {h g : Hdr} {d inp rest : List Nat} (hx : getLevel1 h d inp = .ok (some (g, rest))) :
    0 ∈ g.name ∧ ∃ k, rest = inp.drop k := by
  unfold getLevel1 at hx
  obtain ⟨hs, _, hx⟩ := bind_ok hx
  obtain ⟨sm, _, hx⟩ := bind_ok hx
  split at hx
  · cases hx
  · rename_i hlt
    split at hx
    · cases hx
    · rename_i x r hr
      split at hx
      · cases hx
      · simp only [] at hx
        obtain ⟨_, _, hx⟩ := bind_ok hx
        obtain ⟨_, _, hx⟩ := bind_ok hx
        obtain ⟨_, _, hx⟩ := bind_ok hx
        obtain ⟨_, _, hx⟩ := bind_ok hx
        obtain ⟨_, _, hx⟩ := bind_ok hx
        obtain ⟨_, _, hx⟩ := bind_ok hx
        obtain ⟨_, _, hx⟩ := bind_ok hx
        obtain ⟨⟨nm, i⟩, _, hx⟩ := bind_ok hx
        simp only [] at hx
        obtain ⟨nm', hz, hx⟩ := bind_ok hx
        have hm := zeroAt_mem hz
        obtain ⟨_, _, hx⟩ := bind_ok hx
        obtain ⟨_, _, hx⟩ := bind_ok hx
        obtain ⟨_, _, hx⟩ := bind_ok hx
        split at hx
        · obtain ⟨y, hy, hx⟩ := bind_ok hx
          cases y with
          | none => cases hx
          | some y => exact absurd hy (extLoop_never _ _ _ _ _ (by show hs ≠ 0; omega))
        · cases hx
          exact ⟨hm, _, (readF_some hr).2⟩

theorem convByte_nul_any (h : Hdr) (c : CaseTo) :
    convByte (if h.extendType = 0x6d then ([0xff, 0x2f, 0x3a, 0x5c], [0x2f, 0x3a, 0x2f, 0x2f]) else ([0xff, 0x5c], [0x2f, 0x2f]) : List Nat × List Nat).1
      (if h.extendType = 0x6d then ([0xff, 0x2f, 0x3a, 0x5c], [0x2f, 0x3a, 0x2f, 0x2f]) else ([0xff, 0x5c], [0x2f, 0x2f]) : List Nat × List Nat).2 c 0 = 0 := by
  split
  · exact convByte_nul _ _ _ (by simp)
  · exact convByte_nul _ _ _ (by simp)

theorem finishHdr_got {f : Fmt} {h g : Hdr} {rest rest' : List Nat} (h0 : 0 ∈ h.name) (hx : finishHdr f h rest = .got g rest') :
    0 ∈ g.name ∧ rest' = rest := by
  have hm : ∀ c : CaseTo, 0 ∈ convertFilename true
      (if h.extendType = 0x6d then ([0xff, 0x2f, 0x3a, 0x5c], [0x2f, 0x3a, 0x2f, 0x2f]) else ([0xff, 0x5c], [0x2f, 0x2f]) : List Nat × List Nat).1
      (if h.extendType = 0x6d then ([0xff, 0x2f, 0x3a, 0x5c], [0x2f, 0x3a, 0x2f, 0x2f]) else ([0xff, 0x5c], [0x2f, 0x2f]) : List Nat × List Nat).2 c h.name := by
    intro c
    unfold convertFilename
    simp only []
    refine List.mem_map.mpr ⟨0, h0, convByte_nul_any h _⟩
  unfold finishHdr at hx
  simp only [] at hx
  split at hx
  · split at hx
    · cases hx; exact ⟨hm _, rfl⟩
    · cases hx
  · cases hx; exact ⟨hm _, rfl⟩

/-- Whatever archive: the name of a parsed header contains a NUL, and the input left is a proper suffix of the input. -/
theorem getHeader_got {f : Fmt} {tab : Arr} {h g : Hdr} {inp rest : List Nat} (hx : getHeader f tab h inp = .ok (.got g rest)) :
    0 ∈ g.name ∧ ∃ k, 0 < k ∧ rest = inp.drop k := by
  unfold getHeader at hx
  split at hx
  · cases hx
  · rename_i b inp
    split at hx
    · cases hx
    · split at hx
      · cases hx
      · rename_i x r hr
        simp only [] at hx
        obtain ⟨y, hy, hx⟩ := bind_ok hx
        split at hx
        · cases hx
        · rename_i h1 r1
          have hx := Except.ok.inj hx
          have key : 0 ∈ h1.name ∧ ∃ k, r1 = r.drop k := by
            unfold byLevel at hy
            split at hy
            · exact getLevel0_name hy
            · exact getLevel1_name hy
            · rcases getLevel2_never tab _ r with e | e <;> rw [e] at hy <;> cases hy
            · rcases getLevel3_never tab _ r with e | e <;> rw [e] at hy <;> cases hy
            · cases hy
          obtain ⟨e1, e2⟩ := finishHdr_got key.1 hx
          obtain ⟨k, hk⟩ := key.2
          refine ⟨e1, 21 + k, by omega, ?_⟩
          rw [e2, hk, (readF_some hr).2, List.drop_drop]
          rw [show 21 + k = (20 + k) + 1 by omega, List.drop_succ_cons]

end Lha
