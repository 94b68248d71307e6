import Verif.Proof.Header
/-!
# C14: level-0/1 header corruption is detected
-/

namespace Lha

open Spec

theorem sum_set (l : List Nat) : ∀ (i v : Nat), i < l.length → (l.set i v).sum + l.getD i 0 = l.sum + v := by
  induction l with
  | nil => intro i v h; simp at h
  | cons b l ih =>
    intro i v h
    cases i with
    | zero => simp; omega
    | succ i =>
      have := ih i v (by simpa using h)
      simp only [List.set_cons_succ, List.sum_cons, List.getD_cons_succ]
      omega

theorem drop_set (l : List Nat) (i v : Nat) : (l.set (i + 2) v).drop 2 = (l.drop 2).set i v := by
  match l with
  | [] => rfl
  | [_] => rfl
  | _ :: _ :: l => rfl

/-- The header bytes the two levels check, in terms of the input. -/
theorem data_eq (b : Nat) (inp : List Nat) (n : Nat) (h : 20 ≤ inp.length) :
    b :: inp.take 20 ++ List.replicate (20 - (inp.take 20).length) 0 ++ (inp.drop 20).take (n + 2 - 21) =
      (b :: inp).take (21 + (n + 2 - 21)) := by
  have : 20 - (inp.take 20).length = 0 := by simp; omega
  rw [this]
  simp only [List.replicate_zero, List.append_nil]
  rw [show 21 + (n + 2 - 21) = (20 + (n + 2 - 21)) + 1 by omega, List.take_succ_cons, List.take_add]
  rfl

theorem getHeader_got01 {f : Fmt} {tab : Arr} {h g : Hdr} {inp R : List Nat} (hgot : getHeader f tab h inp = .ok (.got g R)) :
    inp.getD 0 0 ≠ 0 ∧ 21 < inp.length ∧ (inp.getD 20 0 = 0 ∨ inp.getD 20 0 = 1) ∧ 19 < inp.getD 0 0 ∧
      ((inp.drop 2).take (inp.getD 0 0)).sum % 256 = inp.getD 1 0 := by
  cases inp with
  | nil => cases hgot
  | cons b inp =>
    by_cases hb : b = 0
    · unfold getHeader at hgot; simp [hb] at hgot
    · by_cases hi : inp = []
      · subst hi
        unfold getHeader at hgot; simp [hb, readF] at hgot
      · rw [getHeader_cons f tab h b inp hb hi] at hgot
        generalize hd : b :: inp.take 20 ++ List.replicate (20 - (inp.take 20).length) 0 = d at hgot
        obtain ⟨r, h1, h2⟩ := bind_ok hgot
        cases r with
        | none => cases h2
        | some x =>
          have hlv : (d.getD 20 0 = 0 ∨ d.getD 20 0 = 1) ∧ (getLevel0 h d (inp.drop 20) = .ok (some x) ∨ getLevel1 h d (inp.drop 20) = .ok (some x)) := by
            unfold byLevel at h1
            split at h1
            · rename_i e; exact ⟨Or.inl e, Or.inl h1⟩
            · rename_i e; exact ⟨Or.inr e, Or.inr h1⟩
            · rcases getLevel2_never tab d (inp.drop 20) with e | e <;> rw [e] at h1 <;> cases h1
            · rcases getLevel3_never tab d (inp.drop 20) with e | e <;> rw [e] at h1 <;> cases h1
            · cases h1
          obtain ⟨k1, k2, k3⟩ := getLevel01_got hlv.2
          have hlen : 20 < inp.length := by
            by_contra hc
            exact k2 (List.drop_eq_nil_of_le (by omega))
          have d0 : d.getD 0 0 = b := by rw [← hd]; rfl
          have hd' : d = (b :: inp).take 21 := by
            have : 20 - (inp.take 20).length = 0 := by simp; omega
            rw [← hd, this]; simp
          have d1 : d.getD 1 0 = (b :: inp).getD 1 0 := by
            rw [hd']; simp [List.getD_eq_getElem?_getD, List.getElem?_take]
          have d20 : d.getD 20 0 = (b :: inp).getD 20 0 := by
            rw [hd']; simp only [List.getD_eq_getElem?_getD]; rw [List.getElem?_take_of_lt (by omega)]
          rw [d0] at k1 k3
          rw [d1, ← hd, data_eq b inp b (by omega)] at k3
          refine ⟨by simpa using hb, by simp; omega, d20 ▸ hlv.1, by simp; omega, ?_⟩
          have : ((b :: inp).take (21 + (b + 2 - 21))).drop 2 = ((b :: inp).drop 2).take b := by
            rw [List.drop_take]; congr 1; omega
          rw [this] at k3
          simpa [List.take_take] using k3

theorem getHeader_bad_sum (f : Fmt) (tab : Arr) (h : Hdr) (inp : List Nat) (h0 : 19 < inp.getD 0 0) (hlen : 21 ≤ inp.length)
    (h2 : inp.getD 20 0 ≠ 2) (h3 : inp.getD 20 0 ≠ 3)
    (hsum : ((inp.drop 2).take (inp.getD 0 0)).sum % 256 ≠ inp.getD 1 0) : getHeader f tab h inp = .ok .bad := by
  cases inp with
  | nil => simp at hlen
  | cons b inp =>
    simp only [List.getD_cons_zero] at h0 hsum
    have hl : 20 ≤ inp.length := by simpa using hlen
    rw [getHeader_cons f tab h b inp (by omega) (by intro e; rw [e] at hl; simp at hl)]
    generalize hd : b :: inp.take 20 ++ List.replicate (20 - (inp.take 20).length) 0 = d
    have d0 : d.getD 0 0 = b := by rw [← hd]; rfl
    have hd' : d = (b :: inp).take 21 := by
      have : 20 - (inp.take 20).length = 0 := by simp; omega
      rw [← hd, this]; simp
    have d1 : d.getD 1 0 = (b :: inp).getD 1 0 := by
      rw [hd']; simp [List.getD_eq_getElem?_getD, List.getElem?_take]
    have d20 : d.getD 20 0 = (b :: inp).getD 20 0 := by
      rw [hd']; simp only [List.getD_eq_getElem?_getD]; rw [List.getElem?_take_of_lt (by omega)]
    have key : byLevel tab h d (inp.drop 20) = .ok none := by
      have hs : ((d ++ (inp.drop 20).take (d.getD 0 0 + 2 - 21)).drop 2 |>.take (d.getD 0 0)).sum % 256 ≠ d.getD 1 0 := by
        rw [d0, d1, ← hd, data_eq b inp b hl, List.drop_take, show 21 + (b + 2 - 21) - 2 = b by omega, List.take_take, Nat.min_self]
        exact hsum
      have := getLevel01_bad h d (inp.drop 20) hs
      unfold byLevel
      split
      · exact this.1
      · exact this.2
      · rename_i e; rw [d20] at e; exact absurd e h2
      · rename_i e; rw [d20] at e; exact absurd e h3
      · rfl
    rw [key]; rfl

/-- Take any bytes from which `GetHeader` (into any receiver) returns a header.  Changing one byte of the header other than
the first (its length) to any other value makes `GetHeader` report an error, except that the level byte (position 20)
must not become 2 or 3: those levels have no such checksum. -/
theorem C14_corruption_detected (f : Fmt) (tab : Arr) (h g : Hdr) (inp R : List Nat) (i v : Nat) (hinp : IsBytes inp)
    (hgot : getHeader f tab h inp = .ok (.got g R))
    (hi1 : 1 ≤ i) (hi2 : i < inp.getD 0 0 + 2) (hi3 : i < inp.length)
    (hv : v < 256) (hne : v ≠ inp.getD i 0) (hlv : i = 20 → v ≠ 2 ∧ v ≠ 3) :
    getHeader f tab h (inp.set i v) = .ok .bad := by
  obtain ⟨k0, k1, k2, k3, k4⟩ := getHeader_got01 hgot
  have hset : ∀ j, (inp.set i v).getD j 0 = if i = j then v else inp.getD j 0 := by
    intro j
    simp only [List.getD_eq_getElem?_getD, List.getElem?_set]
    by_cases hj : i = j
    · subst hj; simp [hi3]
    · simp [hj]
  have hb : inp.getD i 0 < 256 := by
    have : inp.getD i 0 ∈ inp := by
      rw [List.getD_eq_getElem?_getD, List.getElem?_eq_getElem hi3]
      exact List.getElem_mem _
    exact hinp _ this
  have s0 : (inp.set i v).getD 0 0 = inp.getD 0 0 := by rw [hset, if_neg (by omega)]
  apply getHeader_bad_sum
  · rw [s0]; exact k3
  · simp; omega
  · rw [hset]; split
    · rename_i e; exact (hlv e).1
    · omega
  · rw [hset]; split
    · rename_i e; exact (hlv e).2
    · omega
  · rw [s0, hset]
    by_cases h1 : i = 1
    · subst h1
      have : (inp.set 1 v).drop 2 = inp.drop 2 := by
        match inp with
        | [] => rfl
        | [_] => rfl
        | _ :: _ :: l => rfl
      rw [this, k4, if_pos rfl]
      exact fun e => hne e.symm
    · rw [if_neg h1, ← k4]
      obtain ⟨j, rfl⟩ : ∃ j, i = j + 2 := ⟨i - 2, by omega⟩
      rw [drop_set, List.take_set]
      generalize hT : (inp.drop 2).take (inp.getD 0 0) = T
      have hj : j < T.length := by rw [← hT, List.length_take, List.length_drop]; omega
      have hTj : T.getD j 0 = inp.getD (j + 2) 0 := by
        rw [← hT, List.getD_eq_getElem?_getD, List.getElem?_take_of_lt (by omega), List.getElem?_drop, ← List.getD_eq_getElem?_getD]
        congr 1; omega
      have := sum_set T j v hj
      rw [hTj] at this
      omega

/-- A readable header: the hypotheses are met, for instance at the method byte (position 5). -/
def sampleLevel0 : List Nat :=
  [36, 213, 45, 108, 104, 53, 45, 7, 0, 0, 0, 20, 0, 0, 0, 1, 2, 3, 4, 32, 0, 2, 104, 105, 61, 187, 85, 0, 0, 225, 83, 101, 164, 129,
   232, 3, 100, 0, 1, 2, 3]

example : IsBytes sampleLevel0 ∧
    (getHeader ⟨false, false⟩ (Arr.mk' 256 0) newHdr sampleLevel0).map (fun r => match r with
      | .got g R => (cstr g.name, g.crc, R)
      | _ => ([], 0, [])) = .ok ([104, 105], 0xBB3D, [1, 2, 3]) := by
  refine ⟨by unfold IsBytes sampleLevel0; decide, by decide +kernel⟩

end Lha
