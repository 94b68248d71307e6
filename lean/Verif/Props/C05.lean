import Verif.Proof.BitIO
/-!
# C05: bit stream writer and reader are inverse
-/

namespace Lha

open Spec

/-- Write a sequence of fields `(width, value)` with `putbits`. -/
def putFields : List (Nat × Nat) → BW → G BW
  | [], w => .ok w
  | (n, x) :: r, w => do
    let w ← putbits n x w
    putFields r w

/-- Read fields of the given widths with `getbits`. -/
def getFields : List Nat → BR → G (List Nat × BR)
  | [], r => .ok ([], r)
  | n :: ns, r => do
    let (x, r) ← getbits n r
    let (xs, r) ← getFields ns r
    .ok (x :: xs, r)

/-- The bits of a sequence of fields, most significant first. -/
def fieldBits (l : List (Nat × Nat)) : List Bool := l.flatMap (fun p => bits p.1 p.2)

theorem putFields_spec (l : List (Nat × Nat)) (hl : ∀ p ∈ l, p.1 ≤ 16) (s : BW) (W : List Bool)
    (hs : WRep s W) : ∃ s', putFields l s = .ok s' ∧ WRep s' (W ++ fieldBits l) ∧
      s'.origsize = s.origsize := by
  induction l generalizing s W with
  | nil => exact ⟨s, rfl, by simpa [fieldBits] using hs, rfl⟩
  | cons p l ih =>
    obtain ⟨n, x⟩ := p
    obtain ⟨s1, h1, h2, h3, _⟩ := putbits_spec x hs (hl (n, x) (by simp))
    obtain ⟨s2, h4, h5, h6⟩ := ih (fun p hp => hl p (by simp [hp])) s1 _ h2
    refine ⟨s2, ?_, ?_, by rw [h6, h3]⟩
    · simp only [putFields]; rw [h1]; exact h4
    · simpa [fieldBits, List.append_assoc] using h5

theorem getFields_spec (l : List (Nat × Nat)) (hl : ∀ p ∈ l, p.1 ≤ 16 ∧ p.2 < 2 ^ p.1) (s : BR)
    (R : List Bool) (T : List Nat) (hs : RRep s (fieldBits l ++ R) T) :
    ∃ s', getFields (l.map (·.1)) s = .ok (l.map (·.2), s') ∧ RRep s' R T := by
  induction l generalizing s with
  | nil => exact ⟨s, rfl, by simpa [fieldBits] using hs⟩
  | cons p l ih =>
    obtain ⟨n, x⟩ := p
    have hn := hl (n, x) (by simp)
    have e : fieldBits ((n, x) :: l) ++ R = bits n x ++ (fieldBits l ++ R) := by
      simp [fieldBits, List.append_assoc]
    rw [e] at hs
    obtain ⟨s1, h1, h2⟩ := getbits_spec hs hn.1
    rw [pv_bits_lt n x _ hn.2] at h1
    rw [List.drop_left' (by simp)] at h2
    obtain ⟨s2, h3, h4⟩ := ih (fun p hp => hl p (by simp [hp])) s1 h2
    refine ⟨s2, ?_, h4⟩
    simp only [List.map_cons, getFields]
    rw [h1]; simp only [ok_bind]
    rw [h3]; simp only [ok_bind]

/-- Writing any fields (widths up to 16) to a fresh writer and flushing with seven zero bits succeeds
without fault.  If the size limit (`size` bytes) admits the fields plus seven bits, the writer does
not give up.  If it does not give up, the bytes written are the fields' bits, most significant first,
padded with fewer than eight zero bits, and a reader positioned on these bytes (followed by any other
input `T`) returns the values and has consumed exactly these bytes. -/
theorem C05_fields_round_trip (l : List (Nat × Nat)) (hl : ∀ p ∈ l, p.1 ≤ 16 ∧ p.2 < 2 ^ p.1)
    (size : Nat) :
    ∃ w w', putFields l (initPutbits ⟨[], 0, size, 0, 0, false⟩) = .ok w ∧ putbits 7 0 w = .ok w' ∧
      ((fieldBits l).length + 7 < 8 * (size + 1) → w'.unp = false) ∧
      (w'.unp = false →
        (∃ k, k ≤ 7 ∧ bytesBits w'.out = fieldBits l ++ List.replicate k false) ∧
        ∀ T : List Nat, ∃ r0 r, initGetbits ⟨w'.out ++ T, w'.compsize, 0, 0, 0⟩ = .ok r0 ∧
          getFields (l.map (·.1)) r0 = .ok (l.map (·.2), r) ∧ r.inp = T ∧ r.compsize = 0) := by
  have h0 := initPutbits_spec ⟨[], 0, size, 0, 0, false⟩ rfl (Nat.zero_le _) rfl (by intro x hx; simp at hx)
  obtain ⟨w, h1, h2, h3⟩ := putFields_spec l (fun p hp => (hl p hp).1) _ _ h0
  have e : bytesBits (BW.out ⟨[], 0, size, 0, 0, false⟩) ++ fieldBits l = fieldBits l := by
    simp [BW.out, bytesBits]
  rw [e] at h2
  obtain ⟨w', h4, h5, h6, h7, h8, h9⟩ := flush_spec h2
  have hsz : w'.origsize = size := by rw [h6, h3]; rfl
  refine ⟨w, w', h1, h4, ?_, ?_⟩
  · intro hfit
    by_cases hu : w'.unp = true
    · have := h8 hu
      omega
    · simpa using hu
  · intro hu
    obtain ⟨k, hk, hb⟩ := h9 hu
    refine ⟨⟨k, hk, hb⟩, fun T => ?_⟩
    have hbytes : IsBytes w'.out := by
      intro x hx
      exact h5.byt x (by simpa [BW.out] using hx)
    obtain ⟨r0, g1, g2⟩ := initGetbits_spec ⟨w'.out ++ T, w'.compsize, 0, 0, 0⟩ w'.out T rfl
      (by simp [BW.out, h5.comp]) hbytes
    rw [hb] at g2
    obtain ⟨r, g3, g4⟩ := getFields_spec l hl r0 _ T g2
    refine ⟨r0, r, g1, g3, ?_⟩
    obtain ⟨B, e1, e2, _, e3⟩ := g4.rest
    have hB : B = [] := by
      have := congrArg List.length e3
      simp only [List.length_drop, List.length_replicate, bytesBits_length] at this
      exact List.length_eq_zero_iff.mp (by omega)
    subst hB
    exact ⟨by simpa using e1, by simpa using e2.symm⟩

/-- Non-vacuity: three fields straddling byte boundaries, with room for them. -/
example : (∀ p ∈ [(3, 5), (16, 65535), (0, 0), (9, 300)], p.1 ≤ 16 ∧ p.2 < 2 ^ p.1) ∧
    (fieldBits [(3, 5), (16, 65535), (0, 0), (9, 300)]).length + 7 < 8 * (10 + 1) := by decide

end Lha
