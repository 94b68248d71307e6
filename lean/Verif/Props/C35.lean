import Verif.Proof.Header
import Mathlib.Tactic.Ring
/-!
# C35: Windows time stamps are converted exactly
-/

namespace Lha

open Spec

/-- 1601-01-01 to 1970-01-01 in units of 100 ns. -/
def filetimeEpoch : Nat := 116444736000000000

theorem winSub_spec (b e br : Nat) (hb : b < 256) (he : e < 256) (hbr : br ≤ 1) :
    (winSub b e br).1 < 256 ∧ (winSub b e br).2 ≤ 1 ∧ (winSub b e br).1 + e + br = b + 256 * (winSub b e br).2 := by
  unfold winSub
  simp only []
  have : (b + 2 ^ 64 + 2 ^ 64 - e - br) % 2 ^ 64 = if e + br ≤ b then b - e - br else 2 ^ 64 + b - e - br := by
    split <;> omega
  rw [this]
  by_cases h : e + br ≤ b
  · simp only [if_pos h]; split <;> omega
  · simp only [if_neg h]; split <;> omega

theorem winSubLoop_spec (bs : List Nat) : ∀ (es : List Nat) (br : Nat) (acc : List Nat), bs.length = es.length → IsBytes bs →
    IsBytes es → br ≤ 1 →
    ∃ ds br', winSubLoop bs es br acc = ds.reverse ++ acc ∧ ds.length = bs.length ∧ IsBytes ds ∧ br' ≤ 1 ∧
      leVal ds + leVal es + br = leVal bs + 256 ^ bs.length * br' := by
  induction bs with
  | nil =>
    intro es br acc hl _ _ hbr
    have : es = [] := by cases es with
      | nil => rfl
      | cons a b => simp at hl
    subst this
    exact ⟨[], br, rfl, rfl, (by intro x hx; cases hx), hbr, by simp [leVal]⟩
  | cons b bs ih =>
    intro es br acc hl hb he hbr
    cases es with
    | nil => simp at hl
    | cons e es =>
      have hb0 : b < 256 := hb b (by simp)
      have he0 : e < 256 := he e (by simp)
      obtain ⟨w1, w2, w3⟩ := winSub_spec b e br hb0 he0 hbr
      obtain ⟨ds, br', k1, k2, k3, k4, k5⟩ := ih es (winSub b e br).2 ((winSub b e br).1 :: acc) (by simpa using hl)
        (fun x hx => hb x (by simp [hx])) (fun x hx => he x (by simp [hx])) w2
      refine ⟨(winSub b e br).1 :: ds, br', ?_, by simp [k2], ?_, k4, ?_⟩
      · show winSubLoop bs es (winSub b e br).2 ((winSub b e br).1 :: acc) = _
        rw [k1]; simp
      · intro x hx
        rcases List.mem_cons.mp hx with h | h
        · rw [h]; exact w1
        · exact k3 x h
      · simp only [leVal, List.length_cons, pow_succ]
        have : 256 ^ bs.length * 256 * br' = 256 * (256 ^ bs.length * br') := by ring
        rw [this]
        generalize 256 ^ bs.length * br' = X at *
        omega

/-- Value of a big-endian byte string. -/
def beVal : List Nat → Nat
  | [] => 0
  | w :: ws => w * 256 ^ ws.length + beVal ws

theorem leVal_append (a b : List Nat) : leVal (a ++ b) = leVal a + 256 ^ a.length * leVal b := by
  induction a with
  | nil => simp [leVal]
  | cons x a ih => simp only [List.cons_append, leVal, ih, List.length_cons, pow_succ]; ring

theorem beVal_reverse (l : List Nat) : leVal l.reverse = beVal l := by
  induction l with
  | nil => rfl
  | cons w ws ih =>
    rw [List.reverse_cons, leVal_append, ih]
    simp [leVal, beVal]; ring

theorem lt_of_mul_add {A P C N : Nat} (h1 : 1 ≤ P) (h : A * P + C < N) : A < N := by
  have h2 : A * 1 ≤ A * P := Nat.mul_le_mul_left A h1
  omega

theorem mod_two_mods {A B N : Nat} (h : A + B < N) : (A % N + B) % N = A + B := by
  rw [Nat.mod_eq_of_lt (show A < N by omega), Nat.mod_eq_of_lt h]

theorem winDiv_spec (ws : List Nat) : ∀ (q t : Nat), IsBytes ws → t < 10000000 →
    q * 256 ^ ws.length + (t * 256 ^ ws.length + beVal ws) / 10000000 < 2 ^ 64 →
    winDiv ws q t = q * 256 ^ ws.length + (t * 256 ^ ws.length + beVal ws) / 10000000 := by
  induction ws with
  | nil => intro q t _ ht _; simp [winDiv, beVal]; omega
  | cons w ws ih =>
    intro q t hw ht hlt
    have hw0 : w < 256 := hw w (by simp)
    have key : q * 256 ^ (w :: ws).length + (t * 256 ^ (w :: ws).length + beVal (w :: ws)) / 10000000 =
        (q * 256 + (t * 256 + w) / 10000000) * 256 ^ ws.length +
          ((t * 256 + w) % 10000000 * 256 ^ ws.length + beVal ws) / 10000000 := by
      have e1 : t * 256 ^ (w :: ws).length + beVal (w :: ws) = (t * 256 + w) * 256 ^ ws.length + beVal ws := by
        simp only [List.length_cons, pow_succ, beVal]; ring
      have e2 : (t * 256 + w) * 256 ^ ws.length + beVal ws =
          ((t * 256 + w) % 10000000 * 256 ^ ws.length + beVal ws) + 10000000 * ((t * 256 + w) / 10000000 * 256 ^ ws.length) := by
        have := Nat.div_add_mod (t * 256 + w) 10000000
        calc (t * 256 + w) * 256 ^ ws.length + beVal ws
            = (10000000 * ((t * 256 + w) / 10000000) + (t * 256 + w) % 10000000) * 256 ^ ws.length + beVal ws := by rw [this]
          _ = _ := by ring
      rw [e1, e2, Nat.add_mul_div_left _ _ (by omega)]
      simp only [List.length_cons, pow_succ]; ring
    rw [key] at hlt ⊢
    have hq : q * 256 + (t * 256 + w) / 10000000 < 2 ^ 64 := by
      have h1 : 1 ≤ 256 ^ ws.length := Nat.one_le_pow _ _ (by omega)
      exact lt_of_mul_add h1 hlt
    have ht2 : (t * 256 % 2 ^ 64 + w) % 2 ^ 64 = t * 256 + w := by omega
    have hq2 : (q * 256 % 2 ^ 64 + (t * 256 + w) / 10000000) % 2 ^ 64 = q * 256 + (t * 256 + w) / 10000000 := mod_two_mods hq
    unfold winDiv
    simp only [ht2, hq2]
    exact ih _ _ (fun x hx => hw x (by simp [hx])) (Nat.mod_lt _ (by omega)) hlt

theorem leVal_lt (l : List Nat) (h : IsBytes l) : leVal l < 256 ^ l.length := by
  induction l with
  | nil => simp [leVal]
  | cons b l ih =>
    have := ih (fun x hx => h x (by simp [hx]))
    have hb := h b (by simp)
    simp only [leVal, List.length_cons, pow_succ]
    omega

/-- The eight-byte little-endian FILETIME `t` becomes `((t - epoch) mod 2^64) / 10^7` seconds: for every time from 1970 on the
exact Unix time rounded down, below that the 64-bit wrap-around. -/
theorem C35_wintime (bs : List Nat) (hl : bs.length = 8) (hb : IsBytes bs) :
    wintimeToUnix bs = ((leVal bs + 2 ^ 64 - filetimeEpoch) % 2 ^ 64) / 10000000 := by
  obtain ⟨ds, br', k1, k2, k3, k4, k5⟩ := winSubLoop_spec bs [0x00, 0x80, 0x3e, 0xd5, 0xde, 0xb1, 0x9d, 0x01] 0 [] (by simp [hl]) hb
    (by unfold IsBytes; decide) (by omega)
  have hep : leVal [0x00, 0x80, 0x3e, 0xd5, 0xde, 0xb1, 0x9d, 0x01] = filetimeEpoch := by decide
  have hds := leVal_lt ds k3
  rw [hep, hl] at k5
  rw [k2, hl] at hds
  have e8 : (256 : Nat) ^ 8 = 2 ^ 64 := by norm_num
  rw [e8] at k5 hds
  have hbs := leVal_lt bs hb
  rw [hl, e8] at hbs
  have hv : leVal ds = (leVal bs + 2 ^ 64 - filetimeEpoch) % 2 ^ 64 := by
    unfold filetimeEpoch at *
    rcases (show br' = 0 ∨ br' = 1 by omega) with h | h <;> subst h <;> omega
  unfold wintimeToUnix
  rw [k1, List.append_nil]
  have hbe : beVal ds.reverse = leVal ds := by rw [← beVal_reverse, List.reverse_reverse]
  rw [winDiv_spec ds.reverse 0 0 (fun x hx => k3 x (List.mem_reverse.mp hx)) (by omega)]
  · rw [hbe, ← hv]; simp
  · rw [hbe]; simp only [Nat.zero_mul, Nat.zero_add]; omega

/-- From 1970 on: the exact number of whole seconds. -/
theorem C35_exact (bs : List Nat) (hl : bs.length = 8) (hb : IsBytes bs) (h : filetimeEpoch ≤ leVal bs) :
    wintimeToUnix bs = (leVal bs - filetimeEpoch) / 10000000 := by
  rw [C35_wintime bs hl hb]
  have hbs := leVal_lt bs hb
  rw [hl] at hbs
  have e : (leVal bs + 2 ^ 64 - filetimeEpoch) % 2 ^ 64 = leVal bs - filetimeEpoch := by
    unfold filetimeEpoch at *
    omega
  rw [e]

/-- 2023-11-14 22:13:20 UTC, Unix time 1700000000, is FILETIME 133444736000000000. -/
example : [0, 0, 109, 198, 71, 23, 218, 1].length = 8 ∧ IsBytes [0, 0, 109, 198, 71, 23, 218, 1] ∧
    filetimeEpoch ≤ leVal [0, 0, 109, 198, 71, 23, 218, 1] ∧ (leVal [0, 0, 109, 198, 71, 23, 218, 1] - filetimeEpoch) / 10000000 = 1700000000 := by
  refine ⟨rfl, by unfold IsBytes; decide, by decide, by decide⟩

end Lha
