import Verif.Model.Huf
import Mathlib.Combinatorics.Pigeonhole
/-!
# The fuel of the tree descent is adequate: when it runs out, the Go loop runs for ever
-/

namespace Lha

/-- Position after `k` steps of the descent once `mask` is zero. -/
def walkAt (left : Arr) (j : Nat) : Nat → Nat
  | 0 => j
  | k + 1 => left.get (walkAt left j k)

/-- The descent at position `j` with `mask = 0` takes another step. -/
def walkOn (left : Arr) (nchar j : Nat) : Prop :=
  j < left.size ∧ left.get j ≥ nchar ∧ left.get j < left.size ∧ left.get j ≠ left.get (left.get j)

theorem walkAt_succ (left : Arr) (j k : Nat) : walkAt left j (k + 1) = walkAt left (left.get j) k := by
  induction k with
  | zero => rfl
  | succ k ih => rw [walkAt, ih]; rfl

theorem treeWalk_zero (left right : Arr) (nchar bitbuf f j : Nat) :
    treeWalk left right nchar bitbuf f 0 j = diverge ↔ ∀ k < f, walkOn left nchar (walkAt left j k) := by
  induction f generalizing j with
  | zero => simp [treeWalk]
  | succ f ih =>
    have hsplit : (∀ k < f + 1, walkOn left nchar (walkAt left j k)) ↔
        walkOn left nchar j ∧ ∀ k < f, walkOn left nchar (walkAt left (left.get j) k) := by
      constructor
      · intro h
        exact ⟨h 0 (by omega), fun k hk => by rw [← walkAt_succ]; exact h (k + 1) (by omega)⟩
      · rintro ⟨h1, h2⟩ k hk
        cases k with
        | zero => exact h1
        | succ k => rw [walkAt_succ]; exact h2 k (by omega)
    rw [hsplit, treeWalk]
    simp only [Nat.and_zero, ne_eq, not_true_eq_false, if_false]
    by_cases h1 : j < left.size
    · rw [rd_ok h1, ok_bind]
      by_cases h2 : left.get j ≥ nchar
      · rw [if_pos h2]
        by_cases h3 : left.get j < left.size
        · by_cases h4 : left.get j = left.get (left.get j)
          · rw [rd_ok h3, ok_bind]
            rw [if_neg (by simpa using h4)]
            simp only [diverge, reduceCtorEq, false_iff, walkOn]
            rintro ⟨⟨_, _, _, h5⟩, _⟩
            exact h5 h4
          · rw [rd_ok h3, ok_bind, if_pos h4, ih]
            simp [walkOn, h1, h2, h3, h4]
        · rw [rd_panic (by omega)]
          simp only [walkOn, h3]
          simp [panic, diverge, error_bind]
      · rw [if_neg h2]
        simp [walkOn, h2, diverge]
    · rw [rd_panic (by omega)]
      simp [walkOn, h1, panic, diverge, error_bind]

theorem walkAt_add (left : Arr) (j a k : Nat) : walkAt left j (a + k) = walkAt left (walkAt left j a) k := by
  induction k with
  | zero => rfl
  | succ k ih => rw [← Nat.add_assoc, walkAt, ih]; rfl

/-- More steps than there are nodes: the descent is in a cycle. -/
theorem treeWalk_zero_forever {left right : Arr} {nchar bitbuf F j : Nat} (hF : left.size < F)
    (h : treeWalk left right nchar bitbuf F 0 j = diverge) (f : Nat) :
    treeWalk left right nchar bitbuf f 0 j = diverge := by
  rw [treeWalk_zero] at h ⊢
  have hp : ∃ a ∈ Finset.range F, ∃ b ∈ Finset.range F, a ≠ b ∧ walkAt left j a = walkAt left j b := by
    refine Finset.exists_ne_map_eq_of_card_lt_of_maps_to (t := Finset.range left.size) (by simpa using hF) ?_
    intro k hk
    simp only [Finset.coe_range, Set.mem_Iio] at hk ⊢
    exact (h k hk).1
  have hlt : ∃ a b, a < b ∧ b < F ∧ walkAt left j a = walkAt left j b := by
    obtain ⟨a, ha, b, hb, hne, he⟩ := hp
    simp only [Finset.mem_range] at ha hb
    rcases Nat.lt_or_gt_of_ne hne with h1 | h1
    · exact ⟨a, b, h1, hb, he⟩
    · exact ⟨b, a, h1, ha, he.symm⟩
  obtain ⟨a, b, hab, hb, he⟩ := hlt
  intro k _
  induction k using Nat.strongRecOn with
  | ind k ih =>
    by_cases hk : k < F
    · exact h k hk
    · have e : walkAt left j k = walkAt left j (k - (b - a)) := by
        have h1 : k = b + (k - b) := by omega
        have h2 : k - (b - a) = a + (k - b) := by omega
        rw [h2, walkAt_add, he, ← walkAt_add, ← h1]
      rw [e]
      exact ih _ (by omega) (by omega)

/-- With `mask < 2 ^ m` a descent that exhausts more than `left.size + m` steps never ends. -/
theorem treeWalk_forever {left right : Arr} {nchar bitbuf : Nat} (m : Nat) : ∀ {F mask j : Nat}, mask < 2 ^ m → left.size + m < F →
    treeWalk left right nchar bitbuf F mask j = diverge → ∀ f, treeWalk left right nchar bitbuf f mask j = diverge := by
  induction m with
  | zero =>
    intro F mask j hm hF h f
    have : mask = 0 := by simpa using hm
    subst this
    exact treeWalk_zero_forever (by omega) h f
  | succ m ih =>
    intro F mask j hm hF h f
    cases F with
    | zero => omega
    | succ F =>
      cases f with
      | zero => rfl
      | succ f =>
        rw [treeWalk] at h ⊢
        have hm2 : mask / 2 < 2 ^ m := by rw [Nat.pow_succ] at hm; omega
        have key : ∀ (x : G Nat), (x >>= fun j' => if j' ≥ nchar then
              if mask / 2 ≠ 0 then treeWalk left right nchar bitbuf F (mask / 2) j'
              else do
                let lj ← rd left j'
                if j' ≠ lj then treeWalk left right nchar bitbuf F (mask / 2) j' else .ok j'
            else .ok j') = diverge → (x >>= fun j' => if j' ≥ nchar then
              if mask / 2 ≠ 0 then treeWalk left right nchar bitbuf f (mask / 2) j'
              else do
                let lj ← rd left j'
                if j' ≠ lj then treeWalk left right nchar bitbuf f (mask / 2) j' else .ok j'
            else .ok j') = diverge := by
          intro x hx
          cases x with
          | error e => exact hx
          | ok j' =>
            rw [ok_bind] at hx ⊢
            split at hx
            · rename_i h1
              rw [if_pos h1]
              split at hx
              · rename_i h2
                rw [if_pos h2]
                exact ih hm2 (by omega) hx f
              · rename_i h2
                rw [if_neg h2]
                cases hr : rd left j' with
                | error e => rw [hr] at hx; exact hx
                | ok lj =>
                  rw [hr, ok_bind] at hx
                  rw [ok_bind]
                  split at hx
                  · rename_i h3
                    rw [if_pos h3]
                    exact ih hm2 (by omega) hx f
                  · cases hx
            · cases hx
        split at h
        · rename_i hb
          rw [if_pos hb]
          exact key _ h
        · rename_i hb
          rw [if_neg hb]
          exact key _ h

/-- The fuel 1100 used for the 1019 node arrays of the program is adequate: if it is exhausted, no
amount of fuel is enough. -/
theorem treeWalk_adequate {left right : Arr} (hl : left.size ≤ 1019) {nchar bitbuf mask j : Nat} (hm : mask ≤ 32768)
    (h : treeWalk left right nchar bitbuf 1100 mask j = diverge) (f : Nat) :
    treeWalk left right nchar bitbuf f mask j = diverge :=
  treeWalk_forever 16 (by omega) (by omega) h f

end Lha
