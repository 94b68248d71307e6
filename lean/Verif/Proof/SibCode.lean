import Verif.Proof.Sibling
/-!
# Code words of the specification are the code words of the program
-/

namespace Lha

open Spec

variable {n : Nat} {child parent sNode : Nat → Nat}

theorem pathF_fuel (T : TreeF n child parent sNode) (hn : n ≤ 314) (f : Nat) : ∀ g p, p < 2 * n - 1 → p ≤ f → p ≤ g →
    pathF parent f p = pathF parent g p := by
  induction f with
  | zero =>
    intro g p _ h1 _
    have : p = 0 := by omega
    subst this
    cases g <;> simp [pathF]
  | succ f ih =>
    intro g p hp h1 h2
    by_cases h0 : p = 0
    · subst h0
      cases g <;> simp [pathF]
    · obtain ⟨g, rfl⟩ : ∃ g', g = g' + 1 := ⟨g - 1, by omega⟩
      have q := (T.parent_of hn (by omega) hp).1
      rw [pathF, pathF, if_neg h0, if_neg h0, ih g (parent p) (by omega) (by omega) (by omega)]

theorem path_down (T : TreeF n child parent sNode) (hn : n ≤ 314) {x y : Nat} {bs : List Bool} (h : Down child x bs y)
    (hx : x < 2 * n - 1) : y < 2 * n - 1 ∧ pathF parent 1000 y = pathF parent 1000 x ++ bs := by
  induction h with
  | nil x => exact ⟨hx, by simp⟩
  | cons x b bs y c1 c2 _ ih =>
    obtain ⟨v, ow⟩ := T.node x hx
    have v' := v.lt hn
    obtain ⟨k, k1, k2, k3⟩ : ∃ k, 1 ≤ k ∧ k < n ∧ child x = 2 * k := by
      rcases v with ⟨c, h1, h2⟩ | h
      · omega
      · exact h
    unfold ownF at ow
    rw [if_neg (by omega), k3] at ow
    have hu := T.up k k1 k2
    rw [k3] at ih
    have hb : b.toNat ≤ 1 := Bool.toNat_le b
    obtain ⟨hy, e⟩ := ih (by omega)
    refine ⟨hy, ?_⟩
    have hx' : 2 * k - b.toNat ≠ 0 := by omega
    have pe : parent (2 * k - b.toNat) = x := by
      cases b
      · simpa using ow
      · simp only [Bool.toNat_true]; rw [hu.2, ow]
    have be : ((2 * k - b.toNat) % 2 == 1) = b := by
      cases b
      · simp
      · have : (2 * k - 1) % 2 = 1 := by omega
        simp [this]
    rw [e]
    conv_lhs => rw [show (1000 : Nat) = 999 + 1 from rfl, pathF, if_neg hx', pe, be]
    rw [pathF_fuel T hn 999 1000 x hx (by omega) (by omega), List.append_assoc, List.singleton_append]

theorem down_of_code {t : Tree} {s : Dyn} {d : Nat} {w : Nat → Nat} (hn : n ≤ 314) (h : DynInv n d w s) (A : Agree n t s) {i c : Nat}
    {bs : List Bool} (C : Code t i bs c) (hi : i < 2 * n - 1) : ∃ y, y < 2 * n - 1 ∧ Down s.child.get i bs y ∧ c < n ∧ s.child.get y = 65535 - c := by
  have pr : ∀ i k, i < 2 * n - 1 → t.node i = .pair k → 1 ≤ k ∧ k < n ∧ s.child.get i = 2 * k := by
    intro i k hi e
    have v := (h.tree.node i hi).1
    have v' := v.lt hn
    rw [A.node i hi] at e
    unfold nodeOf at e
    split at e
    · cases e
    · cases e
      rcases v with ⟨c, _, _⟩ | ⟨k, h1, h2, h3⟩
      · omega
      · exact ⟨by omega, by omega, by omega⟩
  induction C with
  | @leaf i c e =>
    have v' := (h.tree.node i hi).1.lt hn
    rw [A.node i hi] at e
    unfold nodeOf at e
    split at e
    · cases e
      exact ⟨i, hi, .nil i, by omega, by omega⟩
    · cases e
  | @one i k c bs e _ ih =>
    obtain ⟨k1, k2, k3⟩ := pr i k hi e
    obtain ⟨y, y1, y2, y3⟩ := ih (by omega)
    exact ⟨y, y1, .cons i true bs y (by omega) (by omega) (by rw [k3]; exact y2), y3⟩
  | @zero i k c bs e _ ih =>
    obtain ⟨k1, k2, k3⟩ := pr i k hi e
    obtain ⟨y, y1, y2, y3⟩ := ih (by omega)
    exact ⟨y, y1, .cons i false bs y (by omega) (by omega) (by rw [k3]; exact y2), y3⟩

/-- The code word of the specification is that of the program. -/
theorem code_eq {t : Tree} {s : Dyn} {d : Nat} {w : Nat → Nat} (hn1 : 2 ≤ n) (hn : n ≤ 314) (h : DynInv n d w s) (A : Agree n t s) {c : Nat}
    {bs : List Bool} (C : Code t 0 bs c) : c < n ∧ bs = dynCode s c := by
  obtain ⟨y, y1, y2, y3, y4⟩ := down_of_code hn h A C (by omega)
  refine ⟨y3, ?_⟩
  have o := sNode_at h hn y3
  have : y = s.sNode.get c := h.tree.inj y1 o.1 (by rw [y4, o.2])
  have p := (path_down h.tree hn y2 (by omega)).2
  unfold dynCode
  rw [← this, p]
  simp [pathF]

theorem code_of_down {t : Tree} {s : Dyn} {d : Nat} {w : Nat → Nat} (hn : n ≤ 314) (h : DynInv n d w s) (A : Agree n t s) {x y c : Nat}
    {bs : List Bool} (D : Down s.child.get x bs y) (hx : x < 2 * n - 1) (hc : c < n) (hy : s.child.get y = 65535 - c) : Code t x bs c := by
  induction D with
  | nil x =>
    refine .leaf ?_
    rw [A.node x hx, nodeOf_leaf hc hn (h.tree.node x hx).1, hy]
  | cons x b bs y c1 c2 _ ih =>
    obtain ⟨k, k1, k2, k3⟩ : ∃ k, 1 ≤ k ∧ k < n ∧ s.child.get x = 2 * k := by
      rcases (h.tree.node x hx).1 with ⟨c, h1, h2⟩ | h
      · omega
      · exact h
    have e : t.node x = .pair k := by rw [A.node x hx, nodeOf_pair k2 hn (h.tree.node x hx).1, k3]
    rw [k3] at ih
    cases b
    · exact .zero e (ih (by simp only [Bool.toNat_false]; omega) hy)
    · exact .one e (ih (by simp only [Bool.toNat_true]; omega) hy)

theorem code_exists {t : Tree} {s : Dyn} {d : Nat} {w : Nat → Nat} (hn1 : 2 ≤ n) (hn : n ≤ 314) (h : DynInv n d w s) (A : Agree n t s) {c : Nat}
    (hc : c < n) : Code t 0 (dynCode s c) c := by
  have o := sNode_at h hn hc
  exact code_of_down hn h A (down_path h.tree hn 1000 _ o.1 (by omega)) (by omega) hc o.2

/-- Every sequence of symbols has its bits. -/
theorem coded_exists {esc : Nat} (hn1 : 2 ≤ n) (hn : n ≤ 314) (cs : List Nat) : ∀ (t : Tree) (s : Dyn) (w : Nat → Nat), DynOk n w s →
    Agree n t s → (∀ c ∈ cs, min c esc < n) → ∃ B t', Coded n esc t cs B t' := by
  induction cs with
  | nil => intro t s w _ _ _; exact ⟨[], t, .nil⟩
  | cons c cs ih =>
    intro t s w h A hc
    have hc1 := hc c List.mem_cons_self
    obtain ⟨t', S⟩ := step_exists hn1 hn h A (min c esc)
    obtain ⟨s', e, A', D', _⟩ := step_ok hn1 hn h hc1 A S
    obtain ⟨B, t'', CC⟩ := ih t' s' _ D' A' (fun c hc' => hc c (List.mem_cons_of_mem _ hc'))
    exact ⟨_, t'', .cons (code_exists hn1 hn h.inv A hc1) S CC⟩

end Lha
