import Mathlib.InformationTheory.Coding.KraftMcMillan
import Verif.Spec.Optimal
import Verif.Proof.Optimal
/-!
# C65: the codes are the best possible

Full statement: whatever the counts, no decodable code (with words of at most 16 bits) encodes the symbols of a block in fewer bits than the one
`makeTree` builds.
-/

namespace Lha

open Spec Finset

/-- Words none of which begins with another can be decoded. -/
theorem decodable_of_prefixFree {U : Nat → Prop} {w : Nat → List Bool} (hne : ∀ c, U c → w c ≠ [])
    (h : ∀ a b, U a → U b → w a <+: w b → a = b) : Decodable U w := by
  intro m₁
  induction m₁ with
  | nil =>
    intro m₂ _ h2 he
    cases m₂ with
    | nil => rfl
    | cons b m₂ =>
      simp only [List.flatMap_nil, List.flatMap_cons] at he
      exact absurd (List.append_eq_nil_iff.mp he.symm).1 (hne b (h2 b (by simp)))
  | cons a m₁ ih =>
    intro m₂ h1 h2 he
    cases m₂ with
    | nil =>
      simp only [List.flatMap_nil, List.flatMap_cons] at he
      exact absurd (List.append_eq_nil_iff.mp he).1 (hne a (h1 a (by simp)))
    | cons b m₂ =>
      simp only [List.flatMap_cons] at he
      have ua := h1 a (by simp)
      have ub := h2 b (by simp)
      have hab : a = b := by
        rcases Nat.le_total (w a).length (w b).length with hl | hl
        · exact h a b ua ub (List.prefix_of_prefix_length_le ⟨_, rfl⟩ ⟨_, he.symm⟩ hl)
        · exact (h b a ub ua (List.prefix_of_prefix_length_le ⟨_, rfl⟩ ⟨_, he⟩ hl)).symm
      subst hab
      rw [ih m₂ (fun c hc => h1 c (by simp [hc])) (fun c hc => h2 c (by simp [hc])) (List.append_cancel_left he)]

/-- Kraft's inequality for a decodable code. -/
theorem Spec.Decodable.kraft {s : Finset Nat} {w : Nat → List Bool} (h : Decodable (· ∈ s) w) (M : Nat)
    (hM : ∀ c ∈ s, (w c).length ≤ M) : ∑ c ∈ s, 2 ^ (M - (w c).length) ≤ 2 ^ M := by
  have hinj : ∀ a ∈ s, ∀ b ∈ s, w a = w b → a = b := by
    intro a ha b hb e
    have := h [a] [b] (by simpa using ha) (by simpa using hb) (by simpa using e)
    simpa using this
  have hud : InformationTheory.UniquelyDecodable ((s.image w : Finset (List Bool)) : Set (List Bool)) := by
    have hpre : ∀ L : List (List Bool), (∀ x ∈ L, x ∈ ((s.image w : Finset (List Bool)) : Set (List Bool))) →
        ∃ m : List Nat, (∀ c ∈ m, c ∈ s) ∧ m.map w = L := by
      intro L
      induction L with
      | nil => intro _; exact ⟨[], by simp, rfl⟩
      | cons x L ih =>
        intro hL
        obtain ⟨m, hm1, hm2⟩ := ih (fun y hy => hL y (by simp [hy]))
        have := hL x (by simp)
        simp only [coe_image, Set.mem_image] at this
        obtain ⟨c, hc, e⟩ := this
        refine ⟨c :: m, ?_, by simp [e, hm2]⟩
        intro d hd
        rcases List.mem_cons.mp hd with e | e
        · subst e; exact hc
        · exact hm1 d e
    intro L₁ L₂ h1 h2 he
    obtain ⟨m₁, a1, rfl⟩ := hpre L₁ h1
    obtain ⟨m₂, a2, rfl⟩ := hpre L₂ h2
    rw [h m₁ m₂ a1 a2 (by rw [List.flatMap_def, List.flatMap_def, he])]
  have hk := InformationTheory.kraft_mcmillan_inequality hud
  rw [Finset.sum_image (fun a ha b hb e => hinj a ha b hb e)] at hk
  have hpos : (0 : ℝ) ≤ 2 ^ M := by positivity
  have hmul := mul_le_mul_of_nonneg_left hk hpos
  rw [Finset.mul_sum, mul_one] at hmul
  have hcast : ((∑ c ∈ s, 2 ^ (M - (w c).length) : ℕ) : ℝ) = ∑ c ∈ s, (2 : ℝ) ^ M * (1 / (Fintype.card Bool : ℝ)) ^ (w c).length := by
    push_cast
    apply Finset.sum_congr rfl
    intro c hc
    have hl := hM c hc
    rw [Fintype.card_bool, one_div, inv_pow, pow_sub₀ _ (by norm_num) hl]
    norm_num
  rw [← hcast] at hmul
  exact_mod_cast hmul

/-- The sum over the used symbols. -/
theorem usedM_encodedSize (freq : Arr) (len : Nat → Nat) (n : Nat) :
    encodedSize freq.get len n = ((usedM freq n).map (fun c => freq.get c * len c)).sum := by
  unfold encodedSize
  induction n with
  | zero => rfl
  | succ n ih =>
    rw [usedM_succ, sum_range_succ, ih]
    split
    · rw [Multiset.map_cons, Multiset.sum_cons, Nat.add_comm]
    · rename_i h
      have h0 : freq.get n = 0 := by omega
      rw [h0, Nat.zero_mul, Nat.add_zero]

/-- Huffman's bound for decodable codes. -/
theorem Huff.le_encodedSize {freq : Arr} {n C : Nat} (h : Huff ((usedM freq n).map freq.get) C) (w : Nat → List Bool)
    (hw : Decodable (fun c => c < n ∧ freq.get c ≠ 0) w) : C ≤ encodedSize freq.get (fun c => (w c).length) n := by
  let s : Finset Nat := (range n).filter (fun c => freq.get c ≠ 0)
  have hs : s.val = usedM freq n := rfl
  have hmem : ∀ c, c ∈ s ↔ c < n ∧ freq.get c ≠ 0 := by intro c; simp [s]
  have hk := Spec.Decodable.kraft (s := s) (w := w) (by
      intro m₁ m₂ h1 h2
      exact hw m₁ m₂ (fun c hc => (hmem c).mp (h1 c hc)) (fun c hc => (hmem c).mp (h2 c hc)))
    (s.sup fun c => (w c).length) (fun c hc => Finset.le_sup (f := fun c => (w c).length) hc)
  have := h.le (s.sup fun c => (w c).length) ((usedM freq n).map (fun c => (freq.get c, (w c).length))) (by
      rw [Multiset.map_map]; rfl) (by
      intro p hp
      obtain ⟨c, hc, rfl⟩ := Multiset.mem_map.mp hp
      rw [← hs] at hc
      exact Finset.le_sup (f := fun c => (w c).length) hc) (by
      refine Nat.le_trans (Nat.le_of_eq ?_) hk
      rw [kraftM, Multiset.map_map, ← hs]
      rfl)
  rw [usedM_encodedSize]
  refine Nat.le_trans this (Nat.le_of_eq ?_)
  rw [costM, Multiset.map_map]
  rfl

/-- Partial (the lengths must not have been cut, which shows in a length of 16; the full statement is at the top of this file): if no length
exceeds 15 then no decodable code whatsoever, however long its words, encodes symbols with these counts in fewer bits. -/
theorem C65_partial {nchar : Nat} {freq bitlen code left right : Arr} {r : TreeRes}
    (hz : TreeSizes nchar freq bitlen code left right) (hsum : ∑ c ∈ range nchar, freq.get c < 65536)
    (hr : makeTree nchar freq bitlen code left right = .ok r) (h15 : ∀ c, c < nchar → r.bitlen.get c ≤ 15)
    (w : Nat → List Bool) (hw : Decodable (fun c => c < nchar ∧ freq.get c ≠ 0) w) :
    encodedSize freq.get r.bitlen.get nchar ≤ encodedSize freq.get (fun c => (w c).length) nchar := by
  by_cases h2 : 2 ≤ (usedM freq nchar).card
  · obtain ⟨t, hb, hs, hh, hd, hc⟩ := makeTree_opt hz hsum h2 hr
    have ht : t.height ≤ 16 := by
      rcases hd with ⟨c, hc, h⟩ | h
      · have := h15 c hc; omega
      · exact h
    rw [usedM_encodedSize]
    exact Nat.le_trans (hc ht) (hh.le_encodedSize w hw)
  · obtain ⟨r', e, hok⟩ := makeTree_ok hz
    rw [hr] at e
    cases e
    have h0 := (hok.single (by omega)).1
    have : encodedSize freq.get r.bitlen.get nchar = 0 := by
      unfold encodedSize
      apply sum_eq_zero
      intro c hc
      rw [h0 c (mem_range.mp hc), Nat.mul_zero]
    omega

/-- Partial (few symbols): the same for fewer than 4181 symbols, whatever the lengths: a tree deeper than 16 needs at least 4181 (a Fibonacci
number) symbols. -/
theorem C65_few_partial {nchar : Nat} {freq bitlen code left right : Arr} {r : TreeRes}
    (hz : TreeSizes nchar freq bitlen code left right) (hsum : ∑ c ∈ range nchar, freq.get c < 4181)
    (hr : makeTree nchar freq bitlen code left right = .ok r)
    (w : Nat → List Bool) (hw : Decodable (fun c => c < nchar ∧ freq.get c ≠ 0) w) :
    encodedSize freq.get r.bitlen.get nchar ≤ encodedSize freq.get (fun c => (w c).length) nchar := by
  by_cases h2 : 2 ≤ (usedM freq nchar).card
  · obtain ⟨t, hb, hs, hh, hd, hc⟩ := makeTree_opt hz (by omega) h2 hr
    have ht : t.height ≤ 16 := by
      by_contra hcon
      have h1 := LT.fib_le t.height t hb rfl
      have h3 : Nat.fib 19 ≤ Nat.fib (t.height + 2) := Nat.fib_mono (by omega)
      have h4 : Nat.fib 19 = 4181 := by decide
      have hw : ∀ t : LT, (t.syms.map freq.get).sum = t.wt freq.get := by
        intro t
        induction t with
        | leaf c => simp [LT.syms, LT.wt]
        | node l r h1 h2 => simp [LT.syms, LT.wt, h1, h2]
      have h5 := hw t
      rw [hs, usedM_sum] at h5
      omega
    rw [usedM_encodedSize]
    exact Nat.le_trans (hc ht) (hh.le_encodedSize w hw)
  · obtain ⟨r', e, hok⟩ := makeTree_ok hz
    rw [hr] at e
    cases e
    have h0 := (hok.single (by omega)).1
    have : encodedSize freq.get r.bitlen.get nchar = 0 := by
      unfold encodedSize
      apply sum_eq_zero
      intro c hc
      rw [h0 c (mem_range.mp hc), Nat.mul_zero]
    omega

/-! ## The full statement is false -/

/-- Twenty symbols with Fibonacci numbers as counts. -/
def fibFreq : Arr :=
  ((List.range 20).foldl (fun (p : Arr × Nat × Nat) i => (p.1.upd i p.2.1, p.2.2, p.2.1 + p.2.2)) (Arr.mk' 39 0, 1, 1)).1

/-- Lengths better than those made by cutting. -/
def fibLens (c : Nat) : Nat := [16, 16, 16, 16, 15, 15, 14, 14, 12, 11, 10, 9, 8, 7, 6, 5, 4, 3, 2, 1].getD c 0

theorem fibLens_complete : Complete fibLens 20 := ⟨by decide, by decide +kernel⟩

/-- The code made for 20 symbols with these counts needs 46352 bits. -/
theorem fib_made : (makeTree 20 fibFreq (Arr.mk' 20 0) (Arr.mk' 20 0) (Arr.mk' 39 0) (Arr.mk' 39 0)).toOption.map
    (fun r => encodedSize fibFreq.get r.bitlen.get 20) = some 46352 := by decide +kernel

theorem fib_better : encodedSize fibFreq.get fibLens 20 = 46347 := by decide +kernel

theorem fib_words : ∀ c, c < 20 → (codeword fibLens 20 c).length = fibLens c := by decide +kernel

/-- The full statement is false: for some counts (of 17710 symbols in all, which fit in a block) there is a decodable code with words of at most
16 bits that needs fewer bits than the one made. -/
theorem C65_false : ∃ (freq : Arr) (r : TreeRes) (w : Nat → List Bool),
    TreeSizes 20 freq (Arr.mk' 20 0) (Arr.mk' 20 0) (Arr.mk' 39 0) (Arr.mk' 39 0) ∧
    ∑ c ∈ range 20, freq.get c = 17710 ∧
    makeTree 20 freq (Arr.mk' 20 0) (Arr.mk' 20 0) (Arr.mk' 39 0) (Arr.mk' 39 0) = .ok r ∧
    Decodable (fun c => c < 20 ∧ freq.get c ≠ 0) w ∧ (∀ c, c < 20 → (w c).length ≤ 16) ∧
    encodedSize freq.get (fun c => (w c).length) 20 < encodedSize freq.get r.bitlen.get 20 := by
  have hmade := fib_made
  cases hr : makeTree 20 fibFreq (Arr.mk' 20 0) (Arr.mk' 20 0) (Arr.mk' 39 0) (Arr.mk' 39 0) with
  | error e => rw [hr] at hmade; cases hmade
  | ok r =>
    rw [hr] at hmade
    simp only [Except.toOption, Option.map_some, Option.some.injEq] at hmade
    refine ⟨fibFreq, r, codeword fibLens 20, ⟨by decide, by decide, by decide +kernel, by decide +kernel, by decide +kernel,
      by decide +kernel, by decide +kernel⟩, by decide +kernel, hr, ?_, ?_, ?_⟩
    · have hpos : ∀ c, c < 20 → fibLens c ≠ 0 := by decide
      apply decodable_of_prefixFree
      · intro c hc e
        have := fib_words c hc.1
        rw [e] at this
        exact hpos c hc.1 this.symm
      · intro a b ha hb h
        exact codeword_prefix_free fibLens_complete ha.1 hb.1 (hpos a ha.1) (hpos b hb.1) h
    · intro c hc
      rw [fib_words c hc]
      exact fibLens_complete.le16 c hc
    · rw [hmade]
      have : encodedSize fibFreq.get (fun c => (codeword fibLens 20 c).length) 20 = 46347 := by
        rw [← fib_better]
        apply sum_congr rfl
        intro c hc
        simp only []
        rw [fib_words c (mem_range.mp hc)]
      rw [this]
      omega

/-- Non-vacuity: four symbols with counts 5, 0, 2, 1 and 1, and a decodable code for them. -/
example : ∃ (freq : Arr) (w : Nat → List Bool), TreeSizes 5 freq (Arr.mk' 5 0) (Arr.mk' 5 0) (Arr.mk' 9 0) (Arr.mk' 9 0) ∧
    ∑ c ∈ range 5, freq.get c < 4181 ∧ Decodable (fun c => c < 5 ∧ freq.get c ≠ 0) w ∧
    (makeTree 5 freq (Arr.mk' 5 0) (Arr.mk' 5 0) (Arr.mk' 9 0) (Arr.mk' 9 0)).toOption.map
      (fun r => (List.range 5).map r.bitlen.get) = some [1, 0, 2, 3, 3] := by
  refine ⟨((((Arr.mk' 9 0).upd 0 5).upd 2 2).upd 3 1).upd 4 1, fun c => bits 3 c,
    ⟨by decide, by decide, by decide, by decide, by decide, by decide, by decide⟩, by decide +kernel, ?_, by decide +kernel⟩
  have h5 : ∀ c : Fin 5, bits 3 c ≠ [] := by decide
  have hp : ∀ a b : Fin 5, (bits 3 a).isPrefixOf (bits 3 b) = true → a = b := by decide
  apply decodable_of_prefixFree
  · intro c hc; exact h5 ⟨c, hc.1⟩
  · intro a b ha hb h
    have := hp ⟨a, ha.1⟩ ⟨b, hb.1⟩ (List.isPrefixOf_iff_prefix.mpr h)
    exact congrArg Fin.val this

end Lha
