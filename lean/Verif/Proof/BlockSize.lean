import Verif.Proof.MakeTable
import Verif.Spec.Static
/-!
# How long a block can be
-/

namespace Lha

open Spec

theorem lenBits_le {k : Nat} (h : k ≤ 16) : (lenBits k).length ≤ 13 := by
  unfold lenBits
  split
  · rw [bits_length]; omega
  · rw [List.length_append, List.length_replicate, List.length_singleton]; omega

theorem flatMap_le {α : Type} {f : α → List Bool} {b : Nat} : ∀ {l : List α}, (∀ x ∈ l, (f x).length ≤ b) → (l.flatMap f).length ≤ b * l.length
  | [], _ => by simp
  | x :: l, h => by
    have h1 := h x (by simp)
    have h2 := flatMap_le (l := l) (fun y hy => h y (by simp [hy]))
    rw [List.flatMap_cons, List.length_append, List.length_cons, Nat.mul_succ]
    omega

theorem lensBits_le {len : Nat → Nat} {i k : Nat} (h : ∀ x, i ≤ x → x < i + k → len x ≤ 16) : (lensBits len i k).length ≤ 13 * k := by
  unfold lensBits
  have := flatMap_le (f := fun x => lenBits (len x)) (b := 13) (l := List.range' i k) (fun x hx => by
    rw [List.mem_range'_1] at hx
    exact lenBits_le (h x hx.1 hx.2))
  rwa [List.length_range'] at this

theorem smallCode_le {nn nbit : Nat} {gap : Bool} {c : BCode} {B : List Bool} (h : SmallCode nn nbit gap c B) :
    B.length ≤ 2 * nbit + 2 + 13 * nn := by
  cases h with
  | one _ => rw [List.length_append, bits_length, bits_length]; omega
  | @plain len n hc hn _ _ =>
    have := lensBits_le (len := len) (i := 0) (k := n) (fun x _ hx => hc.le16 x (by omega))
    rw [List.length_append, bits_length]
    omega
  | @skip len n z hc hn _ _ h3 hz _ =>
    have h1 := lensBits_le (len := len) (i := 0) (k := 3) (fun x _ hx => hc.le16 x (by omega))
    have h2 := lensBits_le (len := len) (i := 3 + z) (k := n - (3 + z)) (fun x _ hx => hc.le16 x (by omega))
    simp only [List.length_append, bits_length]
    omega

theorem word_le {n : Nat} {c : BCode} (hc : ∀ len, c = .lens len → ∀ x, x < n → len x ≤ 16) {x : Nat} (hx : x < n) : (c.word n x).length ≤ 16 := by
  cases c with
  | one _ => simp [BCode.word]
  | lens len =>
    rw [BCode.word, codeword_length]
    exact hc len rfl x hx

theorem smallCode_word {nn nbit : Nat} {gap : Bool} {c : BCode} {B : List Bool} (h : SmallCode nn nbit gap c B) {x : Nat} (hx : x < nn) :
    (c.word nn x).length ≤ 16 := by
  refine word_le ?_ hx
  intro len hl
  cases h with
  | one _ => cases hl
  | plain hc => cases hl; exact hc.le16
  | skip hc => cases hl; exact hc.le16

theorem items_le {t : BCode} (ht : ∀ x, x < 19 → (t.word 19 x).length ≤ 16) : ∀ (items : List LenItem), (∀ it ∈ items, it.Ok) →
    (items.flatMap (fun it => t.word 19 it.sym ++ it.extra)).length ≤ 16 * (items.flatMap LenItem.lens).length
  | [], _ => by simp
  | it :: items, h => by
    have h1 := items_le ht items (fun y hy => h y (by simp [hy]))
    have h2 := h it (by simp)
    rw [List.flatMap_cons, List.flatMap_cons, List.length_append, List.length_append, List.length_append, Nat.mul_add]
    have h3 : (t.word 19 it.sym).length + it.extra.length ≤ 16 * it.lens.length := by
      cases it with
      | len k =>
        have := ht (k + 2) (by have := h2.2; omega)
        simp only [LenItem.sym, LenItem.extra, LenItem.lens, List.length_nil, List.length_singleton]
        omega
      | zero =>
        have := ht 0 (by omega)
        simp only [LenItem.sym, LenItem.extra, LenItem.lens, List.length_nil, List.length_singleton]
        omega
      | short m =>
        have := ht 1 (by omega)
        simp only [LenItem.sym, LenItem.extra, LenItem.lens, bits_length, List.length_replicate]
        omega
      | long m =>
        have := ht 2 (by omega)
        simp only [LenItem.sym, LenItem.extra, LenItem.lens, bits_length, List.length_replicate]
        omega
    omega

theorem letterCode_le {t c : BCode} {B : List Bool} (ht : ∀ x, x < 19 → (t.word 19 x).length ≤ 16) (h : LetterCode t c B) : B.length ≤ 8169 := by
  cases h with
  | one _ => rw [List.length_append, bits_length, bits_length]; omega
  | @lens len n items _ hn _ hi hl =>
    have h1 := items_le ht items (fun it hit => (hi it hit).1)
    rw [hl, List.length_map, List.length_range] at h1
    rw [List.length_append, bits_length]
    omega

theorem letterCode_word {t c : BCode} {B : List Bool} (h : LetterCode t c B) {x : Nat} (hx : x < 510) : (c.word 510 x).length ≤ 16 := by
  refine word_le ?_ hx
  intro len hl
  cases h with
  | one _ => cases hl
  | lens hc => cases hl; exact hc.le16

/-- A block of `t` tokens takes at most `8700 + 47 t` bits. -/
theorem isBlock_le {np pbit : Nat} (hnp : np ≤ 17) (hpb : pbit ≤ 5) {ts : List (Nat × Nat)} {B : List Bool} (h : IsBlock np pbit ts B) :
    B.length ≤ 8700 + 47 * ts.length := by
  obtain ⟨t, bt, c, bc, p, bp, h1, h2, h3, _, _, h4, rfl⟩ := h
  have a1 := smallCode_le h1
  have a2 := letterCode_le (fun x hx => smallCode_word h1 hx) h2
  have a3 := smallCode_le h3
  have a4 := flatMap_le (f := tokenBits np c p) (b := 47) (l := ts) (fun u hu => by
    obtain ⟨b1, b2⟩ := h4 u hu
    have hlt : ∀ {n : Nat} {c : BCode} {x : Nat}, c.Has n x → x < n := by
      intro n c x h
      cases c with
      | one _ => exact h.2
      | lens _ => exact h.1
    have c1 := letterCode_word h2 (hlt b1)
    unfold tokenBits
    rw [List.length_append]
    split
    · rw [List.length_nil]; omega
    · have hd := hlt (b2 (by omega))
      have c2 := smallCode_word h3 hd
      rw [List.length_append, bits_length]
      omega)
  simp only [List.length_append, bits_length]
  omega

end Lha
