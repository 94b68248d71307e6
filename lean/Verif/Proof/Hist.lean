import Verif.Model.Pm
import Verif.Spec.Mtf
import Verif.Proof.Bound
/-!
# The history ring is the move-to-front list
-/

namespace Lha

open Spec

/-- The ring `h` holds the bytes of `L` (a permutation of the 256 byte values as a function of the position) in this order. -/
structure HistF (L : Nat → Nat) (h : Hist) : Prop where
  psize : h.prev.size = 256
  nsize : h.next.size = 256
  last : h.last = L 0
  lt : ∀ i, i < 256 → L i < 256
  inj : ∀ i j, i < 256 → j < 256 → L i = L j → i = j
  surj : ∀ b, b < 256 → ∃ i, i < 256 ∧ L i = b
  prev : ∀ i, i < 256 → h.prev.get (L i) = L ((i + 1) % 256)
  next : ∀ i, i < 256 → h.next.get (L ((i + 1) % 256)) = L i

theorem HistF.next' {L : Nat → Nat} {h : Hist} (H : HistF L h) (i : Nat) (hi : i < 256) :
    h.next.get (L i) = L ((i + 255) % 256) := by
  have := H.next ((i + 255) % 256) (Nat.mod_lt _ (by omega))
  rwa [show ((i + 255) % 256 + 1) % 256 = i by omega] at this

theorem histWalk_prev {L : Nat → Nat} {h : Hist} (H : HistF L h) (n : Nat) :
    ∀ i, i < 256 → histWalk h.prev n (L i) = .ok (L ((i + n) % 256)) := by
  induction n with
  | zero => intro i hi; rw [histWalk, Nat.add_zero, Nat.mod_eq_of_lt hi]
  | succ n ih =>
    intro i hi
    rw [histWalk, rd_ok (by rw [H.psize]; exact H.lt i hi), ok_bind, H.prev i hi, ih _ (Nat.mod_lt _ (by omega))]
    rw [show ((i + 1) % 256 + n) % 256 = (i + (n + 1)) % 256 by omega]

theorem histWalk_next {L : Nat → Nat} {h : Hist} (H : HistF L h) (n : Nat) :
    ∀ i, i < 256 → histWalk h.next n (L i) = .ok (L ((i + 255 * n) % 256)) := by
  induction n with
  | zero => intro i hi; rw [histWalk, Nat.mul_zero, Nat.add_zero, Nat.mod_eq_of_lt hi]
  | succ n ih =>
    intro i hi
    rw [histWalk, rd_ok (by rw [H.nsize]; exact H.lt i hi), ok_bind, H.next' i hi, ih _ (Nat.mod_lt _ (by omega))]
    rw [show ((i + 255) % 256 + 255 * n) % 256 = (i + 255 * (n + 1)) % 256 by omega]

theorem histLookup_ok {L : Nat → Nat} {h : Hist} (H : HistF L h) (n : Nat) (hn : n < 256) :
    histLookup h n = .ok (L n) := by
  unfold histLookup
  rw [H.last]
  split
  · rw [if_neg (by omega), histWalk_next H _ 0 (by omega), show (0 + 255 * (256 - n)) % 256 = n by omega]
  · rw [histWalk_prev H _ 0 (by omega), show (0 + n) % 256 = n by omega]

/-- The order after using the byte at position `k`. -/
def frontF (L : Nat → Nat) (k i : Nat) : Nat := if i = 0 then L k else if i ≤ k then L (i - 1) else L i

theorem histUpdate_ok {L : Nat → Nat} {h : Hist} (H : HistF L h) (k : Nat) (hk : k < 256) :
    ∃ h', histUpdate (L k) h = .ok h' ∧ HistF (frontF L k) h' := by
  unfold histUpdate
  by_cases h0 : k = 0
  · subst h0
    rw [if_pos H.last.symm]
    refine ⟨h, rfl, ?_⟩
    have : frontF L 0 = L := by
      funext i; unfold frontF
      split
      · simp_all
      · rw [if_neg (by omega)]
    rw [this]; exact H
  · rw [if_neg (by rw [H.last]; intro he; exact h0 (H.inj _ _ hk (by omega) he))]
    rw [rd_ok (by rw [H.nsize]; exact H.lt k hk), ok_bind, rd_ok (by rw [H.psize]; exact H.lt k hk), ok_bind, H.next' k hk,
      H.prev k hk, show (k + 255) % 256 = k - 1 by omega]
    have l1 : L (k - 1) < 256 := H.lt _ (by omega)
    have l2 : L ((k + 1) % 256) < 256 := H.lt _ (Nat.mod_lt _ (by omega))
    have l3 : L 0 < 256 := H.lt _ (by omega)
    have l4 : L k < 256 := H.lt _ hk
    rw [wr_ok (by rw [H.psize]; exact l1), ok_bind, wr_ok (by rw [H.nsize]; exact l2), ok_bind]
    have hnew : ∃ m, m < 256 ∧ (k = 255 ∧ m = 254 ∨ k < 255 ∧ m = 255) ∧
        (h.next.upd (L ((k + 1) % 256)) (L (k - 1))).get h.last = L m := by
      refine ⟨if k = 255 then 254 else 255, by split <;> omega, by split <;> omega, ?_⟩
      rw [H.last, Arr.get_upd]
      by_cases hc : k = 255
      · subst hc; rw [if_pos (by rfl)]; simp
      · rw [if_neg (fun he => by have := H.inj _ _ (by omega) (by omega) he; omega), H.next' 0 (by omega), if_neg hc]
    obtain ⟨m, hm, hmk, hnew⟩ := hnew
    have l5 : L m < 256 := H.lt _ hm
    rw [rd_ok (by rw [Arr.size_upd, H.nsize, H.last]; exact l3), ok_bind, hnew]
    rw [wr_ok (by simp only [Arr.size_upd]; rw [H.psize]; exact l5), ok_bind,
      wr_ok (by simp only [Arr.size_upd]; rw [H.nsize]; exact l4), ok_bind,
      wr_ok (by simp only [Arr.size_upd]; rw [H.psize]; exact l4), ok_bind,
      wr_ok (by simp only [Arr.size_upd]; rw [H.nsize, H.last]; exact l3), ok_bind]
    refine ⟨_, rfl, ?_⟩
    have e : ∀ a b, a < 256 → b < 256 → (L a = L b ↔ a = b) := fun a b ha hb => ⟨H.inj a b ha hb, fun h => by rw [h]⟩
    have hfr : ∀ i, i < 256 → ∃ j, j < 256 ∧ frontF L k i = L j ∧ j = if i = 0 then k else if i ≤ k then i - 1 else i := by
      intro i hi
      refine ⟨if i = 0 then k else if i ≤ k then i - 1 else i, ?_, ?_, rfl⟩
      · split
        · exact hk
        · split <;> omega
      · unfold frontF
        split
        · rfl
        · split <;> rfl
    constructor
    · simp only [Arr.size_upd]; exact H.psize
    · simp only [Arr.size_upd]; exact H.nsize
    · rfl
    · intro i hi
      obtain ⟨j, j1, j2, j3⟩ := hfr i hi
      rw [j2]; exact H.lt j j1
    · intro i i' hi hi'
      obtain ⟨j, j1, j2, j3⟩ := hfr i hi
      obtain ⟨j', j1', j2', j3'⟩ := hfr i' hi'
      rw [j2, j2', e j j' j1 j1']
      split at j3 <;> split at j3' <;> (try split at j3) <;> (try split at j3') <;> omega
    · intro b hb
      obtain ⟨j, j1, j2⟩ := H.surj b hb
      by_cases c1 : j = k
      · exact ⟨0, by omega, by rw [← j2, c1]; rfl⟩
      · by_cases c2 : j < k
        · refine ⟨j + 1, by omega, ?_⟩
          unfold frontF
          rw [if_neg (by omega), if_pos (by omega), Nat.add_sub_cancel, j2]
        · refine ⟨j, j1, ?_⟩
          unfold frontF
          rw [if_neg (by omega), if_neg (by omega), j2]
    · intro i hi
      obtain ⟨j, j1, j2, j3⟩ := hfr i hi
      obtain ⟨j', j1', j2', j3'⟩ := hfr ((i + 1) % 256) (Nat.mod_lt _ (by omega))
      rw [j2, j2']
      simp only [Arr.get_upd]
      rw [H.last, H.prev j j1]
      simp only [e j _ j1 hk, e j _ j1 hm, e j (k - 1) j1 (by omega)]
      have c1 : ((i + 1) % 256 = 0 ∧ i = 255) ∨ ((i + 1) % 256 = i + 1 ∧ i < 255) := by omega
      have c2 : ((k + 1) % 256 = 0 ∧ k = 255) ∨ ((k + 1) % 256 = k + 1 ∧ k < 255) := by omega
      have c3 : ((j + 1) % 256 = 0 ∧ j = 255) ∨ ((j + 1) % 256 = j + 1 ∧ j < 255) := by omega
      split
      · rw [e 0 j' (by omega) j1']
        split at j3 <;> split at j3' <;> (try split at j3) <;> (try split at j3') <;> omega
      · split
        · rw [e k j' hk j1']
          split at j3 <;> split at j3' <;> (try split at j3) <;> (try split at j3') <;> omega
        · split
          · rw [e _ j' (Nat.mod_lt _ (by omega)) j1']
            split at j3 <;> split at j3' <;> (try split at j3) <;> (try split at j3') <;> omega
          · rw [e _ j' (Nat.mod_lt _ (by omega)) j1']
            split at j3 <;> split at j3' <;> (try split at j3) <;> (try split at j3') <;> omega
    · intro i hi
      obtain ⟨j', j1', j2', j3'⟩ := hfr i hi
      obtain ⟨j, j1, j2, j3⟩ := hfr ((i + 1) % 256) (Nat.mod_lt _ (by omega))
      rw [j2, j2']
      simp only [Arr.get_upd]
      rw [H.last, H.next' j j1]
      simp only [e j _ j1 hk, e j 0 j1 (by omega), e j ((k + 1) % 256) j1 (Nat.mod_lt _ (by omega))]
      have c1 : ((i + 1) % 256 = 0 ∧ i = 255) ∨ ((i + 1) % 256 = i + 1 ∧ i < 255) := by omega
      have c2 : ((k + 1) % 256 = 0 ∧ k = 255) ∨ ((k + 1) % 256 = k + 1 ∧ k < 255) := by omega
      have c3 : ((j + 255) % 256 = 255 ∧ j = 0) ∨ ((j + 255) % 256 = j - 1 ∧ 0 < j) := by omega
      split
      · rw [e k j' hk j1']
        split at j3 <;> split at j3' <;> (try split at j3) <;> (try split at j3') <;> omega
      · split
        · rw [e _ j' hm j1']
          split at j3 <;> split at j3' <;> (try split at j3) <;> (try split at j3') <;> omega
        · split
          · rw [e _ j' (by omega) j1']
            split at j3 <;> split at j3' <;> (try split at j3) <;> (try split at j3') <;> omega
          · rw [e _ j' (Nat.mod_lt _ (by omega)) j1']
            split at j3 <;> split at j3' <;> (try split at j3) <;> (try split at j3') <;> omega

/-- The ring holds the list `l`. -/
def HistL (l : List Nat) (h : Hist) : Prop := l.length = 256 ∧ HistF (fun i => l.getD i 0) h

theorem filter_ne_split (l : List Nat) (k : Nat) (hk : k < l.length)
    (hinj : ∀ i j, i < l.length → j < l.length → l.getD i 0 = l.getD j 0 → i = j) :
    l.filter (fun x => x ≠ l.getD k 0) = l.take k ++ l.drop (k + 1) := by
  have hs : l = l.take k ++ (l.getD k 0 :: l.drop (k + 1)) := by
    have : l.drop k = l.getD k 0 :: l.drop (k + 1) := by
      rw [List.drop_eq_getElem_cons hk, List.getD_eq_getElem _ _ hk]
    rw [← this, List.take_append_drop]
  have hget : ∀ i (hi : i < l.length), l[i] = l.getD i 0 := fun i hi => (List.getD_eq_getElem _ _ hi).symm
  conv_lhs => arg 2; rw [hs]
  rw [List.filter_append, List.filter_cons, if_neg (by simp)]
  congr 1
  · rw [List.filter_eq_self]
    intro x hx
    obtain ⟨i, hi, rfl⟩ := List.getElem_of_mem hx
    rw [List.length_take] at hi
    simp only [List.getElem_take, decide_eq_true_eq]
    rw [hget i (by omega)]
    intro he
    have := hinj i k (by omega) hk he
    omega
  · rw [List.filter_eq_self]
    intro x hx
    obtain ⟨i, hi, rfl⟩ := List.getElem_of_mem hx
    rw [List.length_drop] at hi
    simp only [List.getElem_drop, decide_eq_true_eq]
    rw [hget _ (by omega)]
    intro he
    have := hinj _ k (by omega) hk he
    omega

theorem mtfUse_front (l : List Nat) (k : Nat) (hk : k < l.length)
    (hinj : ∀ i j, i < l.length → j < l.length → l.getD i 0 = l.getD j 0 → i = j) :
    (mtfUse l (l.getD k 0)).length = l.length ∧
      ∀ i, (mtfUse l (l.getD k 0)).getD i 0 = frontF (fun i => l.getD i 0) k i := by
  unfold mtfUse
  rw [filter_ne_split l k hk hinj]
  refine ⟨by simp; omega, ?_⟩
  intro i
  unfold frontF
  cases i with
  | zero => simp
  | succ i =>
    rw [if_neg (by omega), List.getD_cons_succ]
    by_cases h1 : i + 1 ≤ k
    · rw [if_pos h1, Nat.add_sub_cancel, List.getD_append _ _ _ _ (by rw [List.length_take]; omega)]
      simp only [List.getD_eq_getElem?_getD]
      rw [List.getElem?_take_of_lt (by omega)]
    · rw [if_neg h1, List.getD_append_right _ _ _ _ (by rw [List.length_take]; omega)]
      simp only [List.getD_eq_getElem?_getD]
      rw [List.getElem?_drop, List.length_take]
      congr 2; omega

theorem HistF.congr {L L' : Nat → Nat} {h : Hist} (H : HistF L h) (he : ∀ i, L i = L' i) : HistF L' h := by
  have : L = L' := funext he
  rwa [← this]

theorem histUpdate_list {l : List Nat} {h : Hist} (H : HistL l h) (b : Nat) (hb : b < 256) :
    ∃ h', histUpdate b h = .ok h' ∧ HistL (mtfUse l b) h' := by
  obtain ⟨hl, H⟩ := H
  obtain ⟨k, hk, rfl⟩ := H.surj b hb
  obtain ⟨h', h1, h2⟩ := histUpdate_ok H k hk
  obtain ⟨m1, m2⟩ := mtfUse_front l k (by omega) (fun i j hi hj => H.inj i j (by omega) (by omega))
  exact ⟨h', h1, by rw [m1, hl], h2.congr (fun i => (m2 i).symm)⟩

theorem histLookup_list {l : List Nat} {h : Hist} (H : HistL l h) (n : Nat) (hn : n < 256) :
    histLookup h n = .ok (l.getD n 0) := histLookup_ok H.2 n hn

/-- All of `HistL` for the start, in a form that can be evaluated. -/
def startCheck (h : Hist) : Bool :=
  h.prev.size = 256 && h.next.size = 256 && h.last = mtfStart.getD 0 0 && (List.range 256).all (fun i =>
    mtfStart.getD i 0 < 256 && mtfStart.findIdx (fun x => x = mtfStart.getD i 0) = i &&
    mtfStart.findIdx (fun x => x = i) < 256 && mtfStart.getD (mtfStart.findIdx (fun x => x = i)) 0 = i &&
    h.prev.get (mtfStart.getD i 0) = mtfStart.getD ((i + 1) % 256) 0 &&
    h.next.get (mtfStart.getD ((i + 1) % 256) 0) = mtfStart.getD i 0)

theorem histInit_check : (histInit >>= fun h => .ok (startCheck h)) = .ok true := by decide +kernel

theorem histInit_ok : ∃ h, histInit = .ok h ∧ HistL mtfStart h := by
  obtain ⟨h, h1, h2⟩ := bind_ok histInit_check
  have h3 := Except.ok.inj h2
  unfold startCheck at h3
  simp only [Bool.and_eq_true, decide_eq_true_eq, List.all_eq_true, List.mem_range] at h3
  obtain ⟨⟨⟨a1, a2⟩, a3⟩, a4⟩ := h3
  refine ⟨h, h1, by simp [mtfStart], a1, a2, a3, fun i hi => ?_, fun i j hi hj he => ?_, fun b hb => ?_, fun i hi => ?_, fun i hi => ?_⟩
  · exact (a4 i hi).1.1.1.1.1
  · have e1 := (a4 i hi).1.1.1.1.2
    have e2 := (a4 j hj).1.1.1.1.2
    rw [he] at e1
    omega
  · exact ⟨_, (a4 b hb).1.1.1.2, (a4 b hb).1.1.2⟩
  · exact (a4 i hi).1.2
  · exact (a4 i hi).2

/-- Using several bytes in turn. -/
def histUpdates : List Nat → Hist → G Hist
  | [], h => .ok h
  | b :: bs, h => do
    let h ← histUpdate b h
    histUpdates bs h

theorem histUpdates_list (bs : List Nat) : ∀ {l : List Nat} {h : Hist}, HistL l h → IsBytes bs →
    ∃ h', histUpdates bs h = .ok h' ∧ HistL (mtfUses l bs) h' := by
  induction bs with
  | nil => intro l h H _; exact ⟨h, rfl, H⟩
  | cons b bs ih =>
    intro l h H hb
    obtain ⟨h1, e1, e2⟩ := histUpdate_list H b (hb b (by simp))
    obtain ⟨h2, e3, e4⟩ := ih e2 (fun x hx => hb x (by simp [hx]))
    exact ⟨h2, by rw [histUpdates, e1, ok_bind, e3], e4⟩

end Lha
