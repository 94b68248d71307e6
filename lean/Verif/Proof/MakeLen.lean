import Verif.Proof.MakeTree
/-!
# `countLeaf`, `makeLen`, `makeCode` and the main theorem about `makeTree`
-/

namespace Lha

open Spec Finset

/-! ## Leaf counts by truncated depth -/

/-- Number of leaves of `t` (whose root is at depth `d`) with depth truncated at 16 equal to `k`. -/
def Sh.lc : Sh → Nat → Nat → Nat
  | leaf, d, k => if min d 16 = k then 1 else 0
  | node l r, d, k => l.lc (d + 1) k + r.lc (d + 1) k

theorem Sh.lc_le (t : Sh) (d k : Nat) : t.lc d k ≤ t.leaves := by
  induction t generalizing d with
  | leaf => simp only [lc, leaves]; split <;> omega
  | node l r h1 h2 => simp only [lc, leaves]; have := h1 (d + 1); have := h2 (d + 1); omega

theorem countLeaf_ok {left right : Arr} {nchar avail x : Nat} {t : Sh}
    (ht : IsT left right nchar avail x t) (hl : avail ≤ left.size) (hr : avail ≤ right.size)
    (f d : Nat) (ln : Arr) (hf : t.leaves ≤ f) (hs : ln.size = 17)
    (hb : ∀ k, ln.get k + t.leaves < 65536) :
    ∃ ln', countLeaf left right nchar f x d ln = .ok ln' ∧ ln'.size = 17 ∧
      ∀ k, ln'.get k = ln.get k + t.lc d k := by
  induction ht generalizing f d ln with
  | leaf x h =>
    cases f with
    | zero => simp [Sh.leaves] at hf
    | succ f =>
      unfold countLeaf
      rw [if_pos h]
      simp only []
      have hmin : (if d < 16 then d else 16) = min d 16 := by split <;> omega
      rw [hmin, rd_ok (by omega), ok_bind, wr_ok (by omega)]
      refine ⟨_, rfl, by simpa using hs, ?_⟩
      intro k
      rw [Arr.get_upd]
      have := hb (min d 16)
      simp only [Sh.leaves] at this
      simp only [Sh.lc]
      by_cases hk : k = min d 16
      · rw [if_pos hk, if_pos hk.symm, Nat.mod_eq_of_lt this, hk]
      · rw [if_neg hk, if_neg (fun e => hk e.symm)]; rfl
  | node x l r h1 h2 _ _ ihl ihr =>
    have pl := l.leaves_pos
    have pr := r.leaves_pos
    simp only [Sh.leaves] at hf hb
    cases f with
    | zero => omega
    | succ f =>
      unfold countLeaf
      rw [if_neg (by omega), rd_ok (by omega), ok_bind]
      obtain ⟨ln1, a1, a2, a3⟩ := ihl f (d + 1) ln (by omega) hs (fun k => by have := hb k; omega)
      rw [a1, ok_bind, rd_ok (by omega), ok_bind]
      obtain ⟨ln2, b1, b2, b3⟩ := ihr f (d + 1) ln1 (by omega) a2 (fun k => by
        have := hb k; rw [a3 k]; have := l.lc_le (d + 1) k; omega)
      refine ⟨ln2, b1, b2, ?_⟩
      intro k
      rw [b3 k, a3 k]
      simp only [Sh.lc]
      omega

/-- Number of codes in a length table. -/
def cN (f : Nat → Nat) (m : Nat) : Nat := ∑ k ∈ range m, f (k + 1)
/-- Kraft sum of a length table. -/
def kN (f : Nat → Nat) (m : Nat) : Nat := ∑ k ∈ range m, f (k + 1) * 2 ^ (16 - (k + 1))

theorem cN_succ (f : Nat → Nat) (m : Nat) : cN f (m + 1) = cN f m + f (m + 1) := by
  unfold cN; rw [sum_range_succ]
theorem kN_succ (f : Nat → Nat) (m : Nat) :
    kN f (m + 1) = kN f m + f (m + 1) * 2 ^ (16 - (m + 1)) := by
  unfold kN; rw [sum_range_succ]

theorem cN_congr {f g : Nat → Nat} (m : Nat) (h : ∀ k, 1 ≤ k → k ≤ m → f k = g k) : cN f m = cN g m := by
  unfold cN; apply sum_congr rfl; intro k hk
  exact h _ (by omega) (by have := mem_range.mp hk; omega)
theorem kN_congr {f g : Nat → Nat} (m : Nat) (h : ∀ k, 1 ≤ k → k ≤ m → f k = g k) : kN f m = kN g m := by
  unfold kN; apply sum_congr rfl; intro k hk
  rw [h _ (by omega) (by have := mem_range.mp hk; omega)]

theorem cN_upd (a : Arr) (i v m : Nat) (h1 : 1 ≤ i) (h2 : i ≤ m) :
    cN (a.upd i v).get m + a.get i = cN a.get m + v := by
  induction m with
  | zero => omega
  | succ m ih =>
    rw [cN_succ, cN_succ]
    by_cases hi : i = m + 1
    · subst hi
      rw [Arr.get_upd_same, cN_congr m (g := a.get) (fun k _ hk => Arr.get_upd_ne _ _ _ _ (by omega))]
      omega
    · rw [Arr.get_upd_ne _ _ _ _ (by omega)]
      have := ih (by omega)
      omega

theorem kN_upd (a : Arr) (i v m : Nat) (h1 : 1 ≤ i) (h2 : i ≤ m) :
    kN (a.upd i v).get m + a.get i * 2 ^ (16 - i) = kN a.get m + v * 2 ^ (16 - i) := by
  induction m with
  | zero => omega
  | succ m ih =>
    rw [kN_succ, kN_succ]
    by_cases hi : i = m + 1
    · subst hi
      rw [Arr.get_upd_same, kN_congr m (g := a.get) (fun k _ hk => Arr.get_upd_ne _ _ _ _ (by omega))]
      omega
    · rw [Arr.get_upd_ne _ _ _ _ (by omega)]
      have := ih (by omega)
      omega

theorem cN_add (f g : Nat → Nat) (m : Nat) : cN (fun k => f k + g k) m = cN f m + cN g m := by
  unfold cN; rw [sum_add_distrib]
theorem kN_add (f g : Nat → Nat) (m : Nat) : kN (fun k => f k + g k) m = kN f m + kN g m := by
  unfold kN; rw [← sum_add_distrib]; apply sum_congr rfl; intro k _; rw [Nat.add_mul]

theorem cN_single (m j : Nat) (h1 : 1 ≤ j) (h2 : j ≤ m) : cN (fun k => if j = k then 1 else 0) m = 1 := by
  unfold cN
  rw [sum_eq_single (j - 1)]
  · simp only []; rw [if_pos (by omega)]
  · intro b _ hb; simp only []; rw [if_neg (by omega)]
  · intro h; exact absurd (mem_range.mpr (by omega)) h

theorem kN_single (m j : Nat) (h1 : 1 ≤ j) (h2 : j ≤ m) :
    kN (fun k => if j = k then 1 else 0) m = 2 ^ (16 - j) := by
  unfold kN
  rw [sum_eq_single (j - 1)]
  · simp only []; rw [if_pos (by omega), Nat.one_mul, Nat.sub_add_cancel h1]
  · intro b _ hb; simp only []; rw [if_neg (by omega), Nat.zero_mul]
  · intro h; exact absurd (mem_range.mpr (by omega)) h

theorem Sh.lc_count (t : Sh) (d : Nat) (hd : 1 ≤ d) : cN (t.lc d) 16 = t.leaves := by
  induction t generalizing d with
  | leaf => simp only [leaves]; exact cN_single 16 (min d 16) (by omega) (by omega)
  | node l r h1 h2 =>
    simp only [leaves]
    rw [← h1 (d + 1) (by omega), ← h2 (d + 1) (by omega), ← cN_add]
    rfl

/-- Kraft sum with depths truncated at 16: it exceeds the exact value by less than the number of
codes of length 16. -/
theorem Sh.lc_kraft (t : Sh) (d : Nat) (hd : 1 ≤ d) (hd2 : d ≤ 16) :
    ∃ e, kN (t.lc d) 16 = 2 ^ (16 - d) + e ∧ e ≤ t.lc d 16 - 1 := by
  by_cases h16 : d = 16
  · -- all leaves below depth 16 count with weight 1
    have hall : ∀ (t : Sh) (d : Nat), 16 ≤ d → (∀ k, t.lc d k = if 16 = k then t.leaves else 0) := by
      intro t
      induction t with
      | leaf => intro d hd k; simp only [lc, leaves]; rw [Nat.min_eq_right hd]
      | node l r h1 h2 =>
        intro d hd k
        simp only [lc, leaves]
        rw [h1 (d + 1) (by omega) k, h2 (d + 1) (by omega) k]
        split <;> rfl
    refine ⟨t.leaves - 1, ?_, ?_⟩
    · have hk : kN (t.lc d) 16 = t.leaves := by
        unfold kN
        rw [sum_eq_single 15]
        · rw [hall t d (by omega)]; simp
        · intro b hb hb2
          have := mem_range.mp hb
          rw [hall t d (by omega), if_neg (by omega), Nat.zero_mul]
        · intro h; exact absurd (mem_range.mpr (by omega)) h
      have := t.leaves_pos
      rw [hk, h16]
      omega
    · rw [hall t d (by omega), if_pos rfl]
  · induction t generalizing d with
    | leaf =>
      refine ⟨0, ?_, by omega⟩
      have := kN_single 16 (min d 16) (by omega) (by omega)
      rw [Nat.min_eq_left hd2] at this
      rw [Nat.add_zero, ← this]
      apply kN_congr
      intro k _ _
      simp only [lc]
      rw [Nat.min_eq_left hd2]
    | node l r h1 h2 =>
      have hstep : ∀ (t : Sh), (∀ (d : Nat), 1 ≤ d → d ≤ 16 → ¬ d = 16 →
            ∃ e, kN (t.lc d) 16 = 2 ^ (16 - d) + e ∧ e ≤ t.lc d 16 - 1) →
          ∃ e, kN (t.lc (d + 1)) 16 = 2 ^ (16 - (d + 1)) + e ∧ e ≤ t.lc (d + 1) 16 - 1 := by
        intro t ht
        by_cases hd1 : d + 1 = 16
        · have hall : ∀ (t : Sh) (d : Nat), 16 ≤ d → (∀ k, t.lc d k = if 16 = k then t.leaves else 0) := by
            intro t
            induction t with
            | leaf => intro d hd k; simp only [lc, leaves]; rw [Nat.min_eq_right hd]
            | node l r h1 h2 =>
              intro d hd k
              simp only [lc, leaves]
              rw [h1 (d + 1) (by omega) k, h2 (d + 1) (by omega) k]
              split <;> rfl
          refine ⟨t.leaves - 1, ?_, ?_⟩
          · have hk : kN (t.lc (d + 1)) 16 = t.leaves := by
              unfold kN
              rw [sum_eq_single 15]
              · rw [hall t (d + 1) (by omega)]; simp
              · intro b hb hb2
                have := mem_range.mp hb
                rw [hall t (d + 1) (by omega), if_neg (by omega), Nat.zero_mul]
              · intro h; exact absurd (mem_range.mpr (by omega)) h
            have := t.leaves_pos
            rw [hk, hd1]
            omega
          · rw [hall t (d + 1) (by omega), if_pos rfl]
        · exact ht (d + 1) (by omega) (by omega) hd1
      obtain ⟨e1, a1, a2⟩ := hstep l h1
      obtain ⟨e2, b1, b2⟩ := hstep r h2
      refine ⟨e1 + e2, ?_, ?_⟩
      · have : kN ((node l r).lc d) 16 = kN (l.lc (d + 1)) 16 + kN (r.lc (d + 1)) 16 := by
          rw [← kN_add]; rfl
        rw [this, a1, b1]
        have hp : 2 ^ (16 - d) = 2 ^ (16 - (d + 1)) + 2 ^ (16 - (d + 1)) := by
          rw [show 16 - d = (16 - (d + 1)) + 1 by omega, Nat.pow_succ]; omega
        omega
      · simp only [lc]; omega

/-! ## `makeLen` -/

theorem mlCum_ok (i cum : Nat) (ln : Arr) (hs : i < ln.size) :
    mlCum i cum ln = .ok (cum + kN ln.get i) := by
  induction i generalizing cum with
  | zero => simp [mlCum, kN]
  | succ i ih =>
    unfold mlCum
    rw [rd_ok hs, ok_bind, ih _ (by omega), kN_succ]
    congr 1
    omega

theorem le_cN (f : Nat → Nat) (m k : Nat) (h1 : 1 ≤ k) (h2 : k ≤ m) : f k ≤ cN f m := by
  induction m with
  | zero => omega
  | succ m ih =>
    rw [cN_succ]
    by_cases h : k = m + 1
    · subst h; omega
    · have := ih (by omega); omega

theorem mlSplit_ok (i : Nat) (ln : Arr) (hi : i ≤ 15) (hs : ln.size = 17)
    (hne : ∃ k, 1 ≤ k ∧ k ≤ i ∧ ln.get k ≠ 0) (hb : cN ln.get 16 < 65000) :
    ∃ ln', mlSplit i ln = .ok ln' ∧ ln'.size = 17 ∧ cN ln'.get 16 = cN ln.get 16 + 1 ∧
      kN ln'.get 16 = kN ln.get 16 := by
  induction i with
  | zero => obtain ⟨k, h1, h2, _⟩ := hne; omega
  | succ i ih =>
    unfold mlSplit
    rw [rd_ok (by omega), ok_bind]
    by_cases hv : ln.get (i + 1) ≠ 0
    · rw [if_pos hv, wr_ok (by omega), ok_bind, rd_ok (by simp; omega), ok_bind, wr_ok (by simp; omega)]
      refine ⟨_, rfl, by simpa using hs, ?_, ?_⟩
      all_goals
        rw [Arr.get_upd_ne _ _ _ _ (by omega)]
        have hle := le_cN ln.get 16 (i + 2) (by omega) (by omega)
        rw [Nat.mod_eq_of_lt (by omega)]
      · have e1 := cN_upd ln (i + 1) (ln.get (i + 1) - 1) 16 (by omega) (by omega)
        have e2 := cN_upd (ln.upd (i + 1) (ln.get (i + 1) - 1)) (i + 2) (ln.get (i + 2) + 2) 16 (by omega) (by omega)
        rw [Arr.get_upd_ne _ _ _ (i + 2) (by omega)] at e2
        omega
      · have e1 := kN_upd ln (i + 1) (ln.get (i + 1) - 1) 16 (by omega) (by omega)
        have e2 := kN_upd (ln.upd (i + 1) (ln.get (i + 1) - 1)) (i + 2) (ln.get (i + 2) + 2) 16 (by omega) (by omega)
        rw [Arr.get_upd_ne _ _ _ (i + 2) (by omega)] at e2
        have hp : 2 ^ (16 - (i + 1)) = 2 * 2 ^ (16 - (i + 2)) := by
          rw [show 16 - (i + 1) = (16 - (i + 2)) + 1 by omega, Nat.pow_succ]; omega
        rw [Nat.sub_mul, Nat.one_mul] at e1
        rw [Nat.add_mul] at e2
        have hge : 2 ^ (16 - (i + 1)) ≤ ln.get (i + 1) * 2 ^ (16 - (i + 1)) :=
          Nat.le_mul_of_pos_left _ (by omega)
        omega
    · rw [if_neg hv]
      obtain ⟨k, h1, h2, h3⟩ := hne
      exact ih (by omega) ⟨k, h1, by
        by_cases hk : k = i + 1
        · subst hk; exact absurd h3 hv
        · omega, h3⟩

theorem mlAdjust_ok (c : Nat) (ln : Arr) (hs : ln.size = 17) (hb : cN ln.get 16 + c < 65000)
    (hk : kN ln.get 16 = 65536) :
    ∃ ln', mlAdjust c ln = .ok ln' ∧ ln'.size = 17 ∧ cN ln'.get 16 = cN ln.get 16 + c ∧
      kN ln'.get 16 = 65536 := by
  induction c generalizing ln with
  | zero => exact ⟨ln, rfl, hs, by rw [Nat.add_zero], hk⟩
  | succ c ih =>
    have hne : ∃ k, 1 ≤ k ∧ k ≤ 15 ∧ ln.get k ≠ 0 := by
      by_contra hcon
      have hz : ∀ k, 1 ≤ k → k ≤ 15 → ln.get k = 0 := by
        intro k h1 h2
        by_contra h3
        exact hcon ⟨k, h1, h2, h3⟩
      have hk2 : kN ln.get (15 + 1) = 65536 := hk
      have hb2 : cN ln.get (15 + 1) + (c + 1) < 65000 := hb
      rw [kN_succ, kN_congr 15 (g := fun _ => 0) hz] at hk2
      rw [cN_succ] at hb2
      have hz0 : kN (fun _ => 0) 15 = 0 := by simp [kN]
      rw [hz0, show 16 - (15 + 1) = 0 from rfl, Nat.pow_zero, Nat.mul_one, Nat.zero_add] at hk2
      rw [hk2] at hb2
      omega
    obtain ⟨ln1, a1, a2, a3, a4⟩ := mlSplit_ok 15 ln (by omega) hs hne (by omega)
    obtain ⟨ln2, b1, b2, b3, b4⟩ := ih ln1 a2 (by omega) (by omega)
    refine ⟨ln2, ?_, b2, by omega, b4⟩
    unfold mlAdjust
    rw [a1, ok_bind]
    exact b1

theorem cnt_upd (b : Arr) (c v n m : Nat) (hc : c < n) (hb : b.get c = 0) (hm : m ≠ 0) :
    cnt (b.upd c v).get m n = cnt b.get m n + if m = v then 1 else 0 := by
  induction n with
  | zero => omega
  | succ n ih =>
    rw [cnt_succ, cnt_succ]
    by_cases hn : c = n
    · subst hn
      rw [Arr.get_upd_same, cnt_congr (f := (b.upd c v).get) (g := b.get) m c
        (fun k hk => Arr.get_upd_ne _ _ _ _ (by omega)), hb]
      have : ¬ (0 = m) := fun e => hm e.symm
      rw [if_neg this]
      by_cases h : m = v
      · rw [if_pos h, if_pos h.symm]
      · rw [if_neg h, if_neg (fun e => h e.symm)]
    · rw [Arr.get_upd_ne _ _ _ n (by omega), ih (by omega)]
      omega

/-- What the length assignment needs to know about the sort area. -/
structure SortOk (sort : Arr) (N nchar : Nat) : Prop where
  size : N ≤ sort.size
  lt : ∀ p, p < N → sort.get p < nchar
  inj : ∀ p q, p < N → q < N → sort.get p = sort.get q → p = q

theorem mlFill_ok (len k si N nchar : Nat) (sort b : Arr) (hso : SortOk sort N nchar) (hb : nchar ≤ b.size)
    (hsi : si + k ≤ N) (hz : ∀ p, si ≤ p → p < N → b.get (sort.get p) = 0) :
    ∃ b', mlFill len k si sort b = .ok (si + k, b') ∧ b'.size = b.size ∧
      (∀ m, m ≠ 0 → cnt b'.get m nchar = cnt b.get m nchar + if m = len then k else 0) ∧
      (∀ p, p < N → b'.get (sort.get p) = if si ≤ p ∧ p < si + k then len else b.get (sort.get p)) ∧
      (∀ c, (∀ p, p < N → sort.get p ≠ c) → b'.get c = b.get c) := by
  induction k generalizing si b with
  | zero =>
    refine ⟨b, rfl, rfl, ?_, ?_, fun _ _ => rfl⟩
    · intro m _; split <;> rfl
    · intro p _; rw [if_neg (by omega)]
  | succ k ih =>
    unfold mlFill
    have hl := hso.lt si (by omega)
    rw [rd_ok (by have := hso.size; omega), ok_bind, wr_ok (by omega), ok_bind]
    have hnz : ∀ p, p < N → p ≠ si → sort.get p ≠ sort.get si := fun p hp hne e =>
      hne (hso.inj p si hp (by omega) e)
    obtain ⟨b', e1, e2, e3, e4, e5⟩ := ih (si + 1) (b.upd (sort.get si) len) (by simpa using hb) (by omega) (by
      intro p h1 h2
      rw [Arr.get_upd_ne _ _ _ _ (hnz p h2 (by omega))]
      exact hz p (by omega) h2)
    refine ⟨b', ?_, by simpa using e2, ?_, ?_, ?_⟩
    · rw [e1]; congr 2; omega
    · intro m hm
      rw [e3 m hm, cnt_upd b _ _ _ _ hl (hz si (by omega) (by omega)) hm]
      split <;> omega
    · intro p hp
      rw [e4 p hp]
      by_cases hps : p = si
      · subst hps
        rw [if_neg (by omega), Arr.get_upd_same, if_pos (by omega)]
      · rw [Arr.get_upd_ne _ _ _ _ (hnz p hp hps)]
        by_cases h : si + 1 ≤ p ∧ p < si + 1 + k
        · rw [if_pos h, if_pos (by omega)]
        · rw [if_neg h, if_neg (by omega)]
    · intro c hc
      rw [e5 c hc, Arr.get_upd_ne _ _ _ _ (fun e => hc si (by omega) e.symm)]

theorem mlAssign_ok (i si N nchar : Nat) (sort ln b : Arr) (hso : SortOk sort N nchar) (hb : nchar ≤ b.size)
    (hls : i < ln.size) (hi : i ≤ 16) (hsi : si + cN ln.get i = N)
    (hz : ∀ p, si ≤ p → p < N → b.get (sort.get p) = 0)
    (hnz : ∀ p, p < si → b.get (sort.get p) ≠ 0 ∧ b.get (sort.get p) ≤ 16) :
    ∃ b', mlAssign i si sort ln b = .ok b' ∧ b'.size = b.size ∧
      (∀ m, m ≠ 0 → cnt b'.get m nchar = cnt b.get m nchar + if m ≤ i then ln.get m else 0) ∧
      (∀ p, p < N → b'.get (sort.get p) ≠ 0 ∧ b'.get (sort.get p) ≤ 16) ∧
      (∀ c, (∀ p, p < N → sort.get p ≠ c) → b'.get c = b.get c) := by
  induction i generalizing si b with
  | zero =>
    simp [cN] at hsi
    refine ⟨b, rfl, rfl, ?_, fun p hp => hnz p (by omega), fun _ _ => rfl⟩
    intro m hm
    rw [if_neg (by omega)]
    rfl
  | succ i ih =>
    rw [cN_succ] at hsi
    unfold mlAssign
    rw [rd_ok hls, ok_bind]
    obtain ⟨b1, a1, a2, a3, a4, a5⟩ := mlFill_ok (i + 1) (ln.get (i + 1)) si N nchar sort b hso hb
      (by omega) hz
    rw [a1, ok_bind]
    simp only []
    obtain ⟨b2, c1, c2, c3, c4, c5⟩ := ih (si + ln.get (i + 1)) b1 (by omega) (by omega) (by omega) (by omega)
      (by
        intro p h1 h2
        rw [a4 p h2, if_neg (by omega)]
        exact hz p (by omega) h2)
      (by
        intro p h1
        rw [a4 p (by omega)]
        split
        · omega
        · exact hnz p (by omega))
    refine ⟨b2, c1, by omega, ?_, c4, fun c hc => by rw [c5 c hc, a5 c hc]⟩
    intro m hm
    rw [c3 m hm, a3 m hm]
    by_cases h1 : m = i + 1
    · subst h1; rw [if_pos rfl, if_neg (by omega), if_pos (by omega)]; omega
    · rw [if_neg h1]
      by_cases h2 : m ≤ i
      · rw [if_pos h2, if_pos (by omega)]; omega
      · rw [if_neg h2, if_neg (by omega)]

/-- `makeLen`: from leaf counts with Kraft sum `65536 + e` to a complete set of lengths. -/
theorem makeLen_ok (bitlen sort ln : Arr) (N nchar e : Nat) (hso : SortOk sort N nchar)
    (hb : nchar ≤ bitlen.size) (hz : ∀ c, c < nchar → bitlen.get c = 0) (hls : ln.size = 17)
    (hN : N ≤ 510) (hcn : cN ln.get 16 = N) (hkn : kN ln.get 16 = 65536 + e)
    (he : e ≤ ln.get 16 - 1) :
    ∃ bitlen' ln', makeLen bitlen sort ln = .ok (bitlen', ln') ∧ bitlen'.size = bitlen.size ∧
      ln'.size = 17 ∧ kN ln'.get 16 = 65536 ∧
      (∀ m, 1 ≤ m → m ≤ 16 → cnt bitlen'.get m nchar = ln'.get m) ∧
      (∀ p, p < N → bitlen'.get (sort.get p) ≠ 0 ∧ bitlen'.get (sort.get p) ≤ 16) ∧
      (∀ c, (∀ p, p < N → sort.get p ≠ c) → bitlen'.get c = bitlen.get c) := by
  have h16 := le_cN ln.get 16 16 (by omega) (by omega)
  have hcum : mlCum 16 0 ln = .ok (65536 + e) := by rw [mlCum_ok 16 0 ln (by omega), hkn]; simp
  have hadj : ∃ ln', (if (65536 + e) % 65536 ≠ 0 then do
        let v ← rd ln 16
        let leafNum ← wr ln 16 ((v + 65536 - (65536 + e) % 65536) % 65536)
        mlAdjust ((65536 + e) % 65536) leafNum
      else .ok ln : G Arr) = .ok ln' ∧ ln'.size = 17 ∧ cN ln'.get 16 = N ∧ kN ln'.get 16 = 65536 := by
    have hmod : (65536 + e) % 65536 = e := by omega
    rw [hmod]
    by_cases h0 : e ≠ 0
    · rw [if_pos h0, rd_ok (by omega), ok_bind, wr_ok (by omega), ok_bind]
      have hv : (ln.get 16 + 65536 - e) % 65536 = ln.get 16 - e := by omega
      rw [hv]
      have e1 := cN_upd ln 16 (ln.get 16 - e) 16 (by omega) (by omega)
      have e2 := kN_upd ln 16 (ln.get 16 - e) 16 (by omega) (by omega)
      simp only [Nat.sub_self, Nat.pow_zero, Nat.mul_one] at e2
      obtain ⟨ln', a1, a2, a3, a4⟩ := mlAdjust_ok e (ln.upd 16 (ln.get 16 - e)) (by simpa using hls)
        (by omega) (by omega)
      exact ⟨ln', a1, a2, by omega, a4⟩
    · rw [if_neg h0]
      exact ⟨ln, rfl, hls, hcn, by omega⟩
  obtain ⟨ln', a1, a2, a3, a4⟩ := hadj
  obtain ⟨b', c1, c2, c3, c4, c5⟩ := mlAssign_ok 16 0 N nchar sort ln' bitlen hso hb (by omega) (by omega) (by omega)
    (fun p _ h => hz _ (hso.lt p h)) (by omega)
  refine ⟨b', ln', ?_, c2, a2, a4, ?_, c4, c5⟩
  · unfold makeLen
    rw [hcum, ok_bind]
    simp only []
    split at a1
    · rename_i h0
      rw [if_pos h0]
      cases h1 : rd ln 16 with
      | error e => rw [h1] at a1; cases a1
      | ok v =>
        rw [h1, ok_bind] at a1
        rw [ok_bind]
        cases h2 : wr ln 16 ((v + 65536 - (65536 + e) % 65536) % 65536) with
        | error e => rw [h2] at a1; cases a1
        | ok l =>
          rw [h2, ok_bind] at a1
          rw [ok_bind, a1, ok_bind, c1, ok_bind]
    · rename_i h0
      rw [if_neg h0]
      cases a1
      rw [ok_bind, c1, ok_bind]
  · intro m h1 h2
    rw [c3 m (by omega), if_pos h2]
    have : cnt bitlen.get m nchar = 0 := by
      rw [cnt_congr (g := fun _ => 0) m nchar hz]
      unfold cnt
      apply sum_eq_zero
      intro c _
      exact if_neg (fun e : 0 = m => by omega)
    omega

/-! ## `makeCode` -/

theorem mcStart_ok (n i total : Nat) (start ln : Arr) (len : Nat → Nat) (nchar : Nat) (hi : 1 ≤ i)
    (hn : i + n = 17) (hs : start.size = 17) (hl : ln.size = 17)
    (hc : ∀ m, 1 ≤ m → m ≤ 16 → cnt len m nchar = ln.get m) (ht : total = cstart len nchar i % 65536) :
    ∃ start', mcStart n i total start ln = .ok start' ∧ start'.size = 17 ∧
      (∀ k, start'.get k = if i ≤ k ∧ k ≤ 16 then cstart len nchar k % 65536 else start.get k) := by
  induction n generalizing i total start with
  | zero =>
    refine ⟨start, rfl, hs, ?_⟩
    intro k
    rw [if_neg (by omega)]
  | succ n ih =>
    unfold mcStart
    rw [wr_ok (by omega), ok_bind, rd_ok (by omega), ok_bind]
    obtain ⟨s', e1, e2, e3⟩ := ih (i + 1) ((total + 2 ^ (16 - i) * ln.get i % 65536) % 65536) (start.upd i total)
      (by omega) (by omega) (by simpa using hs) (by
        rw [ht, cstart_succ _ _ _ (by omega), hc i (by omega) (by omega), Nat.mul_comm]
        omega)
    refine ⟨s', e1, e2, ?_⟩
    intro k
    rw [e3 k, Arr.get_upd]
    by_cases hk : k = i
    · subst hk; rw [if_neg (by omega), if_pos rfl, if_pos (by omega), ht]
    · rw [if_neg hk]
      by_cases h : i + 1 ≤ k ∧ k ≤ 16
      · rw [if_pos h, if_pos (by omega)]
      · rw [if_neg h, if_neg (by omega)]

theorem mcAssign_ok (n c : Nat) (start bitlen code : Arr) (nchar : Nat) (hn : c + n = nchar)
    (hs : start.size = 17) (hb : nchar ≤ bitlen.size) (hc : nchar ≤ code.size)
    (hcomp : Complete bitlen.get nchar) (h0 : start.get 0 = 0)
    (hst : ∀ k, 1 ≤ k → k ≤ 16 →
      start.get k = (cstart bitlen.get nchar k + cnt bitlen.get k c * 2 ^ (16 - k)) % 65536) :
    ∃ code', mcAssign n c start bitlen code = .ok code' ∧ code'.size = code.size ∧
      (∀ x, code'.get x = if c ≤ x ∧ x < nchar then
        (if bitlen.get x = 0 then 0 else canonCode bitlen.get nchar x) else code.get x) := by
  induction n generalizing c start code with
  | zero =>
    refine ⟨code, rfl, rfl, ?_⟩
    intro x; rw [if_neg (by omega)]
  | succ n ih =>
    have hle := hcomp.le16 c (by omega)
    unfold mcAssign
    rw [rd_ok (by omega), ok_bind, rd_ok (by omega), ok_bind, wr_ok (by omega), ok_bind, wr_ok (by omega), ok_bind]
    have hval : start.get (bitlen.get c) = if bitlen.get c = 0 then 0 else canonCode bitlen.get nchar c := by
      by_cases hz : bitlen.get c = 0
      · rw [if_pos hz, hz, h0]
      · rw [if_neg hz, hst _ (by omega) hle, ← canonCode_eq bitlen.get nchar c (by omega) hz]
        exact Nat.mod_eq_of_lt (canonCode_lt hcomp (by omega) hz)
    obtain ⟨code', e1, e2, e3⟩ := ih (c + 1)
      (start.upd (bitlen.get c) ((start.get (bitlen.get c) + mcWeight (bitlen.get c)) % 65536))
      (code.upd c (start.get (bitlen.get c))) (by omega) (by simpa using hs) (by simpa using hc)
      (by
        rw [Arr.get_upd]
        split
        · rename_i h; rw [← h, h0]; simp [mcWeight]
        · exact h0)
      (by
        intro k h1 h2
        rw [Arr.get_upd, cnt_succ]
        by_cases hk : k = bitlen.get c
        · subst hk
          rw [if_pos rfl, if_pos rfl, hst _ h1 h2]
          unfold mcWeight
          rw [if_neg (by omega), Nat.add_mul, Nat.one_mul]
          omega
        · rw [if_neg hk, if_neg (fun e => hk e.symm), Nat.add_zero]
          exact hst k h1 h2)
    refine ⟨code', e1, by simpa using e2, ?_⟩
    intro x
    rw [e3 x, Arr.get_upd]
    by_cases hx : x = c
    · subst hx
      rw [if_neg (by omega), if_pos rfl, if_pos ⟨Nat.le_refl _, by omega⟩, hval]
    · rw [if_neg hx]
      by_cases h : c + 1 ≤ x ∧ x < nchar
      · rw [if_pos h]; exact (if_pos ⟨by omega, h.2⟩).symm
      · rw [if_neg h]; exact (if_neg (by omega)).symm

theorem kN_cnt (len : Nat → Nat) (nchar : Nat) (f : Nat → Nat)
    (h : ∀ m, 1 ≤ m → m ≤ 16 → cnt len m nchar = f m) : cstart len nchar 17 = kN f 16 := by
  unfold cstart kN
  rw [sum_range_succ']
  simp only [if_pos, Nat.add_zero]
  apply sum_congr rfl
  intro k hk
  have := mem_range.mp hk
  rw [if_neg (by omega), h _ (by omega) (by omega)]

theorem makeCode_ok (nchar : Nat) (bitlen code ln : Arr) (hl : ln.size = 17) (hb : nchar ≤ bitlen.size)
    (hc : nchar ≤ code.size) (hcomp : Complete bitlen.get nchar)
    (hcnt : ∀ m, 1 ≤ m → m ≤ 16 → cnt bitlen.get m nchar = ln.get m) :
    ∃ code', makeCode nchar bitlen code ln = .ok code' ∧ code'.size = code.size ∧
      (∀ x, code'.get x = if x < nchar then
        (if bitlen.get x = 0 then 0 else canonCode bitlen.get nchar x) else code.get x) := by
  unfold makeCode
  obtain ⟨st, e1, e2, e3⟩ := mcStart_ok 16 1 0 (Arr.mk' 17 0) ln bitlen.get nchar (by omega) (by omega) rfl hl hcnt
    (by rw [cstart_one])
  rw [e1, ok_bind]
  obtain ⟨code', a1, a2, a3⟩ := mcAssign_ok nchar 0 st bitlen code nchar (by omega) e2 hb hc hcomp
    (by rw [e3, if_neg (by omega)]; simp)
    (by intro k h1 h2; rw [e3, if_pos (by omega), cnt_zero]; simp)
  refine ⟨code', a1, a2, ?_⟩
  intro x
  rw [a3 x]
  simp

/-! ## `makeTree` -/

/-- Sizes `makeTree` relies on. -/
structure TreeSizes (nchar : Nat) (freq bitlen code left right : Arr) : Prop where
  pos : 1 ≤ nchar
  le : nchar ≤ 510
  freq : 2 * nchar ≤ freq.size + 1
  bitlen : nchar ≤ bitlen.size
  code : nchar ≤ code.size
  left : 2 * nchar ≤ left.size + 1
  right : 2 * nchar ≤ right.size + 1

/-- What `makeTree` guarantees, whatever the frequencies. -/
structure TreeOk (nchar : Nat) (freq bitlen code left right : Arr) (r : TreeRes) : Prop where
  bsize : r.bitlen.size = bitlen.size
  csize : r.code.size = code.size
  fsize : r.freq.size = freq.size
  lsize : r.left.size = left.size
  rsize : r.right.size = right.size
  fsame : ∀ c, c < nchar → r.freq.get c = freq.get c
  bout : ∀ c, nchar ≤ c → r.bitlen.get c = bitlen.get c
  /-- at most one used symbol: no code at all, the root is that symbol -/
  single : (usedM freq nchar).card < 2 →
    (∀ c, c < nchar → r.bitlen.get c = 0) ∧ r.root < nchar ∧ r.freq = freq ∧
    (usedM freq nchar = {r.root} ∨ (usedM freq nchar = 0 ∧ r.root = 0)) ∧ r.code.get r.root = 0
  /-- otherwise: a complete canonical code for exactly the used symbols -/
  multi : 2 ≤ (usedM freq nchar).card →
    nchar ≤ r.root ∧ r.root < 2 * nchar - 1 ∧
    r.freq.get r.root = (∑ c ∈ range nchar, freq.get c) % 65536 ∧
    (∀ c, c < nchar → (r.bitlen.get c = 0 ↔ freq.get c = 0)) ∧
    Complete r.bitlen.get nchar ∧
    (∀ c, c < nchar → r.code.get c =
      if r.bitlen.get c = 0 then 0 else canonCode r.bitlen.get nchar c)

theorem sortOk_of {sort : Arr} {N nchar : Nat} {freq : Arr} (hs : N ≤ sort.size)
    (h : SM sort N = usedM freq nchar) :
    SortOk sort N nchar ∧ ∀ c, c < nchar → (freq.get c ≠ 0 ↔ ∃ p, p < N ∧ sort.get p = c) := by
  have hmem : ∀ p, p < N → sort.get p ∈ SM sort N := fun p hp =>
    Multiset.mem_map.mpr ⟨p, Multiset.mem_range.mpr hp, rfl⟩
  refine ⟨⟨hs, ?_, ?_⟩, ?_⟩
  · intro p hp
    have := hmem p hp
    rw [h] at this
    exact Multiset.mem_range.mp (Multiset.mem_of_mem_filter this)
  · have hnd : (SM sort N).Nodup := by
      rw [h]
      exact Multiset.Nodup.filter _ (Multiset.nodup_range _)
    intro p q hp hq e
    exact Multiset.inj_on_of_nodup_map hnd p (Multiset.mem_range.mpr hp) q (Multiset.mem_range.mpr hq) e
  · intro c hc
    constructor
    · intro hf
      have : c ∈ SM sort N := by
        rw [h]
        exact Multiset.mem_filter.mpr ⟨Multiset.mem_range.mpr hc, hf⟩
      obtain ⟨p, hp, e⟩ := Multiset.mem_map.mp this
      exact ⟨p, Multiset.mem_range.mp hp, e⟩
    · rintro ⟨p, hp, e⟩
      have := hmem p hp
      rw [h, e] at this
      exact (Multiset.mem_filter.mp this).2

theorem usedM_sum (freq : Arr) (n : Nat) :
    ((usedM freq n).map freq.get).sum = ∑ c ∈ range n, freq.get c := by
  induction n with
  | zero => rfl
  | succ n ih =>
    rw [usedM_succ, sum_range_succ, ← ih]
    split
    · rw [Multiset.map_cons, Multiset.sum_cons, Nat.add_comm]
    · rename_i h
      have h0 : freq.get n = 0 := by omega
      rw [h0]; rfl

theorem mtLoop_sizes (nchar f : Nat) (s s' : MT) (h : mtLoop nchar f s = .ok s') :
    s'.left.size = s.left.size ∧ s'.right.size = s.right.size ∧ s'.code.size = s.code.size := by
  have hwr : ∀ {a a' : Arr} {i v : Nat}, wr a i v = .ok a' → a'.size = a.size := by
    intro a a' i v h
    unfold wr at h
    split at h
    · cases h; rfl
    · cases h
  have hso : ∀ {i si si' : Nat} {code code' : Arr}, mtSort nchar i si code = .ok (si', code') →
      code'.size = code.size := by
    intro i si si' code code' h
    unfold mtSort at h
    split at h
    · cases h1 : wr code si i with
      | error e => rw [h1] at h; cases h
      | ok c => rw [h1, ok_bind] at h; cases h; exact hwr h1
    · cases h; rfl
  have hst : ∀ {s s' : MT}, mtStep nchar s = .ok s' →
      s'.left.size = s.left.size ∧ s'.right.size = s.right.size ∧ s'.code.size = s.code.size := by
    intro s s' h
    unfold mtStep at h
    cases h1 : rd s.heap 1 with
    | error e => rw [h1] at h; cases h
    | ok i =>
    rw [h1, ok_bind] at h
    cases h2 : mtSort nchar i s.si s.code with
    | error e => rw [h2] at h; cases h
    | ok p =>
    rw [h2, ok_bind] at h
    simp only [] at h
    cases h3 : rd s.heap s.hs with
    | error e => rw [h3] at h; cases h
    | ok last =>
    rw [h3, ok_bind] at h
    cases h4 : wr s.heap 1 last with
    | error e => rw [h4] at h; cases h
    | ok hp =>
    rw [h4, ok_bind] at h
    cases h5 : downheap 1 (s.hs - 1) hp s.freq with
    | error e => rw [h5] at h; cases h
    | ok hp2 =>
    rw [h5, ok_bind] at h
    cases h6 : rd hp2 1 with
    | error e => rw [h6] at h; cases h
    | ok j =>
    rw [h6, ok_bind] at h
    cases h7 : mtSort nchar j p.1 p.2 with
    | error e => rw [h7] at h; cases h
    | ok p2 =>
    rw [h7, ok_bind] at h
    cases h8 : rd s.freq i with
    | error e => rw [h8] at h; cases h
    | ok fi =>
    rw [h8, ok_bind] at h
    cases h9 : rd s.freq j with
    | error e => rw [h9] at h; cases h
    | ok fj =>
    rw [h9, ok_bind] at h
    cases h10 : wr s.freq s.avail ((fi + fj) % 65536) with
    | error e => rw [h10] at h; cases h
    | ok fr =>
    rw [h10, ok_bind] at h
    cases h11 : wr hp2 1 s.avail with
    | error e => rw [h11] at h; cases h
    | ok hp3 =>
    rw [h11, ok_bind] at h
    cases h12 : downheap 1 (s.hs - 1) hp3 fr with
    | error e => rw [h12] at h; cases h
    | ok hp4 =>
    rw [h12, ok_bind] at h
    cases h13 : wr s.left s.avail i with
    | error e => rw [h13] at h; cases h
    | ok l =>
    rw [h13, ok_bind] at h
    cases h14 : wr s.right s.avail j with
    | error e => rw [h14] at h; cases h
    | ok r =>
    rw [h14, ok_bind] at h
    cases h
    refine ⟨hwr h13, hwr h14, ?_⟩
    exact (hso h7).trans (hso h2)
  induction f generalizing s with
  | zero => cases h
  | succ f ih =>
    unfold mtLoop at h
    cases h1 : mtStep nchar s with
    | error e => rw [h1] at h; cases h
    | ok s1 =>
      rw [h1, ok_bind] at h
      have a := hst h1
      split at h
      · cases h; exact a
      · have b := ih s1 h
        omega

/-- `makeTree` never faults and builds a complete canonical code. -/
theorem makeTree_ok {nchar : Nat} {freq bitlen code left right : Arr}
    (hz : TreeSizes nchar freq bitlen code left right) :
    ∃ r, makeTree nchar freq bitlen code left right = .ok r ∧
      TreeOk nchar freq bitlen code left right r := by
  obtain ⟨hpos, hle, hfs, hbs, hcs, hls, hrs⟩ := hz
  unfold makeTree
  rw [wr_ok (by simp), ok_bind]
  obtain ⟨hs, heap, b1, e1, e2, e3, e4, e5, e6⟩ := mtInit_ok nchar 0 0 ((Arr.mk' 511 0).upd 1 0) bitlen freq
    (by omega) (by simp) (by omega) (by omega) (by omega) (by simp [HM_zero, usedM]) (by intro _; simp)
  rw [e1, ok_bind]
  simp only [Nat.zero_add] at e4 e5 ⊢
  have hcard := congrArg Multiset.card e4
  rw [card_HM] at hcard
  have hcle := card_usedM_le freq nchar
  have hz1 : ∀ c, c < nchar → b1.get c = 0 := by
    intro c hc; rw [e5, if_pos (by omega)]
  have hbo : ∀ c, nchar ≤ c → b1.get c = bitlen.get c := by
    intro c hc; rw [e5, if_neg (by omega)]
  by_cases h2 : hs < 2
  · rw [if_pos h2, rd_ok (by omega), ok_bind]
    have hroot : heap.get 1 < nchar ∧
        (usedM freq nchar = {heap.get 1} ∨ (usedM freq nchar = 0 ∧ heap.get 1 = 0)) := by
      by_cases h0 : hs = 0
      · rw [e6 h0]
        refine ⟨by omega, Or.inr ⟨?_, rfl⟩⟩
        rw [← e4, h0, HM_zero]
      · have h1 : hs = 1 := by omega
        have : usedM freq nchar = {heap.get 1} := by
          rw [← e4, h1, HM_succ, HM_zero]; rfl
        refine ⟨?_, Or.inl this⟩
        have hm : heap.get 1 ∈ usedM freq nchar := by rw [this]; simp
        exact Multiset.mem_range.mp (Multiset.mem_of_mem_filter hm)
    rw [wr_ok (by omega), ok_bind]
    exact ⟨_, rfl, ⟨e3, rfl, rfl, rfl, rfl, fun _ _ => rfl, hbo,
      fun _ => ⟨hz1, hroot.1, rfl, hroot.2, by simp⟩, fun h => by omega⟩⟩
  · rw [if_neg h2]
    have hent : ∀ x ∈ HM heap hs, x < freq.size := by
      intro x hx
      rw [e4] at hx
      have := Multiset.mem_range.mp (Multiset.mem_of_mem_filter hx)
      omega
    obtain ⟨heap1, a1, a2, a3⟩ := mtHeapify_ok (hs / 2) hs heap freq (by omega) (by omega) hent
    rw [a1, ok_bind]
    -- initial invariant
    have hinv : MInv nchar (usedM freq nchar) freq (∑ c ∈ range nchar, freq.get c)
        ⟨hs, heap1, freq, code, 0, nchar, left, right⟩ := by
      refine ⟨⟨(usedM freq nchar).map (fun c => (c, Sh.leaf)), ?_, ?_, ?_, ?_⟩, ?_, by simp only []; omega, by simp,
        by simp only []; omega, fun _ _ => rfl, rfl, by simp only []; omega, by simp only []; omega, hls, hrs⟩
      · simp only [Multiset.map_map, Function.comp_apply, Multiset.map_id']
        rw [a3, e4]
      · intro p hp
        obtain ⟨c, hc, e⟩ := Multiset.mem_map.mp hp
        subst e
        exact .leaf _ (Multiset.mem_range.mp (Multiset.mem_of_mem_filter hc))
      · simp [Multiset.map_map, Sh.leaves, Function.comp_def]
      · simp only [Multiset.map_map, Function.comp_def]
        rw [← usedM_sum]
      · simp only [SM, Multiset.range_zero, Multiset.map_zero, zero_add]
        rw [a3, e4]
        apply Multiset.filter_eq_self.mpr
        intro c hc
        exact Multiset.mem_range.mp (Multiset.mem_of_mem_filter hc)
    obtain ⟨s, c1, c2, c3, c4, c5, c6⟩ := mtLoop_ok (hs + 1) hinv (by simp only []; omega) (by simp only []; omega)
      hcle hle hfs
    obtain ⟨z1, z2, z3⟩ := mtLoop_sizes _ _ _ _ c1
    simp only [] at z1 z2 z3
    rw [c1, ok_bind]
    obtain ⟨⟨P, hP1, hP2, hP3, hP4⟩, hsort, hcount, havail, _, hfreq, hfsz, hcsz, hhs, hlsz, hrsz⟩ := c2
    rw [c3] at hP1 hsort c5
    have hH1 : HM s.heap 1 = {s.avail - 1} := by
      rw [HM_succ, HM_zero] at c5 ⊢
      simp at c5
      rw [c5]; rfl
    rw [hH1] at hP1 hsort
    obtain ⟨p, hp, hpe⟩ := (Multiset.map_eq_singleton).mp hP1
    subst hp
    have hpt := hP2 p (by simp)
    rw [hpe] at hpt
    simp only [Multiset.map_singleton, Multiset.sum_singleton] at hP3 hP4
    rw [hpe] at hP4
    -- the root is an internal node
    obtain ⟨px, pt⟩ := p
    simp only [] at *
    cases hpt with
    | leaf _ hx => simp [Sh.leaves] at hP3; omega
    | node _ l r g1 g2 gl gr =>
      have hpt : IsT s.left s.right nchar s.avail (s.avail - 1) (.node l r) := .node _ l r g1 g2 gl gr
      obtain ⟨ln, l1, l2, l3⟩ := countLeaf_ok hpt (by omega) (by omega) (nchar + 1) 0 (Arr.mk' 17 0) (by omega) rfl
        (by intro k; rw [Arr.get_mk']; omega)
      rw [l1, ok_bind]
      simp only [Arr.get_mk', Nat.zero_add] at l3
      have hlcn : cN ln.get 16 = (usedM freq nchar).card := by
        rw [cN_congr 16 (fun k _ _ => l3 k), ← hP3]
        simp only [Sh.leaves]
        rw [← l.lc_count 1 (by omega), ← r.lc_count 1 (by omega), ← cN_add]
        rfl
      obtain ⟨x1, y1, y2⟩ := l.lc_kraft 1 (by omega) (by omega)
      obtain ⟨x2, y3, y4⟩ := r.lc_kraft 1 (by omega) (by omega)
      have hlkn : kN ln.get 16 = 65536 + (x1 + x2) := by
        rw [kN_congr 16 (fun k _ _ => l3 k)]
        have : kN ((Sh.node l r).lc 0) 16 = kN (l.lc 1) 16 + kN (r.lc 1) 16 := by
          rw [← kN_add]; rfl
        rw [this, y1, y3]
        omega
      have hle16 : x1 + x2 ≤ ln.get 16 - 1 := by
        rw [l3]
        simp only [Sh.lc, Nat.zero_add]
        omega
      have hnl : ¬ (s.avail - 1 < nchar) := by omega
      have hsm : SM s.code s.si = usedM freq nchar := by
        rw [← hsort, ← Multiset.cons_zero, Multiset.filter_cons_of_neg (p := (· < nchar)) _ hnl]
        simp
      have hsi : s.si = (usedM freq nchar).card := by
        rw [← hsm, card_SM]
      rw [hsi] at hsm
      obtain ⟨so1, so2⟩ := sortOk_of (by omega) hsm
      obtain ⟨b2, ln2, m1, m2, m3, m4, m5, m6, m7⟩ := makeLen_ok b1 s.code ln _ nchar _ so1 (by omega) hz1 l2
        (by omega) hlcn hlkn hle16
      rw [m1, ok_bind]
      simp only []
      have hiff : ∀ c, c < nchar → (b2.get c = 0 ↔ freq.get c = 0) := by
        intro c hc
        constructor
        · intro h0
          by_contra hne
          obtain ⟨q, hq, e⟩ := (so2 c hc).mp hne
          have := (m6 q hq).1
          rw [e] at this
          exact this h0
        · intro h0
          rw [m7 c (fun q hq e => (so2 c hc).mpr ⟨q, hq, e⟩ h0)]
          exact hz1 c hc
      have hcomp : Complete b2.get nchar := by
        have h16 : ∀ c, c < nchar → b2.get c ≤ 16 := by
          intro c hc
          by_cases h0 : freq.get c = 0
          · rw [(hiff c hc).mpr h0]; omega
          · obtain ⟨q, hq, e⟩ := (so2 c hc).mp h0
            rw [← e]; exact (m6 q hq).2
        refine ⟨h16, ?_⟩
        rw [kraft_eq _ _ h16, kN_cnt _ _ _ m5, m4]
      obtain ⟨code2, n1, n2, n3⟩ := makeCode_ok nchar b2 s.code ln2 m3 (by omega) (by omega) hcomp m5
      rw [n1, ok_bind]
      refine ⟨_, rfl, ⟨by simp only []; omega, by simp only []; omega, by simpa using hfsz, z1, z2, hfreq, ?_, fun h => by omega, fun _ => ⟨g1, ?_, ?_, hiff, hcomp, ?_⟩⟩⟩
      · intro c hc
        simp only []
        rw [m7 c (fun q hq e => by have := so1.lt q hq; omega)]
        exact hbo c hc
      · simp only []; omega
      · simp only []
        rw [← hP4, Nat.mod_eq_of_lt c6]
      · intro c hc
        simp only []
        rw [n3, if_pos hc]

end Lha
