import Verif.Proof.MakeLen
import Verif.Proof.Bound
import Verif.Proof.Tree
/-!
# Two runs of `makeTree` on the same frequencies

The arrays `freq`, `bitlen`, `code`, `left`, `right` are globals, so a second run starts with other leftovers in
them.  The code it constructs does not depend on those.
-/

namespace Lha

open Spec Finset

theorem rd_inv {a : Arr} {i v : Nat} (h : rd a i = .ok v) : i < a.size ∧ v = a.get i := by
  unfold rd at h
  split at h
  · cases h; exact ⟨by assumption, rfl⟩
  · cases h

theorem wr_inv {a a' : Arr} {i v : Nat} (h : wr a i v = .ok a') : i < a.size ∧ a' = a.upd i v := by
  unfold wr at h
  split at h
  · cases h; exact ⟨by assumption, rfl⟩
  · cases h

/-- `downheap` looks at no frequency beyond those of the heap's entries. -/
theorem downheapLoop_eq {n : Nat} {freq freq' : Arr} (h1 : n ≤ freq.size) (h2 : n ≤ freq'.size)
    (ha : ∀ x, x < n → freq.get x = freq'.get x) (k hs : Nat) (hk : k < n) :
    ∀ (f i j : Nat) (heap : Arr), (∀ p, 1 ≤ p → p ≤ hs → heap.get p < n) → 1 ≤ i → i < j → i ≤ hs →
    downheapLoop f i j k hs heap freq = downheapLoop f i j k hs heap freq' := by
  have hrd : ∀ x, x < n → rd freq x = rd freq' x := by
    intro x hx
    rw [rd_ok (by omega), rd_ok (by omega), ha x hx]
  intro f
  induction f with
  | zero => intros; rfl
  | succ f ih =>
    intro i j heap hent hi hij hih
    unfold downheapLoop
    by_cases hj : j ≤ hs
    · rw [if_pos hj, if_pos hj]
      simp only []
      have hcont : ∀ j, i < j → j ≤ hs → (do
            let fk ← rd freq k
            let hj ← rd heap j
            let fj ← rd freq hj
            if fk ≤ fj then wr heap i k
            else do
              let heap ← wr heap i hj
              downheapLoop f j (2 * j) k hs heap freq : G Arr) = (do
            let fk ← rd freq' k
            let hj ← rd heap j
            let fj ← rd freq' hj
            if fk ≤ fj then wr heap i k
            else do
              let heap ← wr heap i hj
              downheapLoop f j (2 * j) k hs heap freq' : G Arr) := by
        intro j hij hjs
        rw [hrd k hk]
        congr 1; funext fk
        by_cases hsz : j < heap.size
        · rw [rd_ok hsz, ok_bind, ok_bind, hrd _ (hent j (by omega) hjs)]
          congr 1; funext fj
          split
          · rfl
          · rw [wr_ok (by omega), ok_bind, ok_bind]
            apply ih
            · intro p hp1 hp2
              rw [Arr.get_upd]
              split
              · exact hent j (by omega) hjs
              · exact hent p hp1 hp2
            · omega
            · omega
            · omega
        · rw [rd_panic (by omega)]; rfl
      by_cases hlt : j < hs
      · rw [if_pos hlt, if_pos hlt]
        by_cases hsz : j + 1 < heap.size
        · rw [rd_ok (by omega), ok_bind, ok_bind, rd_ok (show j + 1 < heap.size by omega), hrd _ (hent j (by omega) hj),
            rd_ok (show heap.get j < freq'.size by have := hent j (by omega) hj; omega)]
          simp only [ok_bind]
          rw [hrd _ (hent (j + 1) (by omega) (by omega)),
            rd_ok (show heap.get (j + 1) < freq'.size by have := hent (j + 1) (by omega) (by omega); omega)]
          simp only [ok_bind]
          apply hcont <;> split <;> omega
        · by_cases hsz1 : j < heap.size
          · rw [rd_ok (by omega), ok_bind, ok_bind, rd_panic (show heap.size ≤ j + 1 by omega), hrd _ (hent j (by omega) hj)]
            rfl
          · rw [rd_panic (by omega)]; rfl
      · rw [if_neg hlt, if_neg hlt, ok_bind, ok_bind]
        exact hcont _ hij hj
    · rw [if_neg hj, if_neg hj]

theorem downheap_eq {n : Nat} {freq freq' : Arr} (h1 : n ≤ freq.size) (h2 : n ≤ freq'.size)
    (ha : ∀ x, x < n → freq.get x = freq'.get x) {i hs : Nat} {heap : Arr} (hent : ∀ x ∈ HM heap hs, x < n) (hi : 1 ≤ i)
    (hih : i ≤ hs) : downheap i hs heap freq = downheap i hs heap freq' := by
  unfold downheap
  by_cases hsz : i < heap.size
  · rw [rd_ok hsz, ok_bind, ok_bind]
    exact downheapLoop_eq h1 h2 ha _ hs (hent _ (mem_HM hi hih)) _ i _ heap (fun p a b => hent _ (mem_HM a b)) hi
      (by omega) hih
  · rw [rd_panic (by omega)]; rfl

theorem mtHeapify_eq {n : Nat} {freq freq' : Arr} (h1 : n ≤ freq.size) (h2 : n ≤ freq'.size)
    (ha : ∀ x, x < n → freq.get x = freq'.get x) {hs : Nat} : ∀ (i : Nat) (heap : Arr), (∀ x ∈ HM heap hs, x < n) →
    i ≤ hs → hs < heap.size → mtHeapify i hs heap freq = mtHeapify i hs heap freq' := by
  intro i
  induction i with
  | zero => intros; rfl
  | succ i ih =>
    intro heap hent hih hsz
    obtain ⟨h', e1, e2, e3⟩ := downheap_ok (i + 1) hs heap freq (by omega) hih hsz
      (fun x hx => Nat.lt_of_lt_of_le (hent x hx) h1)
    unfold mtHeapify
    rw [← downheap_eq h1 h2 ha hent (by omega) hih, e1, ok_bind, ok_bind]
    exact ih h' (by rw [e3]; exact hent) (by omega) (by omega)

theorem mtInit_eq {freq freq' : Arr} : ∀ (n i hs : Nat) (heap b b' : Arr), i + n ≤ b.size → i + n ≤ b'.size →
    i + n ≤ freq.size → i + n ≤ freq'.size → (∀ x, x < i + n → freq.get x = freq'.get x) →
    (mtInit n i hs heap b freq).map (fun r => (r.1, r.2.1)) = (mtInit n i hs heap b' freq').map (fun r => (r.1, r.2.1)) := by
  intro n
  induction n with
  | zero => intros; rfl
  | succ n ih =>
    intro i hs heap b b' h1 h2 h3 h4 ha
    unfold mtInit
    rw [wr_ok (show i < b.size by omega), ok_bind, rd_ok (show i < freq.size by omega), ok_bind,
      wr_ok (show i < b'.size by omega), ok_bind, rd_ok (show i < freq'.size by omega), ok_bind, ha i (by omega)]
    split
    · by_cases hsz : hs + 1 < heap.size
      · rw [wr_ok hsz, ok_bind, ok_bind]
        exact ih _ _ _ _ _ (by simp; omega) (by simp; omega) (by omega) (by omega) (fun x hx => ha x (by omega))
      · rw [wr_panic (by omega)]; rfl
    · exact ih _ _ _ _ _ (by simp; omega) (by simp; omega) (by omega) (by omega) (fun x hx => ha x (by omega))

/-- Two states of the tree construction that differ in leftovers only. -/
structure MSim (nchar : Nat) (s s' : MT) : Prop where
  hs : s.hs = s'.hs
  heap : s.heap = s'.heap
  si : s.si = s'.si
  avail : s.avail = s'.avail
  freq : ∀ x, x < s.avail → s.freq.get x = s'.freq.get x
  code : ∀ x, x < s.si → s.code.get x = s'.code.get x
  left : ∀ x, nchar ≤ x → x < s.avail → s.left.get x = s'.left.get x
  right : ∀ x, nchar ≤ x → x < s.avail → s.right.get x = s'.right.get x

theorem mtSort_sim {nchar i si a a' : Nat} {c c' d d' : Arr} (h : mtSort nchar i si c = .ok (a, d))
    (h' : mtSort nchar i si c' = .ok (a', d')) (ha : ∀ x, x < si → c.get x = c'.get x) :
    a = a' ∧ ∀ x, x < a → d.get x = d'.get x := by
  unfold mtSort at h h'
  split at h
  · rename_i hi
    rw [if_pos hi] at h'
    obtain ⟨d1, e1, e2⟩ := bind_ok h
    obtain ⟨d2, e3, e4⟩ := bind_ok h'
    cases e2; cases e4
    refine ⟨rfl, ?_⟩
    rw [(wr_inv e1).2, (wr_inv e3).2]
    intro x hx
    rw [Arr.get_upd, Arr.get_upd]
    split
    · rfl
    · exact ha x (by omega)
  · rename_i hi
    rw [if_neg hi] at h'
    cases h; cases h'
    exact ⟨rfl, ha⟩

theorem mtStep_inv {nchar : Nat} {s r : MT} (h : mtStep nchar s = .ok r) :
    ∃ i si code last h1 h2 j si2 code2 fi fj freq h3 h4 left right,
      rd s.heap 1 = .ok i ∧ mtSort nchar i s.si s.code = .ok (si, code) ∧ rd s.heap s.hs = .ok last ∧
      wr s.heap 1 last = .ok h1 ∧ downheap 1 (s.hs - 1) h1 s.freq = .ok h2 ∧ rd h2 1 = .ok j ∧
      mtSort nchar j si code = .ok (si2, code2) ∧ rd s.freq i = .ok fi ∧ rd s.freq j = .ok fj ∧
      wr s.freq s.avail ((fi + fj) % 65536) = .ok freq ∧ wr h2 1 s.avail = .ok h3 ∧
      downheap 1 (s.hs - 1) h3 freq = .ok h4 ∧ wr s.left s.avail i = .ok left ∧ wr s.right s.avail j = .ok right ∧
      r = ⟨s.hs - 1, h4, freq, code2, si2, s.avail + 1, left, right⟩ := by
  unfold mtStep at h
  obtain ⟨i, a1, h⟩ := bind_ok h
  obtain ⟨⟨si, code⟩, a2, h⟩ := bind_ok h
  obtain ⟨last, a3, h⟩ := bind_ok h
  obtain ⟨h1, a4, h⟩ := bind_ok h
  obtain ⟨h2, a5, h⟩ := bind_ok h
  obtain ⟨j, a6, h⟩ := bind_ok h
  obtain ⟨⟨si2, code2⟩, a7, h⟩ := bind_ok h
  obtain ⟨fi, a8, h⟩ := bind_ok h
  obtain ⟨fj, a9, h⟩ := bind_ok h
  obtain ⟨fr, a10, h⟩ := bind_ok h
  obtain ⟨h3, a11, h⟩ := bind_ok h
  obtain ⟨h4, a12, h⟩ := bind_ok h
  obtain ⟨l, a13, h⟩ := bind_ok h
  obtain ⟨rr, a14, h⟩ := bind_ok h
  cases h
  exact ⟨i, si, code, last, h1, h2, j, si2, code2, fi, fj, fr, h3, h4, l, rr, a1, a2, a3, a4, a5, a6, a7, a8, a9, a10,
    a11, a12, a13, a14, rfl⟩

theorem mtStep_sim {nchar : Nat} {U : Multiset Nat} {F : Arr} {total : Nat} {s s' r r' : MT}
    (hi : MInv nchar U F total s) (h2 : 2 ≤ s.hs) (hS : MSim nchar s s') (h : mtStep nchar s = .ok r)
    (h' : mtStep nchar s' = .ok r') : MSim nchar r r' := by
  obtain ⟨e1, e2, e3, e4, e5, e6, e7, e8⟩ := hS
  obtain ⟨hs, heap, freq, code, si, avail, left, right⟩ := s'
  simp only [] at e1 e2 e3 e4 e5 e6 e7 e8
  subst e1 e2 e3 e4
  obtain ⟨i, si1, c1, last, h1, hp2, j, si2, c2, fi, fj, fr, h3, h4, l, rr, a1, a2, a3, a4, a5, a6, a7, a8, a9, a10,
    a11, a12, a13, a14, rfl⟩ := mtStep_inv h
  obtain ⟨i', si1', c1', last', h1', hp2', j', si2', c2', fi', fj', fr', h3', h4', l', rr', b1, b2, b3, b4, b5, b6, b7,
    b8, b9, b10, b11, b12, b13, b14, rfl⟩ := mtStep_inv h'
  simp only [] at b1 b2 b3 b4 b5 b6 b7 b8 b9 b10 b11 b12 b13 b14
  rw [a1] at b1; cases b1
  obtain ⟨rfl, hc1⟩ := mtSort_sim a2 b2 e6
  rw [a3] at b3; cases b3
  rw [a4] at b4; cases b4
  obtain ⟨⟨P, hP1, hP2, hP3, hP4⟩, hsort, hcount, havail, _, hfreq, hfs, hcs, hhs, hls, hrs⟩ := hi
  have hlt : ∀ x ∈ HM s.heap s.hs, x < s.avail := by
    intro x hx
    rw [← hP1, Multiset.mem_map] at hx
    obtain ⟨p, hp, e⟩ := hx
    rw [← e]
    exact (hP2 p hp).lt havail
  have hz1 := (wr_inv a10).1
  have hz2 := (wr_inv b10).1
  have hH : HM s.heap s.hs = s.heap.get 1 ::ₘ HM (s.heap.upd 1 (s.heap.get s.hs)) (s.hs - 1) := by
    have e1 := HM_upd s.heap (s.hs - 1) 1 (s.heap.get s.hs) (by omega) (by omega)
    have e2 := HM_succ s.heap (s.hs - 1)
    rw [Nat.sub_add_cancel (by omega)] at e2
    rw [e2, ← Multiset.singleton_add, ← Multiset.singleton_add, add_comm, ← e1, add_comm]
  obtain ⟨a4s, a4e⟩ := wr_inv a4
  have hent1 : ∀ x ∈ HM h1 (s.hs - 1), x < s.avail := by
    intro x hx
    rw [a4e, (rd_inv a3).2] at hx
    exact hlt x (by rw [hH]; exact Multiset.mem_cons_of_mem hx)
  rw [← downheap_eq (by omega) (by omega) e5 hent1 (by omega) (by omega), a5] at b5
  cases b5
  have hhsz := (rd_inv a3).1
  obtain ⟨hp2', d1, d2, d3⟩ := downheap_ok 1 (s.hs - 1) h1 s.freq (by omega) (by omega)
    (by rw [a4e]; simp; omega) (fun x hx => by have := hent1 x hx; omega)
  rw [a5] at d1
  cases d1
  rw [a6] at b6; cases b6
  obtain ⟨rfl, hc2⟩ := mtSort_sim a7 b7 hc1
  have hiv : i < s.avail := by
    rw [(rd_inv a1).2]; exact hlt _ (mem_HM (by omega) (by omega))
  have hjv : j < s.avail := by
    rw [(rd_inv a6).2]
    have : hp2.get 1 ∈ HM hp2 (s.hs - 1) := mem_HM (by omega) (by omega)
    rw [d3] at this
    exact hent1 _ this
  have ef1 : fi = fi' := by rw [(rd_inv a8).2, (rd_inv b8).2]; exact e5 i hiv
  have ef2 : fj = fj' := by rw [(rd_inv a9).2, (rd_inv b9).2]; exact e5 j hjv
  subst ef1 ef2
  rw [a11] at b11; cases b11
  have hfr : ∀ x, x < s.avail + 1 → fr.get x = fr'.get x := by
    intro x hx
    rw [(wr_inv a10).2, (wr_inv b10).2, Arr.get_upd, Arr.get_upd]
    split
    · rfl
    · exact e5 x (by omega)
  have hent3 : ∀ x ∈ HM h3 (s.hs - 1), x < s.avail + 1 := by
    intro x hx
    rw [(wr_inv a11).2] at hx
    obtain ⟨p, hp, e⟩ := Multiset.mem_map.mp hx
    have hp' := Multiset.mem_range.mp hp
    rw [← e]
    rw [Arr.get_upd]
    split
    · omega
    · have : hp2.get (p + 1) ∈ HM hp2 (s.hs - 1) := mem_HM (by omega) (by omega)
      rw [d3] at this
      have := hent1 _ this
      omega
  rw [← downheap_eq (freq := fr) (by rw [(wr_inv a10).2]; simp; omega) (by rw [(wr_inv b10).2]; simp; omega) hfr hent3
    (by omega) (by omega), a12] at b12
  cases b12
  refine ⟨rfl, rfl, rfl, rfl, hfr, hc2, ?_, ?_⟩
  · intro x hx1 hx2
    simp only [] at hx2 ⊢
    rw [(wr_inv a13).2, (wr_inv b13).2, Arr.get_upd, Arr.get_upd]
    split
    · rfl
    · exact e7 x hx1 (by omega)
  · intro x hx1 hx2
    simp only [] at hx2 ⊢
    rw [(wr_inv a14).2, (wr_inv b14).2, Arr.get_upd, Arr.get_upd]
    split
    · rfl
    · exact e8 x hx1 (by omega)

theorem mtLoop_sim {nchar : Nat} {U : Multiset Nat} {F : Arr} {total : Nat} (hU : U.card ≤ nchar) (hn : nchar ≤ 510)
    (hF : 2 * nchar ≤ F.size + 1) : ∀ (f : Nat) {s s' r r' : MT},
    MInv nchar U F total s → 2 ≤ s.hs → MSim nchar s s' → mtLoop nchar f s = .ok r →
    mtLoop nchar f s' = .ok r' → MSim nchar r r' := by
  intro f
  induction f with
  | zero => intro s s' r r' _ _ _ h; cases h
  | succ f ih =>
    intro s s' r r' hi h2 hS h h'
    unfold mtLoop at h h'
    obtain ⟨s1, e1, e2, e3, e4, e5, e6⟩ := mtStep_ok hi h2 hU hn hF
    rw [e1, ok_bind] at h
    obtain ⟨s1', f1, h'⟩ := bind_ok h'
    have hS1 := mtStep_sim hi h2 hS e1 f1
    rw [← hS1.hs] at h'
    split at h
    · rename_i hle
      rw [if_pos hle] at h'
      cases h; cases h'
      exact hS1
    · rename_i hle
      rw [if_neg hle] at h'
      exact ih e2 (by omega) hS1 h h'

theorem countLeaf_eq {left right left' right' : Arr} {nchar avail : Nat} (l1 : avail ≤ left.size) (l2 : avail ≤ left'.size)
    (r1 : avail ≤ right.size) (r2 : avail ≤ right'.size) (hl : ∀ x, nchar ≤ x → x < avail → left.get x = left'.get x)
    (hr : ∀ x, nchar ≤ x → x < avail → right.get x = right'.get x) {t : Sh} : ∀ {x : Nat},
    IsT left right nchar avail x t → ∀ (f d : Nat) (ln : Arr),
    countLeaf left right nchar f x d ln = countLeaf left' right' nchar f x d ln := by
  induction t with
  | leaf =>
    intro x h f d ln
    cases f with
    | zero => rfl
    | succ f =>
      cases h with
      | leaf _ hx => unfold countLeaf; rw [if_pos hx, if_pos hx]
  | node a b iha ihb =>
    intro x h f d ln
    cases f with
    | zero => rfl
    | succ f =>
      cases h with
      | node _ _ _ h1 h2 h3 h4 =>
        unfold countLeaf
        rw [if_neg (by omega), if_neg (by omega), rd_ok (show x < left.size by omega), ok_bind,
          rd_ok (show x < left'.size by omega), ok_bind, ← hl x h1 h2, iha h3 f (d + 1) ln]
        congr 1; funext ln1
        rw [rd_ok (show x < right.size by omega), ok_bind, rd_ok (show x < right'.size by omega), ok_bind, ← hr x h1 h2]
        exact ihb h4 f (d + 1) ln1

theorem mlFill_sim {len N nchar : Nat} {sort sort' : Arr} (hs : N ≤ sort.size) (hs' : N ≤ sort'.size)
    (ha : ∀ p, p < N → sort.get p = sort'.get p) : ∀ (k si : Nat) {b b' c c' : Arr} {a a' : Nat}, si + k ≤ N →
    mlFill len k si sort b = .ok (a, c) → mlFill len k si sort' b' = .ok (a', c') →
    (∀ x, x < nchar → b.get x = b'.get x) → a = a' ∧ a = si + k ∧ ∀ x, x < nchar → c.get x = c'.get x := by
  intro k
  induction k with
  | zero =>
    intro si b b' c c' a a' _ h h' hb
    cases h; cases h'
    exact ⟨rfl, rfl, hb⟩
  | succ k ih =>
    intro si b b' c c' a a' hk h h' hb
    unfold mlFill at h h'
    rw [rd_ok (by omega), ok_bind] at h h'
    obtain ⟨b1, e1, h⟩ := bind_ok h
    obtain ⟨b1', e1', h'⟩ := bind_ok h'
    obtain ⟨i1, i2, i3⟩ := ih (si + 1) (by omega) h h' (by
      intro x hx
      rw [(wr_inv e1).2, (wr_inv e1').2, ha si (by omega), Arr.get_upd, Arr.get_upd]
      split
      · rfl
      · exact hb x hx)
    exact ⟨i1, by omega, i3⟩

theorem mlAssign_sim {N nchar : Nat} {sort sort' ln : Arr} (hs : N ≤ sort.size) (hs' : N ≤ sort'.size)
    (ha : ∀ p, p < N → sort.get p = sort'.get p) : ∀ (i si : Nat) {b b' c c' : Arr}, si + cN ln.get i = N →
    mlAssign i si sort ln b = .ok c → mlAssign i si sort' ln b' = .ok c' →
    (∀ x, x < nchar → b.get x = b'.get x) → ∀ x, x < nchar → c.get x = c'.get x := by
  intro i
  induction i with
  | zero =>
    intro si b b' c c' _ h h' hb
    cases h; cases h'
    exact hb
  | succ i ih =>
    intro si b b' c c' hk h h' hb
    unfold mlAssign at h h'
    rw [cN_succ] at hk
    obtain ⟨k, e1, h⟩ := bind_ok h
    obtain ⟨⟨s1, b1⟩, e2, h⟩ := bind_ok h
    rw [e1, ok_bind] at h'
    obtain ⟨⟨s1', b1'⟩, e2', h'⟩ := bind_ok h'
    simp only [] at h h'
    rw [(rd_inv e1).2] at e2 e2'
    obtain ⟨i1, i2, i3⟩ := mlFill_sim hs hs' ha _ _ (by omega) e2 e2' hb
    subst i1
    exact ih s1 (by omega) h h' i3

theorem makeLen_sim {N nchar e : Nat} {b b' sort sort' ln c c' l l' : Arr} (hs : N ≤ sort.size) (hs' : N ≤ sort'.size)
    (ha : ∀ p, p < N → sort.get p = sort'.get p) (hls : ln.size = 17)
    (hN : N ≤ 510) (hcn : cN ln.get 16 = N) (hkn : kN ln.get 16 = 65536 + e) (he : e ≤ ln.get 16 - 1)
    (h : makeLen b sort ln = .ok (c, l)) (h' : makeLen b' sort' ln = .ok (c', l'))
    (hb : ∀ x, x < nchar → b.get x = b'.get x) : ∀ x, x < nchar → c.get x = c'.get x := by
  have h16 := le_cN ln.get 16 16 (by omega) (by omega)
  have hcum : mlCum 16 0 ln = .ok (65536 + e) := by rw [mlCum_ok 16 0 ln (by omega), hkn]; simp
  have hmod : (65536 + e) % 65536 = e := by omega
  unfold makeLen at h h'
  rw [hcum, ok_bind] at h h'
  simp only [hmod] at h h'
  have hfin : ∀ l1 : Arr, cN l1.get 16 = N →
      (do let bitlen ← mlAssign 16 0 sort l1 b; .ok (bitlen, l1) : G (Arr × Arr)) = .ok (c, l) →
      (do let bitlen ← mlAssign 16 0 sort' l1 b'; .ok (bitlen, l1) : G (Arr × Arr)) = .ok (c', l') →
      ∀ x, x < nchar → c.get x = c'.get x := by
    intro l1 hcl h h'
    obtain ⟨c1, e2, h⟩ := bind_ok h
    obtain ⟨c1', e2', h'⟩ := bind_ok h'
    cases h; cases h'
    exact mlAssign_sim hs hs' ha 16 0 (by omega) e2 e2' hb
  by_cases h0 : e ≠ 0
  · rw [if_pos h0, rd_ok (by omega), ok_bind, wr_ok (by omega), ok_bind] at h h'
    have hv : (ln.get 16 + 65536 - e) % 65536 = ln.get 16 - e := by omega
    rw [hv] at h h'
    have f1 := cN_upd ln 16 (ln.get 16 - e) 16 (by omega) (by omega)
    have f2 := kN_upd ln 16 (ln.get 16 - e) 16 (by omega) (by omega)
    simp only [Nat.sub_self, Nat.pow_zero, Nat.mul_one] at f2
    obtain ⟨ln', a1, a2, a3, a4⟩ := mlAdjust_ok e (ln.upd 16 (ln.get 16 - e)) (by simpa using hls)
      (by omega) (by omega)
    rw [a1, ok_bind] at h h'
    exact hfin ln' (by omega) h h'
  · rw [if_neg h0, ok_bind] at h h'
    exact hfin ln hcn h h'

/-- The code `makeTree` constructs depends on the frequencies of the symbols only. -/
theorem makeTree_sim {nchar : Nat} {freq bitlen code left right freq' bitlen' code' left' right' : Arr}
    (hz : TreeSizes nchar freq bitlen code left right) (hz' : TreeSizes nchar freq' bitlen' code' left' right')
    (ha : ∀ c, c < nchar → freq.get c = freq'.get c) {r r' : TreeRes}
    (h : makeTree nchar freq bitlen code left right = .ok r)
    (h' : makeTree nchar freq' bitlen' code' left' right' = .ok r') :
    r.root = r'.root ∧ (∀ c, c < nchar → r.bitlen.get c = r'.bitlen.get c) ∧
      r.freq.get r.root = r'.freq.get r'.root ∧
      ∀ c, c < nchar → freq.get c ≠ 0 → r.code.get c = r'.code.get c := by
  obtain ⟨q, q1, q2⟩ := makeTree_ok hz
  rw [h] at q1
  cases q1
  obtain ⟨q', q1', q2'⟩ := makeTree_ok hz'
  rw [h'] at q1'
  cases q1'
  have hU : usedM freq nchar = usedM freq' nchar := by
    unfold usedM
    apply Multiset.filter_congr
    intro c hc
    rw [ha c (Multiset.mem_range.mp hc)]
  have hsum : ∑ c ∈ range nchar, freq.get c = ∑ c ∈ range nchar, freq'.get c :=
    sum_congr rfl (fun c hc => ha c (mem_range.mp hc))
  by_cases hcard : (usedM freq nchar).card < 2
  · obtain ⟨s1, s2, s3, s4, s5⟩ := q2.single hcard
    obtain ⟨t1, t2, t3, t4, t5⟩ := q2'.single (by rw [← hU]; exact hcard)
    have hroot : r.root = r'.root := by
      rw [← hU] at t4
      rcases s4 with s4 | ⟨s4, s6⟩
      · rcases t4 with t4 | ⟨t4, t6⟩
        · rw [s4] at t4
          exact Multiset.singleton_inj.mp t4
        · rw [s4] at t4
          exact absurd t4 (Multiset.singleton_ne_zero _)
      · rcases t4 with t4 | ⟨t4, t6⟩
        · rw [s4] at t4
          exact absurd t4.symm (Multiset.singleton_ne_zero _)
        · rw [s6, t6]
    refine ⟨hroot, fun c hc => by rw [s1 c hc, t1 c hc], ?_, ?_⟩
    · rw [s3, t3, ← hroot, ha _ s2]
    · intro c hc hne
      have hm : c ∈ usedM freq nchar := Multiset.mem_filter.mpr ⟨Multiset.mem_range.mpr hc, hne⟩
      have : c = r.root := by
        rcases s4 with s4 | ⟨s4, _⟩
        · rw [s4] at hm; exact Multiset.mem_singleton.mp hm
        · rw [s4] at hm; exact absurd hm (Multiset.notMem_zero _)
      rw [this, s5, hroot, t5]
  · have hbit : r.root = r'.root ∧ ∀ c, c < nchar → r.bitlen.get c = r'.bitlen.get c := by
      clear q2 q2'
      obtain ⟨hpos, hle, hfs, hbs, hcs, hls, hrs⟩ := hz
      obtain ⟨_, _, hfs', hbs', hcs', hls', hrs'⟩ := hz'
      unfold makeTree at h h'
      rw [wr_ok (by simp), ok_bind] at h h'
      have hiq := mtInit_eq (freq := freq) (freq' := freq') nchar 0 0 ((Arr.mk' 511 0).upd 1 0) bitlen bitlen' (by omega)
        (by omega) (by omega) (by omega) (fun x hx => ha x (by omega))
      obtain ⟨hs, heap, b1, e1, e2, e3, e4, e5, e6⟩ := mtInit_ok nchar 0 0 ((Arr.mk' 511 0).upd 1 0) bitlen freq
        (by omega) (by simp) (by omega) (by omega) (by omega) (by simp [HM_zero, usedM]) (by intro _; simp)
      obtain ⟨hs', heap', b1', f1, f2, f3, f4, f5, f6⟩ := mtInit_ok nchar 0 0 ((Arr.mk' 511 0).upd 1 0) bitlen' freq'
        (by omega) (by simp) (by omega) (by omega) (by omega) (by simp [HM_zero, usedM]) (by intro _; simp)
      rw [e1, f1] at hiq
      simp only [Except.map, Except.ok.injEq, Prod.mk.injEq] at hiq
      obtain ⟨rfl, rfl⟩ := hiq
      rw [e1, ok_bind] at h
      rw [f1, ok_bind] at h'
      simp only [Nat.zero_add] at e4 e5 f4 f5 h h'
      have hcd := congrArg Multiset.card e4
      rw [card_HM] at hcd
      have hcle := card_usedM_le freq nchar
      rw [if_neg (by omega)] at h h'
      have hent : ∀ x ∈ HM heap hs, x < nchar := by
        intro x hx
        rw [e4] at hx
        exact Multiset.mem_range.mp (Multiset.mem_of_mem_filter hx)
      obtain ⟨heap1, a1, a2, a3⟩ := mtHeapify_ok (hs / 2) hs heap freq (by omega) (by omega)
        (fun x hx => by have := hent x hx; omega)
      have a1' : mtHeapify (hs / 2) hs heap freq' = .ok heap1 := by
        rw [← mtHeapify_eq (n := nchar) (freq := freq) (by omega) (by omega) ha (hs / 2) heap hent (by omega) (by omega)]
        exact a1
      rw [a1, ok_bind] at h
      rw [a1', ok_bind] at h'
      have hinv : MInv nchar (usedM freq nchar) freq (∑ c ∈ range nchar, freq.get c)
          ⟨hs, heap1, freq, code, 0, nchar, left, right⟩ := by
        refine ⟨⟨(usedM freq nchar).map (fun c => (c, Sh.leaf)), ?_, ?_, ?_, ?_⟩, ?_, by simp only []; omega, by simp,
          by simp only []; omega, fun _ _ => rfl, rfl, by simp only []; omega, by simp only []; omega, hls, hrs⟩
        · simp only [Multiset.map_map, Function.comp_apply, Multiset.map_id']
          rw [a3, e4]
        · intro p hp
          obtain ⟨c, hc, e⟩ := Multiset.mem_map.mp hp
          subst e
          exact .leaf _ (Multiset.mem_range.mp (Multiset.mem_of_mem_filter hc))
        · simp [Multiset.map_map, Sh.leaves, Function.comp_def]
        · simp only [Multiset.map_map, Function.comp_def]
          rw [← usedM_sum]
        · simp only [SM, Multiset.range_zero, Multiset.map_zero, zero_add]
          rw [a3, e4]
          apply Multiset.filter_eq_self.mpr
          intro c hc
          exact Multiset.mem_range.mp (Multiset.mem_of_mem_filter hc)
      obtain ⟨s, c1, c2, c3, c4, c5, c6⟩ := mtLoop_ok (hs + 1) hinv (by simp only []; omega) (by simp only []; omega)
        hcle hle hfs
      rw [c1, ok_bind] at h
      obtain ⟨s', c1', h'⟩ := bind_ok h'
      have hS : MSim nchar s s' := mtLoop_sim hcle hle hfs (hs + 1) (s' := ⟨hs, heap1, freq', code', 0, nchar, left', right'⟩)
        hinv (by simp only []; omega) ⟨rfl, rfl, rfl, rfl, ha, fun x hx => by simp only [] at hx; omega, fun x h1 h2 => by simp only [] at h2; omega,
          fun x h1 h2 => by simp only [] at h2; omega⟩ c1 c1'
      obtain ⟨z1, z2, z3⟩ := mtLoop_sizes _ _ _ _ c1
      obtain ⟨z1', z2', z3'⟩ := mtLoop_sizes _ _ _ _ c1'
      simp only [] at z1 z2 z3 z1' z2' z3'
      obtain ⟨⟨P, hP1, hP2, hP3, hP4⟩, hsort, hcount, havail, _, hfreq, hfsz, hcsz, hhs, hlsz, hrsz⟩ := c2
      rw [c3] at hP1 hsort c5
      have hH1 : HM s.heap 1 = {s.avail - 1} := by
        rw [HM_succ, HM_zero] at c5 ⊢
        simp at c5
        rw [c5]; rfl
      rw [hH1] at hP1 hsort
      obtain ⟨p, hp, hpe⟩ := (Multiset.map_eq_singleton).mp hP1
      subst hp
      have hpt := hP2 p (by simp)
      rw [hpe] at hpt
      simp only [Multiset.map_singleton, Multiset.sum_singleton] at hP3 hP4
      obtain ⟨px, pt⟩ := p
      simp only [] at *
      cases hpt with
      | leaf _ hx => simp [Sh.leaves] at hP3; omega
      | node _ l r g1 g2 gl gr =>
        have hpt : IsT s.left s.right nchar s.avail (s.avail - 1) (.node l r) := .node _ l r g1 g2 gl gr
        obtain ⟨ln, l1, l2, l3⟩ := countLeaf_ok hpt (by omega) (by omega) (nchar + 1) 0 (Arr.mk' 17 0) (by omega) rfl
          (by intro k; rw [Arr.get_mk']; omega)
        have l1' : countLeaf s'.left s'.right nchar (nchar + 1) (s'.avail - 1) 0 (Arr.mk' 17 0) = .ok ln := by
          rw [← hS.avail, ← countLeaf_eq (by omega) (by omega) (by omega) (by omega) hS.left hS.right hpt]
          exact l1
        rw [l1, ok_bind] at h
        rw [l1', ok_bind] at h'
        simp only [Arr.get_mk', Nat.zero_add] at l3
        have hlcn : cN ln.get 16 = (usedM freq nchar).card := by
          rw [cN_congr 16 (fun k _ _ => l3 k), ← hP3]
          simp only [Sh.leaves]
          rw [← l.lc_count 1 (by omega), ← r.lc_count 1 (by omega), ← cN_add]
          rfl
        obtain ⟨x1, y1, y2⟩ := l.lc_kraft 1 (by omega) (by omega)
        obtain ⟨x2, y3, y4⟩ := r.lc_kraft 1 (by omega) (by omega)
        have hlkn : kN ln.get 16 = 65536 + (x1 + x2) := by
          rw [kN_congr 16 (fun k _ _ => l3 k)]
          have : kN ((Sh.node l r).lc 0) 16 = kN (l.lc 1) 16 + kN (r.lc 1) 16 := by
            rw [← kN_add]; rfl
          rw [this, y1, y3]
          omega
        have hle16 : x1 + x2 ≤ ln.get 16 - 1 := by
          rw [l3]
          simp only [Sh.lc, Nat.zero_add]
          omega
        have hnl : ¬ (s.avail - 1 < nchar) := by omega
        have hsm : SM s.code s.si = usedM freq nchar := by
          rw [← hsort, ← Multiset.cons_zero, Multiset.filter_cons_of_neg (p := (· < nchar)) _ hnl]
          simp
        have hsi : s.si = (usedM freq nchar).card := by
          rw [← hsm, card_SM]
        obtain ⟨⟨b2, ln2⟩, m1, h⟩ := bind_ok h
        obtain ⟨⟨b2', ln2'⟩, m1', h'⟩ := bind_ok h'
        simp only [] at h h'
        have hb := makeLen_sim (N := (usedM freq nchar).card) (nchar := nchar) (by omega) (by omega)
          (fun p hp => hS.code p (by omega)) l2 (by omega) hlcn hlkn hle16 m1 m1' (fun x hx => by
            rw [e5, f5, if_pos (by omega), if_pos (by omega)])
        obtain ⟨cc, n1, h⟩ := bind_ok h
        obtain ⟨cc', n1', h'⟩ := bind_ok h'
        cases h; cases h'
        exact ⟨by simp only []; rw [hS.avail], hb⟩
    obtain ⟨hr, hb⟩ := hbit
    obtain ⟨s1, s2, s3, s4, s5, s6⟩ := q2.multi (by omega)
    obtain ⟨t1, t2, t3, t4, t5, t6⟩ := q2'.multi (by rw [← hU]; omega)
    refine ⟨hr, hb, by rw [s3, t3, hsum], ?_⟩
    intro c hc _
    have hcw : canonCode r.bitlen.get nchar c = canonCode r'.bitlen.get nchar c :=
      canonCode_congr hb hc
    rw [s6 c hc, t6 c hc, hb c hc, hcw]

end Lha
