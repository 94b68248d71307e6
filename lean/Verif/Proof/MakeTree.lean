import Mathlib.Algebra.BigOperators.Group.Finset.Basic
import Mathlib.Algebra.BigOperators.Group.Multiset.Basic
import Mathlib.Data.Multiset.Range
import Mathlib.Data.Multiset.Filter
import Verif.Model.MakeTree
import Verif.Proof.Code
/-!
# `makeTree` produces a complete canonical code for every frequency table
-/

namespace Lha

open Spec Finset

/-! ## The heap as a multiset -/

/-- Contents of `heap[1..hs]`. -/
def HM (heap : Arr) (hs : Nat) : Multiset Nat := (Multiset.range hs).map (fun p => heap.get (p + 1))

/-- Contents of `a[0..n-1]`. -/
def SM (a : Arr) (n : Nat) : Multiset Nat := (Multiset.range n).map (fun p => a.get p)

theorem HM_zero (heap : Arr) : HM heap 0 = 0 := rfl

theorem HM_succ (heap : Arr) (hs : Nat) : HM heap (hs + 1) = heap.get (hs + 1) ::ₘ HM heap hs := by
  simp [HM, Multiset.range_succ]

theorem SM_succ (a : Arr) (n : Nat) : SM a (n + 1) = a.get n ::ₘ SM a n := by
  simp [SM, Multiset.range_succ]

theorem HM_congr {a b : Arr} (hs : Nat) (h : ∀ p, 1 ≤ p → p ≤ hs → a.get p = b.get p) :
    HM a hs = HM b hs := by
  unfold HM
  apply Multiset.map_congr rfl
  intro p hp
  exact h _ (by omega) (by have := Multiset.mem_range.mp hp; omega)

theorem SM_congr {a b : Arr} (n : Nat) (h : ∀ p, p < n → a.get p = b.get p) : SM a n = SM b n := by
  unfold SM
  apply Multiset.map_congr rfl
  intro p hp
  exact h _ (Multiset.mem_range.mp hp)

theorem mem_HM {heap : Arr} {hs p : Nat} (h1 : 1 ≤ p) (h2 : p ≤ hs) : heap.get p ∈ HM heap hs := by
  unfold HM
  rw [Multiset.mem_map]
  exact ⟨p - 1, Multiset.mem_range.mpr (by omega), by rw [Nat.sub_add_cancel h1]⟩

theorem HM_upd (heap : Arr) (hs i v : Nat) (h1 : 1 ≤ i) (h2 : i ≤ hs) :
    HM (heap.upd i v) hs + {heap.get i} = HM heap hs + {v} := by
  induction hs with
  | zero => omega
  | succ n ih =>
    rw [HM_succ, HM_succ]
    by_cases hi : i = n + 1
    · subst hi
      rw [Arr.get_upd_same]
      rw [HM_congr (a := heap.upd (n + 1) v) (b := heap) n
        (fun p _ hp => Arr.get_upd_ne _ _ _ _ (by omega))]
      rw [Multiset.cons_add, Multiset.cons_add, add_comm, add_comm (HM heap n), Multiset.singleton_add,
        Multiset.singleton_add, Multiset.cons_swap]
    · rw [Arr.get_upd_ne _ _ _ _ (by omega)]
      have := ih (by omega)
      rw [Multiset.cons_add, Multiset.cons_add, this]

theorem downheapLoop_ok (f i k hs : Nat) (heap freq : Arr) (L : Multiset Nat) (h1 : 1 ≤ i) (h2 : i ≤ hs)
    (hf : hs + 2 ≤ f + i) (hsz : hs < heap.size)
    (hent : ∀ p, 1 ≤ p → p ≤ hs → heap.get p < freq.size) (hk : k < freq.size)
    (hL : HM heap hs + {k} = L + {heap.get i}) :
    ∃ heap', downheapLoop f i (2 * i) k hs heap freq = .ok heap' ∧ heap'.size = heap.size ∧
      HM heap' hs = L := by
  induction f generalizing i heap with
  | zero => omega
  | succ f ih =>
    have hfin : ∃ heap', wr heap i k = .ok heap' ∧ heap'.size = heap.size ∧ HM heap' hs = L := by
      refine ⟨_, wr_ok (by omega), rfl, ?_⟩
      have := HM_upd heap hs i k h1 h2
      rw [hL] at this
      exact add_right_cancel this
    unfold downheapLoop
    by_cases hj : 2 * i ≤ hs
    · rw [if_pos hj]
      have hcont : ∀ j, i < j → j ≤ hs → ∃ heap', (do
            let fk ← rd freq k
            let hj ← rd heap j
            let fj ← rd freq hj
            if fk ≤ fj then wr heap i k
            else do
              let heap ← wr heap i hj
              downheapLoop f j (2 * j) k hs heap freq : G Arr) = .ok heap' ∧ heap'.size = heap.size ∧
          HM heap' hs = L := by
        intro j hij hjs
        rw [rd_ok hk, ok_bind, rd_ok (by omega), ok_bind, rd_ok (hent _ (by omega) hjs), ok_bind]
        split
        · exact hfin
        · rw [wr_ok (by omega), ok_bind]
          have hu := HM_upd heap hs i (heap.get j) h1 h2
          obtain ⟨h', e1, e2, e3⟩ := ih j (heap.upd i (heap.get j)) (by omega) hjs (by omega) (by simpa using hsz)
            (by
              intro p hp1 hp2
              rw [Arr.get_upd]
              split
              · exact hent _ (by omega) hjs
              · exact hent _ hp1 hp2)
            (by
              rw [Arr.get_upd_ne _ _ _ _ (by omega)]
              apply add_right_cancel (b := {heap.get i})
              rw [add_right_comm, hu, add_right_comm, hL, add_right_comm])
          exact ⟨h', e1, by simpa using e2, e3⟩
      simp only []
      by_cases hlt : 2 * i < hs
      · rw [if_pos hlt, rd_ok (by omega), ok_bind, rd_ok (hent _ (by omega) (by omega)), ok_bind,
          rd_ok (by omega), ok_bind, rd_ok (hent _ (by omega) (by omega)), ok_bind, ok_bind]
        apply hcont <;> split <;> omega
      · rw [if_neg hlt, ok_bind]
        exact hcont _ (by omega) (by omega)
    · rw [if_neg hj]
      exact hfin

theorem downheap_ok (i hs : Nat) (heap freq : Arr) (h1 : 1 ≤ i) (h2 : i ≤ hs) (hsz : hs < heap.size)
    (hent : ∀ x ∈ HM heap hs, x < freq.size) :
    ∃ heap', downheap i hs heap freq = .ok heap' ∧ heap'.size = heap.size ∧ HM heap' hs = HM heap hs := by
  unfold downheap
  rw [rd_ok (by omega), ok_bind]
  exact downheapLoop_ok (hs + 2) i (heap.get i) hs heap freq (HM heap hs) h1 h2 (by omega) hsz
    (fun p a b => hent _ (mem_HM a b)) (hent _ (mem_HM h1 h2)) rfl

theorem mtHeapify_ok (i hs : Nat) (heap freq : Arr) (h2 : i ≤ hs) (hsz : hs < heap.size)
    (hent : ∀ x ∈ HM heap hs, x < freq.size) :
    ∃ heap', mtHeapify i hs heap freq = .ok heap' ∧ heap'.size = heap.size ∧ HM heap' hs = HM heap hs := by
  induction i generalizing heap with
  | zero => exact ⟨heap, rfl, rfl, rfl⟩
  | succ i ih =>
    obtain ⟨h', e1, e2, e3⟩ := downheap_ok (i + 1) hs heap freq (by omega) h2 hsz hent
    obtain ⟨h'', f1, f2, f3⟩ := ih h' (by omega) (by omega) (by rw [e3]; exact hent)
    refine ⟨h'', ?_, by omega, by rw [f3, e3]⟩
    unfold mtHeapify
    rw [e1, ok_bind]
    exact f1

/-! ## Collecting the used symbols -/

/-- The used symbols below `n`. -/
def usedM (freq : Arr) (n : Nat) : Multiset Nat := (Multiset.range n).filter (fun c => freq.get c ≠ 0)

theorem usedM_succ (freq : Arr) (n : Nat) :
    usedM freq (n + 1) = if freq.get n ≠ 0 then n ::ₘ usedM freq n else usedM freq n := by
  unfold usedM
  rw [Multiset.range_succ]
  split
  · rw [Multiset.filter_cons_of_pos _ (by assumption)]
  · rw [Multiset.filter_cons_of_neg _ (by assumption)]

theorem card_usedM_le (freq : Arr) (n : Nat) : (usedM freq n).card ≤ n := by
  have := Multiset.card_le_card (Multiset.filter_le (fun c => freq.get c ≠ 0) (Multiset.range n))
  rw [Multiset.card_range] at this
  exact this

theorem card_HM (heap : Arr) (hs : Nat) : (HM heap hs).card = hs := by simp [HM]
theorem card_SM (a : Arr) (n : Nat) : (SM a n).card = n := by simp [SM]

theorem mtInit_ok (n i hs : Nat) (heap bitlen freq : Arr) (hn : i + n ≤ 510) (hsz : heap.size = 511)
    (hb : i + n ≤ bitlen.size) (hf : i + n ≤ freq.size) (hhs : hs ≤ i)
    (hH : HM heap hs = usedM freq i) (h0 : hs = 0 → heap.get 1 = 0) :
    ∃ hs' heap' bitlen', mtInit n i hs heap bitlen freq = .ok (hs', heap', bitlen') ∧
      heap'.size = 511 ∧ bitlen'.size = bitlen.size ∧ HM heap' hs' = usedM freq (i + n) ∧
      (∀ j, bitlen'.get j = if i ≤ j ∧ j < i + n then 0 else bitlen.get j) ∧
      (hs' = 0 → heap'.get 1 = 0) := by
  induction n generalizing i hs heap bitlen with
  | zero => exact ⟨hs, heap, bitlen, rfl, hsz, rfl, hH, fun j => by rw [if_neg]; omega, h0⟩
  | succ n ih =>
    unfold mtInit
    rw [wr_ok (by omega), ok_bind, rd_ok (by omega), ok_bind]
    have hbit : ∀ (b' : Arr), (∀ j, b'.get j = if i + 1 ≤ j ∧ j < i + 1 + n then 0 else (bitlen.upd i 0).get j) →
        ∀ j, b'.get j = if i ≤ j ∧ j < i + (n + 1) then 0 else bitlen.get j := by
      intro b' h j
      rw [h j, Arr.get_upd]
      by_cases hj : j = i
      · subst hj
        rw [if_neg (by omega), if_pos rfl, if_pos (by omega)]
      · rw [if_neg hj]
        by_cases hc : i + 1 ≤ j ∧ j < i + 1 + n
        · rw [if_pos hc, if_pos (by omega)]
        · rw [if_neg hc, if_neg (by omega)]
    by_cases hfi : freq.get i ≠ 0
    · rw [if_pos hfi, wr_ok (by omega), ok_bind]
      obtain ⟨a, b, c, e1, e2, e3, e4, e5, e6⟩ := ih (i + 1) (hs + 1) (heap.upd (hs + 1) i) (bitlen.upd i 0)
        (by omega) (by simpa using hsz) (by simp; omega) (by omega) (by omega)
        (by
          rw [HM_succ, Arr.get_upd_same, usedM_succ, if_pos hfi, ← hH]
          rw [HM_congr (a := heap.upd (hs + 1) i) (b := heap) hs
            (fun p _ hp => Arr.get_upd_ne _ _ _ _ (by omega))])
        (by omega)
      exact ⟨a, b, c, e1, e2, by simpa using e3, by rw [e4]; congr 1; omega, hbit c e5, e6⟩
    · rw [if_neg hfi]
      obtain ⟨a, b, c, e1, e2, e3, e4, e5, e6⟩ := ih (i + 1) hs heap (bitlen.upd i 0)
        (by omega) hsz (by simp; omega) (by omega) (by omega)
        (by rw [usedM_succ, if_neg hfi, hH]) h0
      exact ⟨a, b, c, e1, e2, by simpa using e3, by rw [e4]; congr 1; omega, hbit c e5, e6⟩

/-! ## The forest -/

/-- Shape of a code tree. -/
inductive Sh
  | leaf
  | node (l r : Sh)
  deriving DecidableEq

/-- Number of leaves. -/
def Sh.leaves : Sh → Nat
  | leaf => 1
  | node l r => l.leaves + r.leaves

theorem Sh.leaves_pos (t : Sh) : 0 < t.leaves := by
  induction t with
  | leaf => simp [leaves]
  | node l r h1 h2 => simp only [leaves]; omega

/-- Node `x` of the `left`/`right` arrays is the root of a tree of shape `t` whose internal nodes are
in `[nchar, avail)`. -/
inductive IsT (left right : Arr) (nchar avail : Nat) : Nat → Sh → Prop
  | leaf (x : Nat) (h : x < nchar) : IsT left right nchar avail x .leaf
  | node (x : Nat) (l r : Sh) (h1 : nchar ≤ x) (h2 : x < avail)
      (hl : IsT left right nchar avail (left.get x) l)
      (hr : IsT left right nchar avail (right.get x) r) : IsT left right nchar avail x (.node l r)

theorem IsT.lt {left right : Arr} {nchar avail x : Nat} {t : Sh} (h : IsT left right nchar avail x t)
    (ha : nchar ≤ avail) : x < avail := by
  cases h <;> omega

theorem IsT.grow {left right : Arr} {nchar avail x : Nat} {t : Sh} (a b : Nat)
    (h : IsT left right nchar avail x t) :
    IsT (left.upd avail a) (right.upd avail b) nchar (avail + 1) x t := by
  induction h with
  | leaf x h => exact .leaf x h
  | node x l r h1 h2 _ _ ihl ihr =>
    refine .node x l r h1 (by omega) ?_ ?_
    · rw [Arr.get_upd_ne _ _ _ _ (by omega)]; exact ihl
    · rw [Arr.get_upd_ne _ _ _ _ (by omega)]; exact ihr

/-- Loop invariant of the tree construction: `N` used symbols `U`, original frequencies `F`. -/
structure MInv (nchar : Nat) (U : Multiset Nat) (F : Arr) (total : Nat) (s : MT) : Prop where
  forest : ∃ P : Multiset (Nat × Sh), P.map Prod.fst = HM s.heap s.hs ∧
    (∀ p ∈ P, IsT s.left s.right nchar s.avail p.1 p.2) ∧
    (P.map (fun p => p.2.leaves)).sum = U.card ∧
    (P.map (fun p => s.freq.get p.1)).sum % 65536 = total % 65536
  sort : SM s.code s.si + (HM s.heap s.hs).filter (· < nchar) = U
  count : s.avail + s.hs = nchar + U.card
  avail : nchar ≤ s.avail
  hs : 1 ≤ s.hs
  freq : ∀ c, c < nchar → s.freq.get c = F.get c
  fsize : s.freq.size = F.size
  csize : U.card ≤ s.code.size
  hsize : s.heap.size = 511
  lsize : 2 * nchar ≤ s.left.size + 1
  rsize : 2 * nchar ≤ s.right.size + 1

theorem mtSort_ok (nchar i si : Nat) (code : Arr) (M U : Multiset Nat) (hU : U.card ≤ code.size)
    (h : SM code si + (i ::ₘ M).filter (· < nchar) = U) :
    ∃ si' code', mtSort nchar i si code = .ok (si', code') ∧ code'.size = code.size ∧
      SM code' si' + M.filter (· < nchar) = U := by
  unfold mtSort
  by_cases hi : i < nchar
  · rw [if_pos hi]
    rw [Multiset.filter_cons_of_pos (p := (· < nchar)) _ hi] at h
    have hc := congrArg Multiset.card h
    rw [Multiset.card_add, Multiset.card_cons, card_SM] at hc
    rw [wr_ok (by omega)]
    refine ⟨_, _, rfl, rfl, ?_⟩
    rw [SM_succ, Arr.get_upd_same, SM_congr (a := code.upd si i) (b := code) si
      (fun p hp => Arr.get_upd_ne _ _ _ _ (by omega)), ← h]
    rw [Multiset.cons_add, Multiset.add_cons]
  · rw [if_neg hi]
    rw [Multiset.filter_cons_of_neg (p := (· < nchar)) _ hi] at h
    exact ⟨_, _, rfl, rfl, h⟩

theorem mtStep_ok {nchar : Nat} {U : Multiset Nat} {F : Arr} {total : Nat} {s : MT}
    (h : MInv nchar U F total s) (h2 : 2 ≤ s.hs) (hU : U.card ≤ nchar) (hn : nchar ≤ 510)
    (hF : 2 * nchar ≤ F.size + 1) :
    ∃ s', mtStep nchar s = .ok s' ∧ MInv nchar U F total s' ∧ s'.hs = s.hs - 1 ∧
      s'.avail = s.avail + 1 ∧ s.avail ∈ HM s'.heap s'.hs ∧ s'.freq.get s.avail < 65536 := by
  obtain ⟨⟨P, hP1, hP2, hP3, hP4⟩, hsort, hcount, havail, _, hfreq, hfs, hcs, hhs, hls, hrs⟩ := h
  have hhs2 : s.hs ≤ U.card := by omega
  have hlt : ∀ x ∈ HM s.heap s.hs, x < s.avail := by
    intro x hx
    rw [← hP1, Multiset.mem_map] at hx
    obtain ⟨p, hp, e⟩ := hx
    rw [← e]
    exact (hP2 p hp).lt havail
  have hfsz : s.avail < F.size := by omega
  -- remove i
  have hH : HM s.heap s.hs = s.heap.get 1 ::ₘ HM (s.heap.upd 1 (s.heap.get s.hs)) (s.hs - 1) := by
    have e1 := HM_upd s.heap (s.hs - 1) 1 (s.heap.get s.hs) (by omega) (by omega)
    have e2 := HM_succ s.heap (s.hs - 1)
    rw [Nat.sub_add_cancel (by omega)] at e2
    rw [e2, ← Multiset.singleton_add, ← Multiset.singleton_add, add_comm, ← e1, add_comm]
  have hent1 : ∀ x ∈ HM (s.heap.upd 1 (s.heap.get s.hs)) (s.hs - 1), x < s.freq.size := by
    intro x hx
    have := hlt x (by rw [hH]; exact Multiset.mem_cons_of_mem hx)
    omega
  obtain ⟨heap2, d1, d2, d3⟩ := downheap_ok 1 (s.hs - 1) (s.heap.upd 1 (s.heap.get s.hs)) s.freq
    (by omega) (by omega) (by simp; omega) hent1
  rw [← d3] at hH
  -- replace j by the new root
  have hjm : heap2.get 1 ∈ HM heap2 (s.hs - 1) := mem_HM (by omega) (by omega)
  obtain ⟨H2, hH2⟩ := Multiset.exists_cons_of_mem hjm
  have hH3 : HM (heap2.upd 1 s.avail) (s.hs - 1) = s.avail ::ₘ H2 := by
    have e1 := HM_upd heap2 (s.hs - 1) 1 s.avail (by omega) (by omega)
    rw [hH2] at e1
    apply add_right_cancel (b := {heap2.get 1})
    rw [e1, ← Multiset.singleton_add, ← Multiset.singleton_add, add_comm, ← add_assoc, add_assoc,
      add_assoc, add_comm {heap2.get 1} H2]
  rw [hH2] at hH
  have hi : s.heap.get 1 < s.avail := hlt _ (by rw [hH]; exact Multiset.mem_cons_self _ _)
  have hj : heap2.get 1 < s.avail :=
    hlt _ (by rw [hH]; exact Multiset.mem_cons_of_mem (Multiset.mem_cons_self _ _))
  obtain ⟨heap4, d4, d5, d6⟩ := downheap_ok 1 (s.hs - 1) (heap2.upd 1 s.avail)
    (s.freq.upd s.avail ((s.freq.get (s.heap.get 1) + s.freq.get (heap2.get 1)) % 65536))
    (by omega) (by omega) (by simp at *; omega) (by
      intro x hx
      rw [hH3] at hx
      rcases Multiset.mem_cons.mp hx with e | e
      · simp; omega
      · have := hlt x (by rw [hH]; exact Multiset.mem_cons_of_mem (Multiset.mem_cons_of_mem e))
        simp; omega)
  -- sort area
  rw [hH] at hsort
  obtain ⟨si1, code1, q1, q2, q3⟩ := mtSort_ok nchar _ _ _ _ _ hcs hsort
  obtain ⟨si2, code2, q4, q5, q6⟩ := mtSort_ok nchar _ _ _ _ _ (by omega) q3
  -- forest
  rw [hH] at hP1
  obtain ⟨p, hp, hp1, hp2⟩ := (Multiset.map_eq_cons _ _ _ _).mpr hP1
  obtain ⟨q, hq, hq1, hq2⟩ := (Multiset.map_eq_cons _ _ _ _).mpr hp2
  generalize hP' : P.erase p = P1 at *
  have hPe : P = p ::ₘ P1 := by rw [← hP', Multiset.cons_erase hp]
  generalize hP'' : P1.erase q = P2 at *
  have hPe2 : P1 = q ::ₘ P2 := by rw [← hP'', Multiset.cons_erase hq]
  subst hPe2
  subst hPe
  have hpt := hP2 p (Multiset.mem_cons_self _ _)
  have hqt := hP2 q (Multiset.mem_cons_of_mem (Multiset.mem_cons_self _ _))
  have hrt : ∀ r ∈ P2, IsT s.left s.right nchar s.avail r.1 r.2 := fun r hr =>
    hP2 r (Multiset.mem_cons_of_mem (Multiset.mem_cons_of_mem hr))
  refine ⟨⟨s.hs - 1, heap4, s.freq.upd s.avail ((s.freq.get (s.heap.get 1) + s.freq.get (heap2.get 1)) % 65536),
    code2, si2, s.avail + 1, s.left.upd s.avail (s.heap.get 1), s.right.upd s.avail (heap2.get 1)⟩,
    ?_, ?_, rfl, rfl, ?_, ?_⟩
  · unfold mtStep
    rw [rd_ok (by omega), ok_bind, q1, ok_bind]
    simp only []
    rw [rd_ok (by omega), ok_bind, wr_ok (by omega), ok_bind, d1, ok_bind,
      rd_ok (by rw [d2]; simp; omega), ok_bind, q4, ok_bind]
    simp only []
    rw [rd_ok (by omega), ok_bind, rd_ok (by omega), ok_bind, wr_ok (by omega), ok_bind,
      wr_ok (by rw [d2]; simp; omega), ok_bind, d4, ok_bind, wr_ok (by omega), ok_bind,
      wr_ok (by omega), ok_bind]
  · refine ⟨⟨(s.avail, .node p.2 q.2) ::ₘ P2, ?_, ?_, ?_, ?_⟩, ?_, ?_, ?_, ?_, ?_, ?_, ?_, ?_, ?_, ?_⟩
    · simp only [Multiset.map_cons]
      rw [d6, hH3, hq2]
    · intro r hr
      rcases Multiset.mem_cons.mp hr with e | e
      · subst e
        refine .node _ _ _ havail (by simp) ?_ ?_
        · simp only [Arr.get_upd_same]
          rw [← hp1]; exact hpt.grow _ _
        · simp only [Arr.get_upd_same]
          rw [← hq1]; exact hqt.grow _ _
      · exact (hrt r e).grow _ _
    · simp only [Multiset.map_cons, Multiset.sum_cons] at hP3 ⊢
      rw [← hP3, Sh.leaves]
      omega
    · simp only [Multiset.map_cons, Multiset.sum_cons, Arr.get_upd_same] at hP4 ⊢
      rw [Multiset.map_congr rfl (g := fun p : Nat × Sh => s.freq.get p.1) (by
        intro r hr
        have := (hrt r hr).lt havail
        exact Arr.get_upd_ne _ _ _ _ (by omega))]
      rw [← hP4, hp1, hq1]
      omega
    · simp only []
      rw [d6, hH3, Multiset.filter_cons_of_neg (p := (· < nchar)) _ (by omega)]
      exact q6
    · simp only []; omega
    · simp only []; omega
    · simp only []; omega
    · intro c hc
      simp only []
      rw [Arr.get_upd_ne _ _ _ _ (by omega)]
      exact hfreq c hc
    · simpa using hfs
    · simp only []; omega
    · simp only []; rw [d5]; simp; rw [d2]; simpa using hhs
    · simpa using hls
    · simpa using hrs
  · simp only []
    rw [d6, hH3]
    exact Multiset.mem_cons_self _ _
  · simp only [Arr.get_upd_same]
    omega

theorem mtLoop_ok {nchar : Nat} {U : Multiset Nat} {F : Arr} {total : Nat} (f : Nat) {s : MT}
    (h : MInv nchar U F total s) (h2 : 2 ≤ s.hs) (hf : s.hs ≤ f) (hU : U.card ≤ nchar) (hn : nchar ≤ 510)
    (hF : 2 * nchar ≤ F.size + 1) :
    ∃ s', mtLoop nchar f s = .ok s' ∧ MInv nchar U F total s' ∧ s'.hs = 1 ∧ s'.avail ≠ 0 ∧
      s'.avail - 1 ∈ HM s'.heap s'.hs ∧ s'.freq.get (s'.avail - 1) < 65536 := by
  induction f generalizing s with
  | zero => omega
  | succ f ih =>
    obtain ⟨s1, e1, e2, e3, e4, e5, e6⟩ := mtStep_ok h h2 hU hn hF
    unfold mtLoop
    rw [e1, ok_bind]
    by_cases hle : s1.hs ≤ 1
    · rw [if_pos hle]
      refine ⟨s1, rfl, e2, by have := e2.hs; omega, by omega, ?_, ?_⟩ <;> rw [e4] <;> simpa
    · rw [if_neg hle]
      exact ih e2 (by omega) (by omega)

end Lha
