import Verif.Proof.MakeLen
/-!
# The heap of `makeTree` is a heap
-/

namespace Lha

/-- No parent from `lo` on has a larger frequency than its children. -/
def HO (freq heap : Arr) (lo hs : Nat) : Prop :=
  ∀ p c, lo ≤ p → (c = 2 * p ∨ c = 2 * p + 1) → c ≤ hs → freq.get (heap.get p) ≤ freq.get (heap.get c)

/-- The same with a hole at `i`, into which something of frequency `fk` is to be put. -/
structure Hole (freq heap : Arr) (lo hs i fk : Nat) : Prop where
  away : ∀ p c, lo ≤ p → (c = 2 * p ∨ c = 2 * p + 1) → c ≤ hs → p ≠ i → c ≠ i →
    freq.get (heap.get p) ≤ freq.get (heap.get c)
  up : ∀ p, lo ≤ p → (i = 2 * p ∨ i = 2 * p + 1) → freq.get (heap.get p) ≤ fk
  over : ∀ p c, lo ≤ p → (i = 2 * p ∨ i = 2 * p + 1) → (c = 2 * i ∨ c = 2 * i + 1) → c ≤ hs →
    freq.get (heap.get p) ≤ freq.get (heap.get c)

theorem Hole.fill {freq heap : Arr} {lo hs i k : Nat} (h : Hole freq heap lo hs i (freq.get k)) (hlo : 1 ≤ lo)
    (hc : ∀ c, (c = 2 * i ∨ c = 2 * i + 1) → c ≤ hs → freq.get k ≤ freq.get (heap.get c)) :
    HO freq (heap.upd i k) lo hs := by
  intro p c hp hpc hcs
  rw [Arr.get_upd, Arr.get_upd]
  by_cases hpi : p = i
  · subst hpi
    rw [if_pos rfl, if_neg (by omega)]
    exact hc c hpc hcs
  · rw [if_neg hpi]
    by_cases hci : c = i
    · rw [if_pos hci]
      exact h.up p hp (hci ▸ hpc)
    · rw [if_neg hci]
      exact h.away p c hp hpc hcs hpi hci

theorem Hole.sink {freq heap : Arr} {lo hs i j fk : Nat} (h : Hole freq heap lo hs i fk) (hlo : 1 ≤ lo) (hil : lo ≤ i)
    (hj : j = 2 * i ∨ j = 2 * i + 1) (hjs : j ≤ hs)
    (hmin : ∀ c, (c = 2 * i ∨ c = 2 * i + 1) → c ≤ hs → freq.get (heap.get j) ≤ freq.get (heap.get c))
    (hfk : freq.get (heap.get j) ≤ fk) : Hole freq (heap.upd i (heap.get j)) lo hs j fk := by
  refine ⟨?_, ?_, ?_⟩
  · intro p c hp hpc hcs hpj hcj
    rw [Arr.get_upd, Arr.get_upd]
    by_cases hpi : p = i
    · subst hpi
      rw [if_pos rfl, if_neg (by omega)]
      exact hmin c hpc hcs
    · rw [if_neg hpi]
      by_cases hci : c = i
      · rw [if_pos hci]
        exact h.over p j hp (hci ▸ hpc) hj hjs
      · rw [if_neg hci]
        exact h.away p c hp hpc hcs hpi hci
  · intro p hp hpj
    have : p = i := by omega
    subst this
    rw [Arr.get_upd_same]
    exact hfk
  · intro p c hp hpj hc hcs
    have : p = i := by omega
    subst this
    rw [Arr.get_upd_same, Arr.get_upd_ne _ _ _ _ (by omega)]
    exact h.away j c (by omega) hc hcs (by omega) (by omega)

theorem downheapLoop_heap (f i k hs lo : Nat) (heap freq : Arr) (hlo : 1 ≤ lo) (hil : lo ≤ i) (h2 : i ≤ hs)
    (hsz : hs < heap.size) (hent : ∀ p, 1 ≤ p → p ≤ hs → heap.get p < freq.size) (hk : k < freq.size)
    (h : Hole freq heap lo hs i (freq.get k)) {heap' : Arr}
    (hr : downheapLoop f i (2 * i) k hs heap freq = .ok heap') : HO freq heap' lo hs := by
  induction f generalizing i heap with
  | zero => cases hr
  | succ f ih =>
    unfold downheapLoop at hr
    by_cases hj : 2 * i ≤ hs
    · rw [if_pos hj] at hr
      have hcont : ∀ j, (j = 2 * i ∨ j = 2 * i + 1) → j ≤ hs →
          (∀ c, (c = 2 * i ∨ c = 2 * i + 1) → c ≤ hs → freq.get (heap.get j) ≤ freq.get (heap.get c)) →
          (do
            let fk ← rd freq k
            let hj ← rd heap j
            let fj ← rd freq hj
            if fk ≤ fj then wr heap i k
            else do
              let heap ← wr heap i hj
              downheapLoop f j (2 * j) k hs heap freq : G Arr) = .ok heap' → HO freq heap' lo hs := by
        intro j hij hjs hmin hr
        rw [rd_ok hk, ok_bind, rd_ok (by omega), ok_bind, rd_ok (hent _ (by omega) hjs), ok_bind] at hr
        split at hr
        · rename_i hle
          rw [wr_ok (by omega)] at hr
          cases hr
          exact h.fill hlo (fun c a b => Nat.le_trans hle (hmin c a b))
        · rename_i hle
          rw [wr_ok (by omega), ok_bind] at hr
          exact ih j (heap.upd i (heap.get j)) (by omega) hjs (by simpa using hsz)
            (by
              intro p hp1 hp2
              rw [Arr.get_upd]
              split
              · exact hent _ (by omega) hjs
              · exact hent _ hp1 hp2)
            (h.sink hlo hil hij hjs hmin (by omega)) hr
      simp only [] at hr
      by_cases hlt : 2 * i < hs
      · rw [if_pos hlt, rd_ok (by omega), ok_bind, rd_ok (hent _ (by omega) (by omega)), ok_bind,
          rd_ok (by omega), ok_bind, rd_ok (hent _ (by omega) (by omega)), ok_bind, ok_bind] at hr
        refine hcont _ ?_ ?_ ?_ hr
        · split <;> omega
        · split <;> omega
        · intro c hc hcs
          split
          · rcases hc with e | e <;> subst e <;> omega
          · rcases hc with e | e <;> subst e <;> omega
      · rw [if_neg hlt, ok_bind] at hr
        refine hcont _ (Or.inl rfl) (by omega) ?_ hr
        intro c hc hcs
        have : c = 2 * i := by omega
        rw [this]
    · rw [if_neg hj, wr_ok (by omega)] at hr
      cases hr
      exact h.fill hlo (fun c a b => by omega)

theorem HO.hole {freq heap : Arr} {i hs : Nat} (h : HO freq heap (i + 1) hs) (fk : Nat) (hi : 1 ≤ i) :
    Hole freq heap i hs i fk :=
  ⟨fun p c hp hpc hcs hpi _ => h p c (by omega) hpc hcs, fun p hp hpi => by omega, fun p c hp hpi _ _ => by omega⟩

theorem downheap_heap {i hs : Nat} {heap freq heap' : Arr} (h1 : 1 ≤ i) (h2 : i ≤ hs) (hsz : hs < heap.size)
    (hent : ∀ x ∈ HM heap hs, x < freq.size) (h : HO freq heap (i + 1) hs)
    (hr : downheap i hs heap freq = .ok heap') : HO freq heap' i hs := by
  unfold downheap at hr
  rw [rd_ok (by omega), ok_bind] at hr
  exact downheapLoop_heap (hs + 2) i (heap.get i) hs i heap freq h1 (Nat.le_refl _) h2 hsz
    (fun p a b => hent _ (mem_HM a b)) (hent _ (mem_HM h1 h2)) (h.hole _ h1) hr

theorem mtHeapify_heap (i hs : Nat) (heap freq : Arr) (h2 : i ≤ hs) (hsz : hs < heap.size)
    (hent : ∀ x ∈ HM heap hs, x < freq.size) (h : HO freq heap (i + 1) hs) {heap' : Arr}
    (hr : mtHeapify i hs heap freq = .ok heap') : HO freq heap' 1 hs := by
  induction i generalizing heap with
  | zero => cases hr; exact h
  | succ i ih =>
    obtain ⟨h', e1, e2, e3⟩ := downheap_ok (i + 1) hs heap freq (by omega) h2 hsz hent
    unfold mtHeapify at hr
    rw [e1, ok_bind] at hr
    exact ih h' (by omega) (by omega) (by rw [e3]; exact hent)
      (downheap_heap (by omega) h2 hsz hent h e1) hr

theorem HO.leaves {freq heap : Arr} {hs : Nat} : HO freq heap (hs / 2 + 1) hs := by
  intro p c hp hpc hcs
  omega

/-- The first element of a heap is the smallest. -/
theorem HO.first {freq heap : Arr} {hs : Nat} (h : HO freq heap 1 hs) (p : Nat) (hp : 1 ≤ p) (hps : p ≤ hs) :
    freq.get (heap.get 1) ≤ freq.get (heap.get p) := by
  induction p using Nat.strongRecOn with
  | _ p ih =>
    by_cases h1 : p = 1
    · subst h1; exact Nat.le_refl _
    · have a := ih (p / 2) (by omega) (by omega) (by omega)
      have b := h (p / 2) p (by omega) (by omega) hps
      omega

theorem HO.first_mem {freq heap : Arr} {hs : Nat} (h : HO freq heap 1 hs) :
    ∀ x ∈ HM heap hs, freq.get (heap.get 1) ≤ freq.get x := by
  intro x hx
  unfold HM at hx
  obtain ⟨p, hp, rfl⟩ := Multiset.mem_map.mp hx
  exact h.first (p + 1) (by omega) (by have := Multiset.mem_range.mp hp; omega)

end Lha
