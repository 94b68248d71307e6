import Verif.Proof.PtLen
/-!
# Transmission of the letter/length code (`countTFreq`, `writeCLen` / `readCLen`)
-/

namespace Lha

open Spec Finset

theorem incr_ok {a : Arr} {i d : Nat} (h : i < a.size) (hv : a.get i + d < 65536) :
    incr a i d = .ok (a.upd i (a.get i + d)) := by
  unfold incr
  rw [rd_ok h, ok_bind, wr_ok h, Nat.mod_eq_of_lt hv]

theorem zeroRun_ok (a : Arr) (n : Nat) (hn : n ≤ a.size) : ∀ f i, i ≤ n → 
    ∃ j, zeroRun a n f i = .ok j ∧ i ≤ j ∧ j ≤ n ∧ ∀ x, i ≤ x → x < j → a.get x = 0 := by
  intro f
  induction f with
  | zero => intro i hi; exact ⟨i, rfl, by omega, hi, by omega⟩
  | succ f ih =>
    intro i hi
    unfold zeroRun
    by_cases h : i < n
    · rw [if_pos h, rd_ok (by omega), ok_bind]
      by_cases hz : a.get i = 0
      · rw [if_pos hz]
        obtain ⟨j, j1, j2, j3, j4⟩ := ih (i + 1) (by omega)
        refine ⟨j, j1, by omega, j3, ?_⟩
        intro x h1 h2
        by_cases hx : x = i
        · rw [hx, hz]
        · exact j4 x (by omega) h2
      · rw [if_neg hz]
        exact ⟨i, rfl, by omega, by omega, by omega⟩
    · rw [if_neg h]
      exact ⟨i, rfl, by omega, hi, by omega⟩

/-- Effect of counting on the frequencies: they grow by at most `m`. -/
structure Grow (m : Nat) (a b : Arr) : Prop where
  size : b.size = a.size
  mono : ∀ x, a.get x ≤ b.get x
  bound : ∀ x, b.get x ≤ a.get x + m

theorem Grow.trans {m k : Nat} {a b c : Arr} (h : Grow m a b) (h' : Grow k b c) : Grow (m + k) a c := by
  refine ⟨by rw [h'.size, h.size], fun x => Nat.le_trans (h.mono x) (h'.mono x), ?_⟩
  intro x
  have := h.bound x
  have := h'.bound x
  omega

theorem Grow.le {m k : Nat} {a b : Arr} (h : Grow m a b) (hk : m ≤ k) : Grow k a b :=
  ⟨h.size, h.mono, fun x => by have := h.bound x; omega⟩

theorem Grow.nz {m : Nat} {a b : Arr} (h : Grow m a b) {x : Nat} (hx : a.get x ≠ 0) : b.get x ≠ 0 := by
  have := h.mono x
  omega

theorem incr_grow {a : Arr} {i d : Nat} (h : i < a.size) (hv : a.get i + d < 65536) (hd : 1 ≤ d) :
    ∃ b, incr a i d = .ok b ∧ Grow d a b ∧ b.get i ≠ 0 ∧ ∀ x, x ≠ i → b.get x = a.get x := by
  refine ⟨_, incr_ok h hv, ⟨by simp, ?_, ?_⟩, by rw [Arr.get_upd_same]; omega,
    fun x hx => Arr.get_upd_ne _ _ _ _ hx⟩
  · intro x
    by_cases hx : x = i
    · subst hx; rw [Arr.get_upd_same]; omega
    · rw [Arr.get_upd_ne _ _ _ _ hx]
  · intro x
    by_cases hx : x = i
    · subst hx; rw [Arr.get_upd_same]
    · rw [Arr.get_upd_ne _ _ _ _ hx]; omega

/-! ## Reading one symbol of the alphabet of lengths -/

theorem rclSym_ok {ptTable ptLen left right : Arr} {c : Nat}
    (hls : left.size = 1019) (hrs : right.size = 1019) (hpl : ptLen.size = 128)
    (h : Lookup ptLen.get 19 8 ptTable left right c) :
    Gets (rclSym ptTable ptLen left right) (codeword ptLen.get 19 c) c := by
  intro r S T hr
  have hc := h.1
  unfold rclSym
  rw [peekbits_spec hr (by omega), rd_ok (by rw [h.2.1]; exact pv_lt _ _), ok_bind]
  have hcont : ∃ r', (do
      let l ← rd ptLen c
      let r ← fillbuf l r
      .ok (c, r) : G (Nat × BR)) = .ok (c, r') ∧ RRep r' S T := by
    rw [rd_ok (by omega), ok_bind]
    obtain ⟨r', f1, f2⟩ := fillbuf_spec (n := ptLen.get c) hr
    rw [f1, ok_bind]
    rw [List.drop_left' (codeword_length _ _ _)] at f2
    exact ⟨r', rfl, f2⟩
  by_cases hs : ptLen.get c ≤ 8
  · rw [lookup_direct h (by omega) hs, if_neg (by omega), ok_bind]
    exact hcont
  · obtain ⟨l1, l2, _⟩ := lookup_long h (by omega) (by omega) (by omega) (by omega) S
    rw [if_pos l1, hr.buf]
    rw [show (2 : Nat) ^ (15 - 8) = 128 by rfl] at l2
    rw [l2, ok_bind]
    exact hcont

/-- One announced run of zeros. -/
inductive ZItem : Nat → Nat → List Bool → Prop
  | one : ZItem 0 1 []
  | short (m : Nat) (h : 3 ≤ m) (h' : m ≤ 18) : ZItem 1 m (bits 4 (m - 3))
  | long (m : Nat) (h : 20 ≤ m) (h' : m ≤ 531) : ZItem 2 m (bits 9 (m - 20))

theorem rclRun_ok {c m : Nat} {B : List Bool} (h : ZItem c m B) : Gets (rclRun c) B m := by
  intro r S T hr
  unfold rclRun
  cases h with
  | one => rw [if_pos rfl]; exact ⟨r, rfl, hr⟩
  | short h h' =>
    rw [if_neg (by omega), if_pos rfl]
    obtain ⟨r', g1, g2⟩ := Gets.bits 4 (m - 3) (by omega) (by omega) r S T hr
    rw [g1, ok_bind]
    simp only []
    rw [show m - 3 + 3 = m by omega]
    exact ⟨r', rfl, g2⟩
  | long h h' =>
    rw [if_neg (by omega), if_neg (by omega)]
    obtain ⟨r', g1, g2⟩ := Gets.bits 9 (m - 20) (by omega) (by omega) r S T hr
    rw [g1, ok_bind]
    simp only []
    rw [show m - 20 + 20 = m by omega]
    exact ⟨r', rfl, g2⟩

/-- One iteration of the reading loop on a run of zeros. -/
theorem rcl_zero {ptTable ptLen left right : Arr} {n c m : Nat} {C B : List Bool}
    (hsym : Gets (rclSym ptTable ptLen left right) C c) (hz : ZItem c m B) (g i : Nat) (q : Arr) (r : BR)
    (S : List Bool) (T : List Nat) (hi : i < n) (hq : i + m ≤ q.size) (hr : RRep r (C ++ (B ++ S)) T) :
    ∃ q' r', rclLoop ptTable ptLen left right n (g + 1) i q r =
        rclLoop ptTable ptLen left right n g (i + m) q' r' ∧ q'.size = q.size ∧
      (∀ x, q'.get x = if i ≤ x ∧ x < i + m then 0 else q.get x) ∧ RRep r' S T := by
  obtain ⟨r1, a1, a2⟩ := hsym r _ T hr
  obtain ⟨r2, b1, b2⟩ := rclRun_ok hz r1 S T a2
  obtain ⟨q', c1, c2, c3⟩ := fillRange_ok 0 m i q hq
  refine ⟨q', r2, ?_, c2, c3, b2⟩
  have hc2 : c ≤ 2 := by cases hz <;> omega
  rw [rclLoop]
  rw [if_pos hi, a1, ok_bind]
  simp only []
  rw [if_pos hc2, b1, ok_bind]
  simp only []
  rw [c1, ok_bind]

/-- What is needed to write and later to read items. -/
def itemBits (cw : Nat → List Bool) (it : LenItem) : List Bool := cw it.sym ++ it.extra

/-- A whole run of zeros: counting and writing. -/
theorem run_ok (count : Nat) (hc : 1 ≤ count) (hc2 : count ≤ 510) (tF : Arr) (hs : tF.size = 37)
    (hb : ∀ x, x < 19 → tF.get x ≤ 1000) :
    ∃ tF', ctfRun count tF = .ok tF' ∧ Grow count tF tF' ∧ ∃ items : List LenItem,
      (∀ it ∈ items, it.Ok ∧ it.sym < 19 ∧ tF'.get it.sym ≠ 0) ∧ items.flatMap LenItem.lens = List.replicate count 0 ∧
    ∀ (ptLen ptCode : Arr) (cw : Nat → List Bool),
      (∀ c, c < 19 → tF'.get c ≠ 0 → Puts (putSym ptLen ptCode c) (cw c)) →
      Puts (wclRun ptLen ptCode count) (items.flatMap (itemBits cw)) := by
  unfold ctfRun wclRun
  by_cases h2 : count ≤ 2
  · rw [if_pos h2]
    obtain ⟨tF', a1, a2, a3, _⟩ := incr_grow (a := tF) (i := 0) (d := count) (by omega)
      (by have := hb 0 (by omega); omega) hc
    refine ⟨tF', a1, a2, ?_⟩
    by_cases h1 : count = 1
    · subst h1
      refine ⟨[.zero], by simpa [LenItem.Ok, LenItem.sym] using a3, rfl, ?_⟩
      intro ptLen ptCode cw hput
      simp only [if_pos h2]
      have := (hput 0 (by omega) a3).bind Puts.nil
      simpa [putZeros, itemBits, LenItem.sym, LenItem.extra] using this
    · have h2' : count = 2 := by omega
      subst h2'
      refine ⟨[.zero, .zero], by simpa [LenItem.Ok, LenItem.sym] using a3, rfl, ?_⟩
      intro ptLen ptCode cw hput
      simp only [if_pos h2]
      have p0 := hput 0 (by omega) a3
      have := p0.bind (p0.bind Puts.nil)
      simpa [putZeros, itemBits, LenItem.sym, LenItem.extra] using this
  · rw [if_neg h2]
    by_cases h18 : count ≤ 18
    · rw [if_pos h18]
      obtain ⟨tF', a1, a2, a3, _⟩ := incr_grow (a := tF) (i := 1) (d := 1) (by omega)
        (by have := hb 1 (by omega); omega) (by omega)
      refine ⟨tF', a1, a2.le hc, [.short (count - 3)], ?_, ?_, ?_⟩
      · intro it hit
        rw [List.mem_singleton] at hit
        subst hit
        exact ⟨by simp only [LenItem.Ok]; omega, by simp [LenItem.sym], a3⟩
      · simp only [List.flatMap_cons, List.flatMap_nil, List.append_nil, LenItem.lens]
        rw [show count - 3 + 3 = count by omega]
      · intro ptLen ptCode cw hput
        simp only [if_neg h2, if_pos h18]
        simpa [itemBits, LenItem.sym, LenItem.extra] using (hput 1 (by omega) a3).bind (Puts.bits 4 (count - 3) (by omega))
    · rw [if_neg h18]
      by_cases h19 : count = 19
      · rw [if_pos h19]
        obtain ⟨tF1, a1, a2, a3, a4⟩ := incr_grow (a := tF) (i := 0) (d := 1) (by omega)
          (by have := hb 0 (by omega); omega) (by omega)
        obtain ⟨tF', b1, b2, b3, _⟩ := incr_grow (a := tF1) (i := 1) (d := 1) (by rw [a2.size]; omega)
          (by rw [a4 1 (by omega)]; have := hb 1 (by omega); omega) (by omega)
        rw [a1, ok_bind]
        refine ⟨tF', b1, (a2.trans b2).le (by omega), [.zero, .short 15], ?_, by subst h19; rfl, ?_⟩
        · intro it hit
          rcases List.mem_cons.1 hit with rfl | hit
          · exact ⟨trivial, by simp [LenItem.sym], b2.nz a3⟩
          · rw [List.mem_singleton] at hit
            subst hit
            exact ⟨by simp only [LenItem.Ok]; omega, by simp [LenItem.sym], b3⟩
        · intro ptLen ptCode cw hput
          simp only [if_neg h2, if_neg h18, if_pos h19]
          have := (hput 0 (by omega) (b2.nz a3)).bind ((hput 1 (by omega) b3).bind (Puts.bits 4 15 (by omega)))
          simpa [itemBits, LenItem.sym, LenItem.extra] using this
      · rw [if_neg h19]
        obtain ⟨tF', a1, a2, a3, _⟩ := incr_grow (a := tF) (i := 2) (d := 1) (by omega)
          (by have := hb 2 (by omega); omega) (by omega)
        refine ⟨tF', a1, a2.le hc, [.long (count - 20)], ?_, ?_, ?_⟩
        · intro it hit
          rw [List.mem_singleton] at hit
          subst hit
          exact ⟨by simp only [LenItem.Ok]; omega, by simp [LenItem.sym], a3⟩
        · simp only [List.flatMap_cons, List.flatMap_nil, List.append_nil, LenItem.lens]
          rw [show count - 20 + 20 = count by omega]
        · intro ptLen ptCode cw hput
          simp only [if_neg h2, if_neg h18, if_neg h19]
          simpa [itemBits, LenItem.sym, LenItem.extra] using (hput 2 (by omega) a3).bind (Puts.bits 9 (count - 20) (by omega))

/-- Counting and writing the letter/length code lengths from index `i` on. -/
theorem clen_loops (cLen : Arr) (n : Nat) (hn : n ≤ 510) (hs : cLen.size = 510) (hl : ∀ x, x < n → cLen.get x ≤ 16) :
    ∀ (f i : Nat) (tF : Arr), n - i < f → i ≤ n → tF.size = 37 → (∀ x, x < 19 → tF.get x ≤ i) →
    ∃ tF', ctfLoop cLen n f i tF = .ok tF' ∧ Grow (n - i) tF tF' ∧ ∃ items : List LenItem,
      (∀ it ∈ items, it.Ok ∧ it.sym < 19 ∧ tF'.get it.sym ≠ 0) ∧ items.flatMap LenItem.lens = (List.range' i (n - i)).map cLen.get ∧
    ∀ (ptLen ptCode : Arr) (cw : Nat → List Bool),
      (∀ c, c < 19 → tF'.get c ≠ 0 → Puts (putSym ptLen ptCode c) (cw c)) →
      Puts (wclLoop cLen ptLen ptCode n f i) (items.flatMap (itemBits cw)) := by
  intro f
  induction f with
  | zero => intro i tF hf; omega
  | succ f ih =>
    intro i tF hf hi19 hts htb
    unfold ctfLoop
    by_cases hi : i < n
    · simp only [if_pos hi, rd_ok (show i < cLen.size by omega), ok_bind]
      by_cases hz : cLen.get i = 0
      · obtain ⟨j, j1, j2, j3, j4⟩ := zeroRun_ok cLen n (by omega) (n - (i + 1)) (i + 1) (by omega)
        obtain ⟨tF1, a1, a2, it1, a3, a4, a5⟩ := run_ok (j - i) (by omega) (by omega) tF hts
          (fun x hx => by have := htb x hx; omega)
        obtain ⟨tF', b1, b2, it2, b3, b4, b5⟩ := ih j tF1 (by omega) j3 (by rw [a2.size, hts])
          (fun x hx => by have := a2.bound x; have := htb x hx; omega)
        simp only [if_pos hz, j1, ok_bind, a1]
        refine ⟨tF', b1, (a2.trans b2).le (by omega), it1 ++ it2, ?_, ?_, ?_⟩
        · intro it hit
          rcases List.mem_append.1 hit with h | h
          · obtain ⟨x1, x2, x3⟩ := a3 it h
            exact ⟨x1, x2, b2.nz x3⟩
          · exact b3 it h
        · rw [List.flatMap_append, a4, b4]
          have hsp := List.range'_append (s := i) (m := j - i) (n := n - j) (step := 1)
          rw [Nat.one_mul, show i + (j - i) = j by omega, show j - i + (n - j) = n - i by omega] at hsp
          rw [← hsp, List.map_append]
          congr 1
          symm
          rw [List.eq_replicate_iff]
          refine ⟨by simp, ?_⟩
          intro b hb
          obtain ⟨x, hx, rfl⟩ := List.mem_map.1 hb
          rw [List.mem_range'_1] at hx
          by_cases hxi : x = i
          · rw [hxi, hz]
          · exact j4 x (by omega) (by omega)
        · intro ptLen ptCode cw hput
          rw [List.flatMap_append]
          refine ((a5 ptLen ptCode cw (fun c h h' => hput c h (b2.nz h'))).bind (b5 ptLen ptCode cw hput)).congr (fun w => ?_)
          rw [wclLoop, if_pos hi, rd_ok (by omega), ok_bind, if_pos hz, j1, ok_bind]
      · have hk := hl i hi
        obtain ⟨tF1, a1, a2, a3, _⟩ := incr_grow (a := tF) (i := cLen.get i + 2) (d := 1) (by omega)
          (by have := htb (cLen.get i + 2) (by omega); omega) (by omega)
        obtain ⟨tF', b1, b2, it2, b3, b4, b5⟩ := ih (i + 1) tF1 (by omega) (by omega) (by rw [a2.size, hts])
          (fun x hx => by have := a2.bound x; have := htb x hx; omega)
        simp only [if_neg hz, ok_bind, a1]
        refine ⟨tF', b1, (a2.trans b2).le (by omega), .len (cLen.get i) :: it2, ?_, ?_, ?_⟩
        · intro it hit
          rcases List.mem_cons.1 hit with rfl | h
          · exact ⟨by simp only [LenItem.Ok]; omega, by simp only [LenItem.sym]; omega, b2.nz a3⟩
          · exact b3 it h
        · rw [List.flatMap_cons, b4, show n - i = (n - (i + 1)) + 1 by omega, List.range'_succ, List.map_cons]
          rfl
        · intro ptLen ptCode cw hput
          rw [List.flatMap_cons]
          have h1 : Puts (putSym ptLen ptCode (cLen.get i + 2)) (itemBits cw (.len (cLen.get i))) := by
            simpa [itemBits, LenItem.sym, LenItem.extra] using hput (cLen.get i + 2) (by omega) (b2.nz a3)
          refine (h1.bind (b5 ptLen ptCode cw hput)).congr (fun w => ?_)
          rw [wclLoop, if_pos hi, rd_ok (by omega), ok_bind, if_neg hz]
    · simp only [if_neg hi]
      refine ⟨tF, rfl, ⟨rfl, fun _ => by omega, fun _ => by omega⟩, [], by simp, ?_, ?_⟩
      · rw [show n - i = 0 by omega]; rfl
      · intro ptLen ptCode cw hput
        exact Puts.nil.congr (fun w => by rw [wclLoop, if_neg hi])

end Lha
