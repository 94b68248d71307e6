import Verif.Proof.PmBuild
import Verif.Proof.Win
import Verif.Proof.Hist
import Verif.Proof.Methods
import Verif.Proof.SendBlock
import Verif.Spec.Pm2
import Verif.Props.C29
/-!
# The pm2 decoder on streams whose code words consist of ones
-/

namespace Lha

open Spec

/-! ## A decoder whose source looks at the window -/

/-- The window after the text `out`. -/
def Shows (dic : Nat) (out : List Nat) (w : Arr) : Prop :=
  w.size = dic ∧ ∀ d, 1 ≤ d → d ≤ dic → w.get ((out.length % dic + dic - d) % dic) = back out d

/-- The source delivers the tokens `ts` after the text `out`, provided the window shows the text. -/
def FeedsW {σ : Type} (k : Source σ) (adj dic : Nat) : List Nat → σ → List (Nat × Nat) → σ → Prop
  | _, d, [], d' => d = d'
  | out, d, t :: ts, d' => ∃ d1 d2, (∀ w, Shows dic out w → k.decC w (out.length % dic) out.length d = .ok (t.1, d1)) ∧
      (if t.1 < 256 then d2 = d1 else k.decP (out.length % dic) out.length d1 = .ok (t.2, d2)) ∧
      FeedsW k adj dic (expandTok adj out t) d2 ts d'

theorem decodeLoop_okW {σ : Type} {k : Source σ} {tab : Arr} (ht : CrcTab tab) {dic adj : Nat} (hadj : adj ≤ 255)
    {orig : Nat} : ∀ (ts : List (Nat × Nat)) (f : Nat) (out : List Nat) (s : Win) (d d' : σ), WinInv dic [] out s →
    orig - out.length < f →
    FeedsW k adj dic out d ts d' → (∀ t ∈ ts, 256 ≤ t.1 → t.2 < dic) →
    (∀ i, i < ts.length → (expandFrom adj out (ts.take i)).length < orig) →
    orig ≤ (expandFrom adj out ts).length → DicOk dic (expandFrom adj out ts).length →
    ∃ s', decodeLoop k tab dic adj orig f out.length s d = .ok ((expandFrom adj out ts).length, s', d') ∧
      WinInv dic [] (expandFrom adj out ts) s' := by
  intro ts
  induction ts with
  | nil =>
    intro f out s d d' h hf hfe _ _ hle _
    obtain ⟨f, rfl⟩ : ∃ f', f = f' + 1 := ⟨f - 1, by omega⟩
    have hle' : orig ≤ out.length := hle
    rw [FeedsW] at hfe
    subst hfe
    rw [decodeLoop, if_neg (by omega)]
    exact ⟨s, rfl, h⟩
  | cons t ts ih =>
    intro f out s d d' h hf hfe hp hpre hle hdic
    obtain ⟨f, rfl⟩ : ∃ f', f = f' + 1 := ⟨f - 1, by omega⟩
    obtain ⟨d1, d2, h1, h2, h3⟩ := hfe
    have hgo : out.length < orig := by simpa [expandFrom] using hpre 0 (by simp)
    have hex : expandFrom adj out (t :: ts) = expandFrom adj (expandTok adj out t) ts := rfl
    rw [hex] at hle hdic ⊢
    have hlen1 := expandTok_length adj out t
    have hmono := expandFrom_length_le adj ts (expandTok adj out t)
    obtain ⟨o1, s1, w0, w1, w2⟩ := winTok_ok (adj := adj) ht h (hp t (by simp)) (by
      rw [List.nil_append, List.length_nil, Nat.sub_zero]; exact hdic.mono (by omega))
    rw [List.nil_append, List.nil_append] at w0
    subst w0
    have hw : Shows dic out s.dtext := ⟨h.size, fun d a b => by rw [← h.loc, h.ring d a b, List.nil_append]⟩
    have h1 := h1 s.dtext hw
    rw [← h.loc] at h1 h2
    rw [decodeLoop, if_pos hgo, h1, ok_bind]
    simp only []
    obtain ⟨s', r1, r2⟩ := ih f (expandTok adj out t) s1 d2 d' w2
      (by rw [hlen1]; split <;> omega) h3 (fun u hu => hp u (by simp [hu]))
      (fun i hi => by
        have := hpre (i + 1) (by simpa using hi)
        rw [List.take_succ_cons] at this
        exact this)
      hle hdic
    refine ⟨s', ?_, r2⟩
    by_cases hc : t.1 < 256
    · rw [if_pos hc] at h2 w1 hlen1
      subst h2
      rw [if_pos hc, w1, ok_bind, ← hlen1]
      exact r1
    · rw [if_neg hc] at h2 w1 hlen1
      rw [if_neg hc, h2, ok_bind]
      simp only []
      rw [w1, ok_bind, ← hlen1]
      exact r1

theorem decodeWin_okW {σ : Type} {k : Source σ} {tab : Arr} (ht : CrcTab tab) {dic adj : Nat} (hadj : adj ≤ 255)
    {orig : Nat} (ts : List (Nat × Nat)) (d d' : σ)
    (hfe : FeedsW k adj dic [] d ts d') (hp : ∀ t ∈ ts, 256 ≤ t.1 → t.2 < dic)
    (hpre : ∀ i, i < ts.length → (expand adj (ts.take i)).length < orig)
    (hle : orig ≤ (expand adj ts).length) (hdic : DicOk dic (expand adj ts).length) :
    decodeWin k tab dic adj orig d = .ok (expand adj ts, crc16 0 (expand adj ts), d') := by
  unfold decodeWin decodeFrom
  obtain ⟨s, r1, r2⟩ := decodeLoop_okW ht hadj ts (orig + 1) [] _ d d' (winInit dic hdic.1) (by simp) hfe hp hpre hle hdic
  rw [List.length_nil] at r1
  rw [r1, ok_bind]
  simp only []
  have e : expandFrom adj [] ts = expand adj ts := rfl
  rw [e] at r2
  generalize expand adj ts = out at *
  have hlt : s.loc < dic := by rw [r2.loc]; exact Nat.mod_lt _ hdic.1
  have hle2 : s.loc ≤ out.length := by rw [r2.loc]; exact Nat.mod_le _ _
  have hbo : IsBytes out := fun x hx => r2.byt x (List.mem_append_right _ hx)
  by_cases h0 : s.loc ≠ 0
  · rw [if_pos (by omega), winFlush_ok ht s out s.loc (by rw [r2.size]; omega) hle2 hbo r2.flushed r2.crc, ok_bind]
    · simp
    · intro i hi
      have := r2.ring (s.loc - i) (by omega) (by omega)
      rw [show s.loc + dic - (s.loc - i) = i + dic by omega, Nat.add_mod_right, Nat.mod_eq_of_lt (by omega),
        back_append _ _ _ (by omega)] at this
      rw [this]
      unfold back
      rw [if_pos (by omega)]
      congr 1
      omega
  · rw [if_neg h0, ok_bind]
    have h00 : s.loc = 0 := by omega
    have h1 := r2.flushed
    have h2 := r2.crc
    rw [h00, Nat.sub_zero, List.take_length] at h1 h2
    rw [h1, h2]

/-! ## Trees -/

/-- The tree in the arrays of size `n`. -/
structure TreeIs (n : Nat) (t : PTree) (T : PT) : Prop where
  at_ : PT.At n t.left.get t.right.get t.root T
  deep : (rightmost T).2 ≤ 31

theorem Spec.PT.At.mono {n m : Nat} {l r : Nat → Nat} {i : Nat} {T : PT} (h : PT.At n l r i T) (hm : n ≤ m) : PT.At m l r i T := by
  induction h with
  | leaf v hv => exact .leaf v hv
  | node i L R a _ _ c d => exact .node i L R (by omega) c d

theorem word_ones {T : PT} : ∀ {w : List Bool} {v : Nat}, T.Word w v → OnlyOnes w →
    w = List.replicate (rightmost T).2 true ∧ v = (rightmost T).1 := by
  induction T with
  | leaf u =>
    intro w v h _
    have := h []
    rw [List.append_nil, PT.read] at this
    cases this
    exact ⟨rfl, rfl⟩
  | node l r _ ih =>
    intro w v h ho
    cases w with
    | nil => have := h []; cases this
    | cons b w =>
      have hb : b = true := ho b (by simp)
      subst hb
      obtain ⟨h1, h2⟩ := ih (w := w) (v := v) (fun rest => h rest) (fun c hc => ho c (by simp [hc]))
      refine ⟨?_, h2⟩
      simp only [rightmost, List.replicate_succ]
      rw [← h1]

theorem treeGet_ones {n : Nat} (hn : n ≤ 128) {t : PTree} (hs : t.right.size = n) {T : PT} (h : TreeIs n t T) {w : List Bool} {v : Nat}
    (hw : T.Word w v) (ho : OnlyOnes w) {r : BR} {S : List Bool} {R : List Nat} (hr : RRep r (w ++ S) R) :
    ∃ r', treeGet t r = .ok (v, r') ∧ RRep r' S R := by
  obtain ⟨h1, h2⟩ := word_ones hw ho
  rw [h1] at hr
  have hd := h.deep
  have := (C29_ones_partial t (by omega) T (by rw [hs]; exact h.at_) (by omega) r S R hr).2
  rw [h2]
  exact this

theorem rightmost_mem (T : PT) : ∀ d, ((rightmost T).2 + d, (rightmost T).1) ∈ T.leaves d := by
  induction T with
  | leaf v => intro d; simp [rightmost, PT.leaves]
  | node l r _ ih =>
    intro d
    rw [PT.leaves]
    refine List.mem_append_right _ ?_
    have := ih (d + 1)
    rw [show (rightmost r).2 + (d + 1) = (rightmost (.node l r)).2 + d by simp only [rightmost]; omega] at this
    exact this

theorem mem_codeOrder {tbl : Nat → Nat} {b lo hi : Nat} {x : Nat × Nat} (h : x ∈ codeOrder tbl b lo hi) (hl : lo ≤ hi) : lo ≤ x.1 ∧ x.1 ≤ hi ∧ x.2 < b := by
  unfold codeOrder at h
  obtain ⟨d, h1, h2⟩ := List.mem_flatMap.1 h
  obtain ⟨i, h3, rfl⟩ := List.mem_map.1 h2
  rw [List.mem_range'_1] at h1
  exact ⟨by omega, by omega, List.mem_range.1 (List.mem_of_mem_filter h3)⟩

/-- A tree is a complete code. -/
theorem leaves_weight (T : PT) : ∀ d, (∀ x ∈ T.leaves d, x.1 ≤ 31) → weight (T.leaves d) = 2 ^ (31 - d) := by
  induction T with
  | leaf v => intro d _; simp [PT.leaves, weight]
  | node l r ihl ihr =>
    intro d h
    rw [PT.leaves, weight_append, ihl (d + 1) (fun x hx => h x (by rw [PT.leaves]; exact List.mem_append_left _ hx)),
      ihr (d + 1) (fun x hx => h x (by rw [PT.leaves]; exact List.mem_append_right _ hx))]
    have h1 := h _ (rightmost_mem (.node l r) d)
    simp only [rightmost] at h1
    rw [show 31 - d = 31 - (d + 1) + 1 by omega, Nat.pow_succ]
    omega

theorem leaves_deep (T : PT) : ∀ d, ∃ x X, T.leaves d = x :: X ∧ d ≤ x.1 := by
  induction T with
  | leaf v => intro d; exact ⟨_, [], rfl, Nat.le_refl _⟩
  | node l r ihl _ =>
    intro d
    obtain ⟨x, X, h1, h2⟩ := ihl (d + 1)
    exact ⟨x, X ++ r.leaves (d + 1), by rw [PT.leaves, h1]; rfl, by omega⟩

theorem leaves_split (T : PT) : ∀ (d : Nat) (T' : PT) (X X' : List (Nat × Nat)), T.leaves d ++ X = T'.leaves d ++ X' → T = T' ∧ X = X' := by
  induction T with
  | leaf v =>
    intro d T' X X' h
    cases T' with
    | leaf v' => simp only [PT.leaves, List.cons_append, List.nil_append, List.cons.injEq, Prod.mk.injEq] at h; exact ⟨by rw [h.1.2], h.2⟩
    | node l r =>
      exfalso
      obtain ⟨x, Y, h1, h2⟩ := leaves_deep l (d + 1)
      simp only [PT.leaves, h1, List.cons_append, List.nil_append, List.cons.injEq] at h
      have := h.1
      subst this
      simp only [] at h2
      omega
  | node l r ihl ihr =>
    intro d T' X X' h
    cases T' with
    | leaf v' =>
      exfalso
      obtain ⟨x, Y, h1, h2⟩ := leaves_deep l (d + 1)
      simp only [PT.leaves, h1, List.cons_append, List.nil_append, List.cons.injEq] at h
      have := h.1
      subst this
      simp only [] at h2
      omega
    | node l' r' =>
      simp only [PT.leaves, List.append_assoc] at h
      obtain ⟨h1, h2⟩ := ihl _ _ _ _ h
      obtain ⟨h3, h4⟩ := ihr _ _ _ _ h2
      exact ⟨by rw [h1, h3], h4⟩

/-- The leaves determine the tree. -/
theorem leaves_inj {T T' : PT} (h : T.leaves 0 = T'.leaves 0) : T = T' :=
  (leaves_split T 0 T' [] [] (by rw [h])).1

theorem codeOrder_congr {f g : Nat → Nat} {b lo hi : Nat} (h : ∀ i, i < b → f i = g i) : codeOrder f b lo hi = codeOrder g b lo hi := by
  unfold codeOrder
  apply List.flatMap_congr
  intro d _
  congr 1
  apply List.filter_congr
  intro i hi
  rw [h i (List.mem_range.1 hi)]

theorem treeRebuild_tree {n bound mind maxd : Nat} {table : Arr} {t : PTree} (hb : bound ≤ 32) (hbn : bound ≤ n) (hm : 1 ≤ mind) (hmm : mind ≤ maxd)
    (hM : maxd ≤ 31) (hT : bound ≤ table.size) (hl : t.left.size = n) (hr : t.right.size = n)
    (hd : ∀ i, i < bound → table.get i ≤ maxd) {f : Nat → Nat} (hf : ∀ i, i < bound → table.get i = f i) {T : PT}
    (hT' : T.leaves 0 = codeOrder f bound mind maxd) :
    ∃ l r, treeRebuild bound mind maxd table t = .ok ⟨0, l, r⟩ ∧ l.size = n ∧ r.size = n ∧ TreeIs n ⟨0, l, r⟩ T := by
  rw [← codeOrder_congr hf] at hT'
  have hw : weight (codeOrder table.get bound mind maxd) = 2 ^ 31 := by
    rw [← hT']
    exact leaves_weight T 0 (fun x hx => by rw [hT'] at hx; have := (mem_codeOrder hx hmm).2.1; omega)
  obtain ⟨l, r, q1, q2, q3, T1, q4, q5⟩ := treeRebuild_ok (t := t) hb hm hmm hM hT (by omega) (by omega) hd hw
  have e : T1 = T := leaves_inj (by rw [q5, ← hT'])
  subst e
  refine ⟨l, r, q1, by omega, by omega, q4.mono hbn, ?_⟩
  have := mem_codeOrder (q5 ▸ rightmost_mem T1 0) hmm
  omega

/-! ## Headers -/

theorem get_bits {n x : Nat} (hx : x < 2 ^ n) (hn : n ≤ 16) {r : BR} {S : List Bool} {R : List Nat} (hr : RRep r (bits n x ++ S) R) :
    ∃ r', getbits n r = .ok (x, r') ∧ RRep r' S R := by
  obtain ⟨r', h1, h2⟩ := getbits_spec hr hn
  rw [pv_bits_lt n x _ hx] at h1
  rw [List.drop_left' (by simp)] at h2
  exact ⟨r', h1, h2⟩

theorem readTable1_ok {nb m : Nat} (hnb : nb < 8) (hm : m < 8) (x : Nat → Nat) : ∀ (k i : Nat) (a : Arr) (r : BR) (S : List Bool) (R : List Nat),
    i + k ≤ a.size → (∀ j, i ≤ j → j < i + k → x j < 2 ^ nb) → RRep r ((List.range' i k).flatMap (fun j => bits nb (x j)) ++ S) R →
    ∃ a' r', readTable1 nb m k i a r = .ok (a', r') ∧ RRep r' S R ∧ a'.size = a.size ∧
      ∀ j, a'.get j = if i ≤ j ∧ j < i + k then (if x j = 0 then 0 else x j - 1 + m) else a.get j := by
  intro k
  induction k with
  | zero => intro i a r S R _ _ hr; exact ⟨a, r, rfl, hr, rfl, fun j => by rw [if_neg (by omega)]⟩
  | succ k ih =>
    intro i a r S R ha hx hr
    rw [List.range'_succ, List.flatMap_cons, List.append_assoc] at hr
    have hxi := hx i (by omega) (by omega)
    obtain ⟨r1, g1, g2⟩ := get_bits hxi (by omega) hr
    obtain ⟨a', r', q1, q2, q3, q4⟩ := ih (i + 1) (a.upd i (if x i = 0 then 0 else (x i % 256 + 255 + m) % 256)) r1 S R (by simp; omega)
      (fun j h1 h2 => hx j (by omega) (by omega)) g2
    refine ⟨a', r', ?_, q2, q3, fun j => ?_⟩
    · rw [readTable1, g1, ok_bind]
      simp only []
      rw [wr_ok (by omega), ok_bind]
      exact q1
    · rw [q4 j, Arr.get_upd]
      have hp : 2 ^ nb ≤ 2 ^ 7 := Nat.pow_le_pow_right (by omega) (by omega)
      by_cases hj : j = i
      · subst hj
        rw [if_neg (by omega), if_pos rfl, if_pos (show j ≤ j ∧ j < j + (k + 1) by omega)]
        by_cases h0 : x j = 0
        · rw [if_pos (by omega), if_pos (by omega)]
        · rw [if_neg h0, if_neg h0]; omega
      · rw [if_neg hj]
        congr 1
        simp only [eq_iff_iff]
        omega

theorem or128' (v : Nat) (h : v < 128) : 128 ||| v = 128 + v := by
  have : ∀ j : Fin 128, 128 ||| j.val = 128 + j.val := by decide +kernel
  exact this ⟨v, h⟩

/-- The variables of the decoder hold the state of the format. -/
structure PInv (σ : PmState) (s : Pm) : Prop where
  next : s.nextcount = σ.next
  b : σ.next ≠ 0 → s.g.bound = σ.b
  m : σ.next ≠ 0 → s.g.mindepth = σ.m
  l1 : s.g.t1.left.size = 32
  r1 : s.g.t1.right.size = 32
  l2 : s.g.t2.left.size = 8
  r2 : s.g.t2.right.size = 8
  t1 : ∀ T, σ.t1 = some T → TreeIs 32 s.g.t1 T
  t2 : ∀ T, σ.t2 = some T → TreeIs 8 s.g.t2 T

theorem maketree1_ok {B S : List Bool} {R : List Nat} {b m : Nat} {T : PT} (h : PmTree1 B b m T) {s : Pm} (hl : s.g.t1.left.size = 32)
    (hr : s.g.t1.right.size = 32) (hrr : RRep s.r (B ++ S) R) :
    ∃ t r, maketree1 s = .ok { s with r := r, g := { s.g with bound := b, mindepth := m, t1 := t } } ∧ RRep r S R ∧ t.left.size = 32 ∧
      t.right.size = 32 ∧ TreeIs 32 t T := by
  cases h with
  | single h1 h2 =>
    rw [List.append_assoc] at hrr
    obtain ⟨r1, g1, g2⟩ := get_bits (show b < 2 ^ 5 by omega) (by omega) hrr
    obtain ⟨r2, g3, g4⟩ := get_bits (show 0 < 2 ^ 3 by omega) (by omega) g2
    refine ⟨treeSetsingle ((b + 255) % 256) s.g.t1, r2, ?_, g4, hl, hr, ?_⟩
    · unfold maketree1
      rw [g1, ok_bind]
      simp only []
      rw [g3, ok_bind]
      simp only [if_true]
    · refine ⟨?_, by simp [rightmost]⟩
      unfold treeSetsingle
      simp only []
      rw [show (b + 255) % 256 = b - 1 by omega, or128' _ (by omega)]
      exact .leaf _ (by omega)
  | @table _ _ k x _ h1 h2 h3 h4 h5 h6 h7 =>
    simp only [List.append_assoc] at hrr
    obtain ⟨r1, g1, g2⟩ := get_bits (show b < 2 ^ 5 by omega) (by omega) hrr
    obtain ⟨r2, g3, g4⟩ := get_bits (show m < 2 ^ 3 by omega) (by omega) g2
    obtain ⟨r3, g5, g6⟩ := get_bits (show k < 2 ^ 3 by omega) (by omega) g4
    rw [List.range_eq_range'] at g6
    obtain ⟨a, r4, g7, g8, g9, g10⟩ := readTable1_ok h4 h3 x b 0 (Arr.mk' 32 0) r3 S R (by simp; omega) (fun j _ hj => h5 j (by omega)) g6
    have hget : ∀ i, i < b → a.get i = if x i = 0 then 0 else x i - 1 + m := fun i hi => by rw [g10 i, if_pos ⟨by omega, by omega⟩]
    obtain ⟨l, r, q1, q2, q3, q4⟩ := treeRebuild_tree (t := s.g.t1) (by omega) (by omega) h2 (by omega) (Nat.le_refl 31) (by rw [g9]; simp; omega) hl hr
      (fun i hi => by
        rw [hget i hi]
        by_cases hx : x i = 0
        · rw [if_pos hx]; omega
        · rw [if_neg hx]; exact h6 i hi hx) hget h7
    refine ⟨_, r4, ?_, g8, q2, q3, q4⟩
    unfold maketree1
    rw [g1, ok_bind]
    simp only []
    rw [g3, ok_bind]
    simp only []
    rw [if_neg (by omega), g5, ok_bind]
    simp only []
    rw [g7, ok_bind]
    simp only []
    rw [q1, ok_bind]

theorem readTable2_ok (x : Nat → Nat) : ∀ (k i : Nat) (a : Arr) (r : BR) (S : List Bool) (R : List Nat),
    i + k ≤ a.size → (∀ j, i ≤ j → j < i + k → x j < 8) → RRep r ((List.range' i k).flatMap (fun j => bits 3 (x j)) ++ S) R →
    ∃ a' r', readTable2 k i a r = .ok (a', r') ∧ RRep r' S R ∧ a'.size = a.size ∧
      ∀ j, a'.get j = if i ≤ j ∧ j < i + k then x j else a.get j := by
  intro k
  induction k with
  | zero => intro i a r S R _ _ hr; exact ⟨a, r, rfl, hr, rfl, fun j => by rw [if_neg (by omega)]⟩
  | succ k ih =>
    intro i a r S R ha hx hr
    rw [List.range'_succ, List.flatMap_cons, List.append_assoc] at hr
    have hxi := hx i (by omega) (by omega)
    obtain ⟨r1, g1, g2⟩ := get_bits (show x i < 2 ^ 3 by omega) (by omega) hr
    obtain ⟨a', r', q1, q2, q3, q4⟩ := ih (i + 1) (a.upd i (x i)) r1 S R (by simp; omega)
      (fun j h1 h2 => hx j (by omega) (by omega)) g2
    refine ⟨a', r', ?_, q2, q3, fun j => ?_⟩
    · rw [readTable2, g1, ok_bind]
      simp only []
      rw [wr_ok (by omega), ok_bind]
      exact q1
    · rw [q4 j, Arr.get_upd]
      by_cases hj : j = i
      · subst hj
        rw [if_neg (by omega), if_pos rfl, if_pos (by omega)]
      · rw [if_neg hj]
        congr 1
        simp only [eq_iff_iff]
        omega

/-- What `countTable2` counts. -/
theorem countTable2_ok (a : Arr) : ∀ (k i c x : Nat), i + k ≤ a.size →
    ∃ y, countTable2 a k i (c, x) = .ok (c + ((List.range' i k).filter fun j => a.get j ≠ 0).length, y) ∧
      ((∀ j, i ≤ j → j < i + k → a.get j = 0) → y = x) ∧
      (∀ z, i ≤ z → z < i + k → (∀ j, i ≤ j → j < i + k → (a.get j ≠ 0 ↔ j = z)) → y = z) := by
  intro k
  induction k with
  | zero => intro i c x _; exact ⟨x, rfl, fun _ => rfl, fun z h1 h2 => by omega⟩
  | succ k ih =>
    intro i c x h
    rw [countTable2, rd_ok (by omega), ok_bind]
    by_cases h0 : a.get i = 0
    · rw [if_pos (by omega)]
      obtain ⟨y, q1, q2, q3⟩ := ih (i + 1) c x (by omega)
      refine ⟨y, ?_, fun hz => q2 (fun j h1 h2 => hz j (by omega) (by omega)), fun z h1 h2 hz => q3 z ?_ (by omega) (fun j h3 h4 => hz j (by omega) (by omega))⟩
      · rw [q1, List.range'_succ, List.filter_cons, if_neg (by simpa using h0)]
      · have := hz i (by omega) (by omega)
        rcases Nat.lt_or_eq_of_le h1 with h | h
        · exact h
        · exact absurd h0 (this.2 h)
    · rw [if_neg h0]
      obtain ⟨y, q1, q2, q3⟩ := ih (i + 1) (c + 1) i (by omega)
      refine ⟨y, ?_, fun hz => absurd (hz i (by omega) (by omega)) h0, fun z h1 h2 hz => ?_⟩
      · rw [q1, List.range'_succ, List.filter_cons, if_pos (by simpa using h0), List.length_cons]
        congr 2
        omega
      · have e : i = z := (hz i (by omega) (by omega)).1 h0
        rw [← e]
        refine q2 (fun j h3 h4 => ?_)
        rcases Nat.eq_zero_or_pos (a.get j) with h | h
        · exact h
        · have := (hz j (by omega) (by omega)).1 (by omega)
          omega


theorem filter_depths {len : Nat → Nat} {n : Nat} (h : ∀ j, j < n → len j < 8) :
    (codeOrder len n 1 7).length = ((List.range' 0 n).filter fun j => len j ≠ 0).length := by
  rw [codeOrder_levels _ _ _ _ _ rfl, levels_length]
  congr 1
  apply List.filter_congr
  intro j hj
  rw [List.mem_range'_1] at hj
  have := h j (by omega)
  rw [Bool.eq_iff_iff]
  simp
  omega

theorem maketree2_ok {n b m : Nat} {o o' : Option PT} {B S : List Bool} {R : List Nat} (hn : n ≤ 8) (h : PmTree2 n b m o B o') {s : Pm}
    (hb : s.g.bound = b) (hm : s.g.mindepth = m) (hl : s.g.t2.left.size = 8) (hr : s.g.t2.right.size = 8)
    (ho : ∀ T, o = some T → TreeIs 8 s.g.t2 T) (hrr : RRep s.r (B ++ S) R) :
    ∃ t r, maketree2 n s = .ok { s with r := r, g := { s.g with t2 := t } } ∧ RRep r S R ∧ t.left.size = 8 ∧ t.right.size = 8 ∧
      ∀ T, o' = some T → TreeIs 8 t T := by
  unfold maketree2
  rw [hb, hm]
  have hneeds : PmNeeds2 b m → ¬ b < 10 ∧ ¬ (b = 29 ∧ m = 0) := fun h => ⟨by have := h.1; omega, h.2⟩
  -- the body when the second code is there
  have hrun : PmNeeds2 b m → ∀ x : Nat → Nat, (∀ j, j < n → x j < 8) → B = (List.range n).flatMap (fun j => bits 3 (x j)) →
      ∃ a r y, readTable2 n 0 (Arr.mk' 8 0) s.r = .ok (a, r) ∧ RRep r S R ∧ a.size = 8 ∧ (∀ j, j < n → a.get j = x j) ∧
        countTable2 a n 0 (0, 0) = .ok (((List.range' 0 n).filter fun j => x j ≠ 0).length, y) ∧
        (∀ z, z < n → (∀ j, j < n → (x j ≠ 0 ↔ j = z)) → y = z) := by
    intro _ x hx hB
    rw [hB, List.range_eq_range'] at hrr
    obtain ⟨a, r, q1, q2, q3, q4⟩ := readTable2_ok x n 0 (Arr.mk' 8 0) s.r S R (by simp; omega) (fun j _ hj => hx j (by omega)) hrr
    have hget : ∀ j, j < n → a.get j = x j := fun j hj => by rw [q4 j, if_pos ⟨by omega, by omega⟩]
    obtain ⟨y, w1, w2, w3⟩ := countTable2_ok a n 0 0 0 (by rw [q3]; simp; omega)
    refine ⟨a, r, y, q1, q2, q3, hget, ?_, fun z hz hj => w3 z (by omega) (by omega) (fun j _ h2 => by rw [hget j (by omega)]; exact hj j (by omega))⟩
    rw [w1, Nat.zero_add]
    congr 3
    apply List.filter_congr
    intro j hj
    rw [List.mem_range'_1] at hj
    rw [hget j (by omega)]
  cases h with
  | absent hno =>
    refine ⟨s.g.t2, s.r, ?_, hrr, hl, hr, ho⟩
    by_cases h1 : b < 10
    · rw [if_pos h1]
    · rw [if_neg h1, if_pos]
      by_cases h2 : b = 29 ∧ m = 0
      · exact h2
      · exact absurd ⟨by omega, h2⟩ hno
  | empty hne =>
    obtain ⟨a, r, y, q1, q2, q3, q4, q5, q6⟩ := hrun hne (fun _ => 0) (fun _ _ => by omega) rfl
    refine ⟨s.g.t2, r, ?_, q2, hl, hr, fun T hT => by cases hT⟩
    rw [if_neg (hneeds hne).1, if_neg (hneeds hne).2, q1, ok_bind]
    simp only []
    rw [q5, ok_bind]
    have : ((List.range' 0 n).filter fun j => (fun _ : Nat => 0) j ≠ 0) = [] := by
      rw [List.filter_eq_nil_iff]; intro j _; simp
    rw [this]
    simp only [List.length_nil]
    rw [if_neg (by omega), if_neg (by omega)]
  | @single i d hne hi hd1 hd2 =>
    obtain ⟨a, r, y, q1, q2, q3, q4, q5, q6⟩ := hrun hne (fun j => if j = i then d else 0) (fun j _ => by split <;> omega) rfl
    have hy : y = i := q6 i hi (fun j _ => by split <;> simp_all <;> omega)
    have hone : ((List.range' 0 n).filter fun j => decide ((fun j => if j = i then d else 0) j ≠ 0)).length = 1 := by
      have e : ∀ k s, ((List.range' s k).filter fun j => decide ((fun j => if j = i then d else 0) j ≠ 0)).length =
          if s ≤ i ∧ i < s + k then 1 else 0 := by
        intro k
        induction k with
        | zero => intro s; rw [if_neg (by omega)]; rfl
        | succ k ih =>
          intro s
          rw [List.range'_succ, List.filter_cons]
          by_cases hs : s = i
          · subst hs
            rw [if_pos (by simp; omega), List.length_cons, ih, if_neg (by omega), if_pos (by omega)]
          · rw [if_neg (by simp [hs]), ih]
            congr 1
            simp only [eq_iff_iff]
            omega
      rw [e, if_pos ⟨by omega, by omega⟩]
    refine ⟨treeSetsingle i s.g.t2, r, ?_, q2, hl, hr, fun T hT => ?_⟩
    · rw [if_neg (hneeds hne).1, if_neg (hneeds hne).2, q1, ok_bind]
      simp only []
      rw [q5, ok_bind, hone]
      simp only [if_true]
      rw [hy]
    · cases hT
      refine ⟨?_, by simp [rightmost]⟩
      unfold treeSetsingle
      simp only []
      rw [or128' _ (by omega)]
      exact .leaf _ (by omega)
  | @table len T0 hne hlen hT0 =>
    obtain ⟨a, r, y, q1, q2, q3, q4, q5, q6⟩ := hrun hne len hlen rfl
    have hmany : 1 < ((List.range' 0 n).filter fun j => len j ≠ 0).length := by
      rw [← filter_depths hlen, ← hT0]
      cases T0 with
      | leaf v =>
        exfalso
        have h0 : ((0, v) : Nat × Nat) ∈ codeOrder len n 1 7 := by rw [← hT0]; exact List.mem_singleton.2 rfl
        have := (mem_codeOrder h0 (by omega)).1
        simp at this
      | node l r =>
        obtain ⟨x, X, h1, _⟩ := leaves_deep l 1
        obtain ⟨x', X', h2, _⟩ := leaves_deep r 1
        simp only [PT.leaves, Nat.zero_add, h1, h2, List.length_append, List.length_cons]
        omega
    obtain ⟨l, rt, w1, w2, w3, w4⟩ := treeRebuild_tree (t := s.g.t2) (table := a) (n := 8) (by omega) hn (Nat.le_refl 1) (by omega : 1 ≤ 7) (by omega) (by omega) hl hr
      (fun i hi => by rw [q4 i hi]; have := hlen i hi; omega) q4 hT0
    refine ⟨⟨0, l, rt⟩, r, ?_, q2, w2, w3, fun T hT => by cases hT; exact w4⟩
    rw [if_neg (hneeds hne).1, if_neg (hneeds hne).2, q1, ok_bind]
    simp only []
    rw [q5, ok_bind]
    simp only []
    rw [if_neg (by omega), if_pos hmany, w1, ok_bind]


/-- What a header leaves alone. -/
def SameHist (s s' : Pm) : Prop := s'.hist = s.hist ∧ s'.lastupdate = s.lastupdate

theorem get_flag {b : Bool} {r : BR} {S : List Bool} {R : List Nat} (hr : RRep r (b :: S) R) :
    ∃ r', getbits 1 r = .ok (if b then 1 else 0, r') ∧ RRep r' S R := by
  obtain ⟨r', h1, h2⟩ := getbits_spec (n := 1) hr (by omega)
  refine ⟨r', ?_, by simpa using h2⟩
  rw [h1]
  cases b <;> simp [pv]

theorem pmStage_ok {σ σ' : PmState} {B S : List Bool} {R : List Nat} (h : PmHeader σ B σ') {s : Pm} (hi : PInv σ s) (hr : RRep s.r (B ++ S) R) :
    ∃ s', pmStage s = .ok s' ∧ PInv σ' s' ∧ RRep s'.r S R ∧ SameHist s s' ∧ σ.next < σ'.next := by
  unfold pmStage
  have hnx := hi.next
  -- both headers
  have both : ∀ {n : Nat} {b1 b2 : List Bool} {b m : Nat} {T : PT} {o : Option PT} {r : BR} (N : Nat), n ≤ 8 → N ≠ 0 → PmTree1 b1 b m T → PmTree2 n b m σ.t2 b2 o →
      RRep r (b1 ++ b2 ++ S) R → ∃ t1 t2 r1 r2, maketree1 { s with r := r } = .ok { s with r := r1, g := { s.g with bound := b, mindepth := m, t1 := t1 } } ∧
        maketree2 n { s with r := r1, g := { s.g with bound := b, mindepth := m, t1 := t1 } } =
          .ok { s with r := r2, g := { s.g with bound := b, mindepth := m, t1 := t1, t2 := t2 } } ∧ RRep r2 S R ∧
        PInv ⟨N, b, m, some T, o⟩ { s with r := r2, g := { s.g with bound := b, mindepth := m, t1 := t1, t2 := t2 }, nextcount := N } := by
    intro n b1 b2 b m T o r N hn hN h1 h2 hr
    rw [List.append_assoc] at hr
    obtain ⟨t1, r1, q1, q2, q3, q4, q5⟩ := maketree1_ok (s := { s with r := r }) h1 hi.l1 hi.r1 hr
    obtain ⟨t2, r2, w1, w2, w3, w4, w5⟩ := maketree2_ok (s := { s with r := r1, g := { s.g with bound := b, mindepth := m, t1 := t1 } }) hn h2 rfl rfl hi.l2 hi.r2
      hi.t2 q2
    exact ⟨t1, t2, r1, r2, q1, w1, w2, rfl, fun _ => rfl, fun _ => rfl, q3, q4, w3, w4, fun T' hT => by cases hT; exact q5, w5⟩
  -- only the second one
  have second : ∀ {n : Nat} {b2 : List Bool} {o : Option PT} {r : BR} (N : Nat), n ≤ 8 → σ.next ≠ 0 → PmTree2 n σ.b σ.m σ.t2 b2 o →
      RRep r (b2 ++ S) R → ∃ t2 r2, maketree2 n { s with r := r } = .ok { s with r := r2, g := { s.g with t2 := t2 } } ∧ RRep r2 S R ∧
        PInv ⟨N, σ.b, σ.m, σ.t1, o⟩ { s with r := r2, g := { s.g with t2 := t2 }, nextcount := N } := by
    intro n b2 o r N hn hN h2 hr
    obtain ⟨t2, r2, w1, w2, w3, w4, w5⟩ := maketree2_ok (s := { s with r := r }) hn h2 (hi.b hN) (hi.m hN) hi.l2 hi.r2 hi.t2 hr
    exact ⟨t2, r2, w1, w2, rfl, fun _ => hi.b hN, fun _ => hi.m hN, hi.l1, hi.r1, w3, w4, hi.t1, w5⟩
  cases h with
  | first h0 h1 h2 =>
    obtain ⟨t1, t2, r1, r2, q1, q2, q3, q4⟩ := both (r := s.r) 0x400 (by omega) (by omega) h1 h2 hr
    rw [if_pos (by omega)]
    have q1' : maketree1 s = _ := q1
    rw [q1', ok_bind, q2, ok_bind]
    exact ⟨_, rfl, q4, q3, ⟨rfl, rfl⟩, by simp only []; omega⟩
  | second h0 h2 =>
    obtain ⟨t2, r2, q2, q3, q4⟩ := second (r := s.r) 0x800 (by omega) (by omega) h2 hr
    rw [if_neg (by omega), if_pos (by omega)]
    have q2' : maketree2 6 s = _ := q2
    rw [q2', ok_bind]
    exact ⟨_, rfl, q4, q3, ⟨rfl, rfl⟩, by simp only []; omega⟩
  | third h0 h2 =>
    obtain ⟨t2, r2, q2, q3, q4⟩ := second (r := s.r) 0x1000 (by omega) (by omega) h2 hr
    rw [if_neg (by omega), if_neg (by omega), if_pos (by omega)]
    have q2' : maketree2 7 s = _ := q2
    rw [q2', ok_bind]
    exact ⟨_, rfl, q4, q3, ⟨rfl, rfl⟩, by simp only []; omega⟩
  | fourthNew h0 h1 h2 =>
    obtain ⟨r, g1, g2⟩ := get_flag hr
    obtain ⟨t1, t2, r1, r2, q1, q2, q3, q4⟩ := both (r := r) 0x2000 (by omega) (by omega) h1 h2 g2
    rw [if_neg (by omega), if_neg (by omega), if_neg (by omega), if_pos (by omega), g1, ok_bind]
    simp only [if_true]
    rw [if_pos (by omega), q1, ok_bind, q2, ok_bind]
    exact ⟨_, rfl, q4, q3, ⟨rfl, rfl⟩, by omega⟩
  | fourthOld h0 h2 =>
    obtain ⟨r, g1, g2⟩ := get_flag hr
    obtain ⟨t2, r2, q2, q3, q4⟩ := second (r := r) 0x2000 (by omega) (by omega) h2 g2
    rw [if_neg (by omega), if_neg (by omega), if_neg (by omega), if_pos (by omega), g1, ok_bind]
    simp only [Bool.false_eq_true, if_false]
    rw [if_neg (by omega), ok_bind, q2, ok_bind]
    exact ⟨_, rfl, q4, q3, ⟨rfl, rfl⟩, by omega⟩
  | laterNew h0 h1 h2 =>
    obtain ⟨r, g1, g2⟩ := get_flag hr
    obtain ⟨t1, t2, r1, r2, q1, q2, q3, q4⟩ := both (r := r) (s.nextcount + 0x1000) (by omega) (by omega) h1 h2 g2
    rw [if_neg (by omega), if_neg (by omega), if_neg (by omega), if_neg (by omega), g1, ok_bind]
    simp only [if_true]
    rw [if_pos (by omega), q1, ok_bind, q2, ok_bind]
    rw [← hnx]
    exact ⟨_, rfl, q4, q3, ⟨rfl, rfl⟩, by omega⟩
  | laterOld h0 =>
    obtain ⟨r, g1, g2⟩ := get_flag hr
    rw [if_neg (by omega), if_neg (by omega), if_neg (by omega), if_neg (by omega), g1, ok_bind]
    simp only [Bool.false_eq_true, if_false]
    rw [if_neg (by omega)]
    refine ⟨_, rfl, ⟨by simp only []; omega, fun _ => hi.b (by omega), fun _ => hi.m (by omega), hi.l1, hi.r1, hi.l2, hi.r2, hi.t1, hi.t2⟩, g2, ⟨rfl, rfl⟩, by omega⟩

theorem pmStages_ok {n : Nat} {σ σ' : PmState} {B : List Bool} (h : PmHeaders n σ B σ') : ∀ {S : List Bool} {R : List Nat} {s : Pm} (f : Nat), PInv σ s →
    RRep s.r (B ++ S) R → n + 1 - σ.next < f →
    ∃ s', pmStages n f s = .ok s' ∧ PInv σ' s' ∧ RRep s'.r S R ∧ SameHist s s' := by
  induction h with
  | none hlt =>
    intro S R s f hi hr hf
    obtain ⟨f, rfl⟩ : ∃ g, f = g + 1 := ⟨f - 1, by omega⟩
    have := hi.next
    exact ⟨s, by rw [pmStages, if_neg (by omega)], hi, hr, rfl, rfl⟩
  | more hle h1 _ ih =>
    intro S R s f hi hr hf
    obtain ⟨f, rfl⟩ : ∃ g, f = g + 1 := ⟨f - 1, by omega⟩
    rw [List.append_assoc] at hr
    obtain ⟨s1, q1, q2, q3, q4, q5⟩ := pmStage_ok h1 hi hr
    obtain ⟨s2, w1, w2, w3, w4⟩ := ih f q2 q3 (by omega)
    have := hi.next
    refine ⟨s2, ?_, w2, w3, by rw [w4.1, q4.1], by rw [w4.2, q4.2]⟩
    rw [pmStages, if_pos (by omega), q1, ok_bind]
    exact w1

/-! ## Tokens -/

theorem pmAdmin_ok {w : Arr} (hw : w.size = 8192) (bs : List Nat) : ∀ {s : Pm} {h : Hist}, s.lastupdate < 8192 → histUpdates bs s.hist = .ok h →
    (∀ i, i < bs.length → w.get ((s.lastupdate + i) % 8192) = bs.getD i 0) →
    pmAdmin w bs.length s = .ok { s with hist := h, lastupdate := (s.lastupdate + bs.length) % 8192 } := by
  induction bs with
  | nil =>
    intro s h h1 h2 _
    rw [histUpdates] at h2
    cases h2
    rw [List.length_nil, pmAdmin, Nat.add_zero, Nat.mod_eq_of_lt h1]
  | cons b bs ih =>
    intro s h h1 h2 hg
    have h0 := hg 0 (by simp)
    rw [Nat.add_zero, Nat.mod_eq_of_lt h1, List.getD_cons_zero] at h0
    rw [histUpdates] at h2
    obtain ⟨h', e1, e2⟩ := bind_ok h2
    rw [List.length_cons, pmAdmin, rd_ok (by omega), ok_bind, h0, e1, ok_bind]
    rw [ih (s := { s with hist := h', lastupdate := (s.lastupdate + 1) % 8192 }) (Nat.mod_lt _ (by omega)) e2
      (fun i hi => by
        have := hg (i + 1) (by simpa using hi)
        rw [List.getD_cons_succ] at this
        simp only []
        rw [← this]
        congr 1
        omega)]
    simp only []
    rw [show ((s.lastupdate + 1) % 8192 + bs.length) % 8192 = (s.lastupdate + (bs.length + 1)) % 8192 by omega]

theorem mtfUses_append (l a b : List Nat) : mtfUses l (a ++ b) = mtfUses (mtfUses l a) b := by
  unfold mtfUses
  rw [List.foldl_append]

/-- The history when the text is `out`, of which the last `k` bytes have not been entered. -/
structure HInv (out : List Nat) (s : Pm) : Prop where
  late : ∃ n, n ≤ out.length ∧ out.length < n + 8192 ∧ s.lastupdate = n % 8192 ∧ HistL (mtfUses mtfStart (out.take n)) s.hist
  byt : IsBytes out

theorem admin_ok {out : List Nat} {s : Pm} (H : HInv out s) :
    ∃ h, (∀ w, Shows 8192 out w → pmAdmin w ((out.length % 8192 + 8192 - s.lastupdate) % 8192) s =
      .ok { s with hist := h, lastupdate := out.length % 8192 }) ∧ HistL (mtfUses mtfStart out) h := by
  obtain ⟨n, h1, h2, h3, h4⟩ := H.late
  have hlen : (out.drop n).length = (out.length % 8192 + 8192 - s.lastupdate) % 8192 := by rw [List.length_drop, h3]; omega
  obtain ⟨h, e1, e2⟩ := histUpdates_list (out.drop n) h4 (fun x hx => H.byt x (List.mem_of_mem_drop hx))
  refine ⟨h, fun w hw => ?_, ?_⟩
  · rw [← hlen, pmAdmin_ok hw.1 (out.drop n) (s := s) (by rw [h3]; omega) e1]
    · congr 2
      rw [List.length_drop]
      omega
    · intro i hi
      rw [List.length_drop] at hi
      have hr := hw.2 (out.length - (n + i)) (by omega) (by omega)
      rw [show (s.lastupdate + i) % 8192 = (out.length % 8192 + 8192 - (out.length - (n + i))) % 8192 by omega, hr]
      unfold back
      rw [if_pos (by omega), List.getD_eq_getElem?_getD, List.getD_eq_getElem?_getD, List.getElem?_drop]
      congr 2
      omega
  · rw [← mtfUses_append, List.take_append_drop] at e2
    exact e2

theorem letter_table : ∀ g : Fin 8, pmLetter[g.val]? = some (historyBits g, historyBase g) ∧ historyBase g + 2 ^ historyBits g ≤ 256 ∧
    historyBits g ≤ 6 := by decide

theorem long_table : ∀ j : Fin 6, pmLong[j.val]? = some (repeatBits j, repeatBase j) ∧ repeatBase j + 2 ^ repeatBits j ≤ 257 ∧ 2 ≤ repeatBase j ∧
    repeatBits j ≤ 7 := by decide

theorem letter_class {g n first x : Nat} (h : pmLetter[g]? = some (n, first)) (hx : x < 2 ^ n) :
    g < 8 ∧ n = historyBits g ∧ first = historyBase g ∧ first + x < 256 ∧ n ≤ 6 := by
  have hg : g < 8 := by
    have := (List.getElem?_eq_some_iff.1 h).1
    exact this
  obtain ⟨h1, h2, h3⟩ := letter_table ⟨g, hg⟩
  simp only [] at h1 h2 h3
  rw [h1] at h
  cases h
  exact ⟨hg, rfl, rfl, by omega, h3⟩

theorem long_class {j n first x : Nat} (h : pmLong[j]? = some (n, first)) (hx : x < 2 ^ n) :
    j < 6 ∧ n = repeatBits j ∧ first = repeatBase j ∧ first + x ≤ 256 ∧ 2 ≤ first ∧ n ≤ 7 := by
  have hg : j < 6 := by
    have := (List.getElem?_eq_some_iff.1 h).1
    exact this
  obtain ⟨h1, h2, h3, h4⟩ := long_table ⟨j, hg⟩
  simp only [] at h1 h2 h3 h4
  rw [h1] at h
  cases h
  exact ⟨hg, rfl, rfl, by omega, h3, h4⟩

theorem mtfUses_isBytes (bs : List Nat) : ∀ {l : List Nat}, IsBytes l → IsBytes bs → IsBytes (mtfUses l bs) := by
  induction bs with
  | nil => intro l h _; exact h
  | cons b bs ih =>
    intro l h hb
    refine ih (l := mtfUse l b) ?_ (fun x hx => hb x (by simp [hx]))
    intro x hx
    unfold mtfUse at hx
    rcases List.mem_cons.1 hx with rfl | hx
    · exact hb _ (by simp)
    · exact h x (List.mem_of_mem_filter hx)

theorem mtfStart_isBytes : IsBytes mtfStart := by unfold IsBytes; decide +kernel

theorem copyN_pre (d n : Nat) : ∀ out : List Nat, ∃ X, copyN d n out = out ++ X := by
  induction n with
  | zero => intro out; exact ⟨[], by simp [copyN]⟩
  | succ n ih =>
    intro out
    obtain ⟨X, h⟩ := ih (out ++ [back out d])
    exact ⟨back out d :: X, by rw [copyN, h, List.append_assoc]; rfl⟩

theorem expandTok_pre (adj : Nat) (out : List Nat) (t : Nat × Nat) : ∃ X, expandTok adj out t = out ++ X := by
  unfold expandTok
  split
  · exact ⟨_, rfl⟩
  · exact copyN_pre _ _ _

/-- One token, with the headers before it. -/
theorem pmTok_ok {out : List Nat} {σ σ1 : PmState} {s : Pm} {b0 b1 S : List Bool} {R : List Nat} {t : Nat × Nat} (H : HInv out s) (hi : PInv σ s)
    (h0 : PmHeaders out.length σ b0 σ1) (h1 : PmTok OnlyOnes σ1 out b1 t) (hr : RRep s.r (b0 ++ b1 ++ S) R) :
    ∃ s1 s2, (∀ w, Shows 8192 out w → decodeCPm2 w (out.length % 8192) out.length s = .ok (t.1, s1)) ∧
      (if t.1 < 256 then s2 = s1 else decodePPm2 s1 = .ok (t.2, s2)) ∧ PInv σ1 s2 ∧ RRep s2.r S R ∧ HInv (expandTok 254 out t) s2 ∧
      t.2 < 8192 := by
  obtain ⟨h, a1, a2⟩ := admin_ok H
  rw [List.append_assoc] at hr
  obtain ⟨s0, p1, p2, p3, p4⟩ := pmStages_ok h0 (s := { s with hist := h, lastupdate := out.length % 8192 }) (out.length + 2)
    ⟨hi.next, hi.b, hi.m, hi.l1, hi.r1, hi.l2, hi.r2, hi.t1, hi.t2⟩ hr (by omega)
  obtain ⟨p5, p6⟩ := p4
  simp only [] at p5 p6
  have hlist := mtfUses_isBytes out mtfStart_isBytes H.byt
  -- the history after the token
  have hH : ∀ s2 : Pm, s2.hist = s0.hist → s2.lastupdate = s0.lastupdate → IsBytes (expandTok 254 out t) →
      (expandTok 254 out t).length ≤ out.length + 256 → HInv (expandTok 254 out t) s2 := by
    intro s2 e1 e2 hb hl
    obtain ⟨X, hX⟩ := expandTok_pre 254 out t
    refine ⟨⟨out.length, by rw [hX, List.length_append]; omega, by omega, by rw [e2, p6], ?_⟩, hb⟩
    rw [hX, List.take_left' rfl, e1, p5]
    exact a2
  -- a copy keeps the text a byte string
  have hC : ∀ {len p : Nat}, t = (254 + len, p) → 2 ≤ len → len ≤ 256 → IsBytes (expandTok 254 out t) ∧ (expandTok 254 out t).length ≤ out.length + 256 := by
    intro len p e h2 h256
    subst e
    refine ⟨?_, ?_⟩
    · unfold expandTok
      rw [if_neg (by simp only []; omega)]
      exact copyN_isBytes _ _ (by omega) H.byt
    · rw [expandTok_length, if_neg (by simp only []; omega)]
      simp only []
      omega
  cases h1 with
  | @letter T w g n first x ht hw ho hc hx =>
    obtain ⟨c1, c2, c3, c4, c5⟩ := letter_class hc hx
    rw [List.append_assoc] at p3
    obtain ⟨r1, g1, g2⟩ := treeGet_ones (by omega) p2.r1 (p2.t1 T ht) hw ho p3
    obtain ⟨r2, g3, g4⟩ := get_bits hx (by omega) g2
    have hlt : (mtfUses mtfStart out).getD (first + x) 0 < 256 := getD_isBytes hlist _ (by rw [a2.1]; exact c4)
    refine ⟨{ s0 with r := r2, gettree1 := g }, { s0 with r := r2, gettree1 := g }, fun w' hw' => ?_, by rw [if_pos hlt], ⟨p2.next, p2.b, p2.m, p2.l1, p2.r1, p2.l2, p2.r2, p2.t1, p2.t2⟩, g4,
      hH _ rfl rfl ?_ ?_, by simp⟩
    · unfold decodeCPm2
      rw [a1 w' hw', ok_bind, p1, ok_bind, g1, ok_bind]
      simp only []
      rw [if_neg (by omega), if_pos c1, ← c2, g3, ok_bind]
      simp only []
      rw [← c3, p5, histLookup_list a2 _ c4, ok_bind]
    · unfold expandTok
      rw [if_pos hlt]
      intro y hy
      rcases List.mem_append.1 hy with hy | hy
      · exact H.byt y hy
      · rw [List.mem_singleton] at hy; rw [hy]; exact hlt
    · rw [expandTok_length, if_pos hlt]; omega
  | @copy T w bl bd g len p ht hw ho hlen hd =>
    rw [List.append_assoc, List.append_assoc] at p3
    obtain ⟨r1, g1, g2⟩ := treeGet_ones (by omega) p2.r1 (p2.t1 T ht) hw ho p3
    -- the length
    have hL : ∃ r2, (∀ w', Shows 8192 out w' → decodeCPm2 w' (out.length % 8192) out.length s = .ok (254 + len, { s0 with r := r2, gettree1 := g })) ∧
        RRep r2 (bd ++ S) R ∧ 2 ≤ len ∧ len ≤ 256 := by
      cases hlen with
      | short l1 l2 =>
        refine ⟨r1, fun w' hw' => ?_, g2, by omega, by omega⟩
        unfold decodeCPm2
        rw [a1 w' hw', ok_bind, p1, ok_bind, g1, ok_bind]
        simp only []
        rw [if_neg (by omega), if_neg (by omega), if_pos (by omega)]
        congr 2
        omega
      | @long j n first x l1 l2 =>
        obtain ⟨c1, c2, c3, c4, c5, c6⟩ := long_class l1 l2
        obtain ⟨r2, g3, g4⟩ := get_bits l2 (by omega) g2
        refine ⟨r2, fun w' hw' => ?_, g4, by omega, by omega⟩
        unfold decodeCPm2
        rw [a1 w' hw', ok_bind, p1, ok_bind, g1, ok_bind]
        simp only []
        rw [if_neg (by omega), if_neg (by omega), if_neg (by omega), show 23 + j - 23 = j by omega, ← c2, ← c3, g3, ok_bind]
        simp only []
        congr 2
        omega
    obtain ⟨r2, d1, d2, d3, d4⟩ := hL
    obtain ⟨e1, e2⟩ := hC rfl d3 d4
    -- the distance
    have hD : ∃ r3, decodePPm2 { s0 with r := r2, gettree1 := g } = .ok (p, { s0 with r := r3, gettree1 := g }) ∧ RRep r3 S R ∧ p < 8192 := by
      unfold decodePPm2
      simp only []
      cases hd with
      | two l1 l2 =>
        obtain ⟨r3, g3, g4⟩ := get_bits (show p < 2 ^ 6 by omega) (by omega) d2
        exact ⟨r3, by rw [if_pos l1, g3, ok_bind], g4, by omega⟩
      | @near T2 w2 _ l1 l2 l3 l4 l5 l6 =>
        rw [List.append_assoc] at d2
        obtain ⟨r3, g3, g4⟩ := treeGet_ones (by omega) p2.r2 (p2.t2 T2 l3) l4 l5 d2
        obtain ⟨r4, g5, g6⟩ := get_bits (show p < 2 ^ 6 by omega) (by omega) g4
        refine ⟨r4, ?_, g6, by omega⟩
        rw [if_neg (by omega), if_pos l2, g3, ok_bind]
        simp only [if_true]
        rw [g5, ok_bind]
      | @far T2 w2 u x l1 l2 l3 l4 l5 l6 l7 l8 =>
        rw [List.append_assoc] at d2
        obtain ⟨r3, g3, g4⟩ := treeGet_ones (by omega) p2.r2 (p2.t2 T2 l3) l4 l5 d2
        obtain ⟨r4, g5, g6⟩ := get_bits l8 (by omega) g4
        have hp : 2 ^ (5 + u) ≤ 2 ^ 12 := Nat.pow_le_pow_right (by omega) (by omega)
        refine ⟨r4, ?_, g6, by omega⟩
        rw [if_neg (by omega), if_pos l2, g3, ok_bind]
        simp only []
        rw [if_neg (by omega), g5, ok_bind]
        simp only []
        rw [Nat.mod_eq_of_lt (by omega)]
      | zero l1 =>
        have d2' : RRep r2 (bits 0 0 ++ S) R := d2
        obtain ⟨r3, g3, g4⟩ := get_bits (show 0 < 2 ^ 0 by omega) (by omega) d2'
        refine ⟨r3, ?_, g4, by omega⟩
        rw [if_neg (by omega), if_neg (by omega), g3, ok_bind]
    obtain ⟨r3, f1, f2, f3⟩ := hD
    refine ⟨_, { s0 with r := r3, gettree1 := g }, d1, ?_, ⟨p2.next, p2.b, p2.m, p2.l1, p2.r1, p2.l2, p2.r2, p2.t1, p2.t2⟩, f2, hH _ rfl rfl e1 e2, f3⟩
    rw [if_neg (by simp only []; omega)]
    exact f1

theorem pm2_feeds {σ : PmState} {out : List Nat} {ts : List (Nat × Nat)} {B : List Bool} (h : Pm2 OnlyOnes σ out ts B) :
    ∀ {s : Pm} {S : List Bool} {R : List Nat}, HInv out s → PInv σ s → RRep s.r (B ++ S) R →
    ∃ s', FeedsW pmSource 254 8192 out s ts s' ∧ RRep s'.r S R ∧ (∀ t ∈ ts, t.2 < 8192) ∧ ∃ σ', PInv σ' s' := by
  induction h with
  | done => intro s S R _ hi hr; exact ⟨s, rfl, hr, fun t ht => (by cases ht), _, hi⟩
  | tok h0 h1 _ ih =>
    intro s S R H hi hr
    rw [List.append_assoc] at hr
    obtain ⟨s1, s2, q1, q2, q3, q4, q5, q6⟩ := pmTok_ok H hi h0 h1 hr
    obtain ⟨s', w1, w2, w3, w4⟩ := ih q5 q3 q4
    exact ⟨s', ⟨s1, s2, q1, q2, w1⟩, w2, fun t ht => by
      rcases List.mem_cons.1 ht with rfl | ht
      · exact q6
      · exact w3 t ht, w4⟩

theorem pm2_len {Q : List Bool → Prop} {σ : PmState} {out : List Nat} {ts : List (Nat × Nat)} {B : List Bool} (h : Pm2 Q σ out ts B) :
    ∀ i, i < ts.length → (expandFrom 254 out (ts.take i)).length < (expandFrom 254 out ts).length := by
  induction h with
  | done => intro i hi; cases hi
  | @tok s s1 out b0 b1 B t ts _ h1 _ ih =>
    intro i hi
    have hex : expandFrom 254 out (t :: ts) = expandFrom 254 (expandTok 254 out t) ts := rfl
    rw [hex]
    have hpos : out.length < (expandTok 254 out t).length := by
      rw [expandTok_length]
      cases h1 with
      | letter _ _ _ _ _ => split <;> omega
      | @copy _ _ _ _ _ len _ _ _ _ hl _ =>
        have : 2 ≤ len := by
          cases hl with
          | short a b => omega
          | long a b => have := long_class a b; omega
        simp only []
        split <;> omega
    cases i with
    | zero => exact Nat.lt_of_lt_of_le hpos (expandFrom_length_le 254 ts _)
    | succ i =>
      rw [List.take_succ_cons]
      exact ih i (by simpa using hi)

/-- Sizes of the arrays of the two trees. -/
structure PmOk (g : PmG) : Prop where
  l1 : g.t1.left.size = 32
  r1 : g.t1.right.size = 32
  l2 : g.t2.left.size = 8
  r2 : g.t2.right.size = 8

theorem decodePm2_ok {tab : Arr} (ht : CrcTab tab) {ts : List (Nat × Nat)} {bs S : List Bool} {b : Bool}
    (P : Pm2 OnlyOnes PmState.start [] ts bs) {B T : List Nat} (hb : IsBytes B) (hbits : bytesBits B = b :: bs ++ S) {g : PmG} (hg : PmOk g) {h : Hf} :
    ∃ n g', n ≤ B.length ∧ decodePm2 tab g h (expand 254 ts).length B.length (B ++ T) =
      .ok (⟨expand 254 ts, crc16 0 (expand 254 ts), n, (B ++ T).drop n, h⟩, g') ∧ (S.length < 8 → n = B.length) ∧ PmOk g' := by
  obtain ⟨r, r1, r2⟩ := initGetbits_spec ⟨B ++ T, B.length, 0, 0, 0⟩ B T rfl rfl hb
  rw [hbits, List.cons_append] at r2
  obtain ⟨h0, i1, i2⟩ := histInit_ok
  obtain ⟨r', g1, g2⟩ := get_flag r2
  obtain ⟨s', f1, f2, f3, σ', f4⟩ := pm2_feeds P (s := ⟨r', g, h0, 0, 0, 0⟩) (S := S) (R := T) ⟨⟨0, by simp, by simp, rfl, i2⟩, fun x hx => by cases hx⟩
    ⟨rfl, fun h => absurd rfl h, fun h => absurd rfl h, hg.l1, hg.r1, hg.l2, hg.r2, fun T hT => (by cases hT), fun T hT => (by cases hT)⟩ g2
  have hdec := decodeWin_okW (orig := (expand 254 ts).length) ht (by omega : 254 ≤ 255) ts _ s' f1 (fun u hu _ => f3 u hu) (fun i hi => pm2_len P i hi)
    (Nat.le_refl _) ⟨by omega, ⟨8, rfl⟩, fun h => by omega⟩
  have hrun : decodePm2 tab g h (expand 254 ts).length B.length (B ++ T) =
      .ok (⟨expand 254 ts, crc16 0 (expand 254 ts), B.length - s'.r.compsize, s'.r.inp, h⟩, s'.g) := by
    unfold decodePm2 decodeStartPm2
    rw [r1, ok_bind, i1, ok_bind, g1, ok_bind, ok_bind, hdec, ok_bind]
  obtain ⟨a1, a2⟩ := decodePm2_adv hrun
  simp only [] at a1 a2
  refine ⟨B.length - s'.r.compsize, s'.g, a2, ?_, ?_, f4.l1, f4.r1, f4.l2, f4.r2⟩
  · rw [hrun, a1]
  · intro hS
    obtain ⟨C, c1, c2, c3, c4⟩ := f2.rest
    have hl := congrArg List.length c4
    rw [bytesBits_length, List.length_drop] at hl
    omega

end Lha
