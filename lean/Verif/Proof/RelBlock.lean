import Verif.Proof.RelTree
import Verif.Proof.Huf
/-!
# The bits of a block depend only on its tokens

Two runs of the block coder on the same tokens, from states that may differ in everything that earlier compressions left
behind, write the same bits.
-/

namespace Lha

open Spec Finset

/-- Two arrays agree below `n`. -/
def AgreeTo (n : Nat) (a b : Arr) : Prop := ∀ x, x < n → a.get x = b.get x

theorem trimZeros_eq {a a' : Arr} : ∀ n, n ≤ a.size → n ≤ a'.size → AgreeTo n a a' → trimZeros a n = trimZeros a' n := by
  intro n
  induction n with
  | zero => intros; rfl
  | succ n ih =>
    intro h1 h2 h
    unfold trimZeros
    rw [rd_ok (show n < a.size by omega), rd_ok (show n < a'.size by omega), ok_bind, ok_bind, h n (by omega)]
    rw [ih (by omega) (by omega) (fun x hx => h x (by omega))]

theorem zeroRun_eq {a a' : Arr} {n : Nat} (h1 : n ≤ a.size) (h2 : n ≤ a'.size) (h : AgreeTo n a a') :
    ∀ f i, zeroRun a n f i = zeroRun a' n f i := by
  intro f
  induction f with
  | zero => intros; rfl
  | succ f ih =>
    intro i
    unfold zeroRun
    by_cases hi : i < n
    · rw [if_pos hi, if_pos hi, rd_ok (show i < a.size by omega), rd_ok (show i < a'.size by omega), ok_bind, ok_bind,
        h i hi, ih]
    · rw [if_neg hi, if_neg hi]

theorem skipZeros6_eq {a a' : Arr} (h1 : 6 ≤ a.size) (h2 : 6 ≤ a'.size) (h : AgreeTo 6 a a') :
    ∀ f i, skipZeros6 a f i = skipZeros6 a' f i := by
  intro f
  induction f with
  | zero => intros; rfl
  | succ f ih =>
    intro i
    unfold skipZeros6
    by_cases hi : i < 6
    · rw [if_pos hi, if_pos hi, rd_ok (show i < a.size by omega), rd_ok (show i < a'.size by omega), ok_bind, ok_bind,
        h i hi, ih]
    · rw [if_neg hi, if_neg hi]

theorem wptLoop_eq {a a' : Arr} {n N special : Nat} (hn : n ≤ N) (h1 : N ≤ a.size) (h2 : N ≤ a'.size) (h : AgreeTo N a a')
    (hs : special ≠ 0 → 6 ≤ N) : ∀ f i w, wptLoop a n special f i w = wptLoop a' n special f i w := by
  intro f
  induction f with
  | zero => intros; rfl
  | succ f ih =>
    intro i w
    unfold wptLoop
    by_cases hi : i < n
    · rw [if_pos hi, if_pos hi, rd_ok (show i < a.size by omega), rd_ok (show i < a'.size by omega), ok_bind, ok_bind,
        h i (by omega)]
      by_cases hsp : i + 1 = special
      · have h6 := hs (by omega)
        simp only [if_pos hsp, ih, skipZeros6_eq (a := a) (a' := a') (by omega) (by omega) (fun x hx => h x (by omega))]
      · simp only [if_neg hsp, ih]
    · rw [if_neg hi, if_neg hi]

theorem sendPt_eq {u u' : TreeRes} {nn nbit special : Nat} (hr : u.root = u'.root) (h1 : nn ≤ u.bitlen.size)
    (h2 : nn ≤ u'.bitlen.size) (h : AgreeTo nn u.bitlen u'.bitlen) (hs : special ≠ 0 → 6 ≤ nn) (w : BW) :
    sendPt u nn nbit special w = sendPt u' nn nbit special w := by
  unfold sendPt
  rw [hr]
  by_cases hc : u'.root ≥ nn
  · rw [if_pos hc, if_pos hc]
    unfold writePtLen
    obtain ⟨m, m1, m2, _⟩ := trimZeros_ok u.bitlen nn h1
    rw [← trimZeros_eq nn h1 h2 h, m1, ok_bind, ok_bind]
    simp only [wptLoop_eq m2 h1 h2 h hs]
  · rw [if_neg hc, if_neg hc]

theorem incr_sim {n : Nat} {a a' r r' : Arr} {i d : Nat} (h : AgreeTo n a a') (hr : incr a i d = .ok r) (hr' : incr a' i d = .ok r') :
    AgreeTo n r r' := by
  unfold incr at hr hr'
  obtain ⟨v, e1, e2⟩ := bind_ok hr
  obtain ⟨v', f1, f2⟩ := bind_ok hr'
  obtain ⟨_, rfl⟩ := rd_inv e1
  obtain ⟨_, rfl⟩ := rd_inv f1
  obtain ⟨_, rfl⟩ := wr_inv e2
  obtain ⟨_, rfl⟩ := wr_inv f2
  intro x hx
  rw [Arr.get_upd, Arr.get_upd]
  by_cases hxi : x = i
  · rw [if_pos hxi, if_pos hxi, h i (by omega)]
  · rw [if_neg hxi, if_neg hxi, h x hx]

theorem ctfRun_sim {n : Nat} {a a' r r' : Arr} {c : Nat} (h : AgreeTo n a a') (hr : ctfRun c a = .ok r) (hr' : ctfRun c a' = .ok r') :
    AgreeTo n r r' := by
  unfold ctfRun at hr hr'
  by_cases h2 : c ≤ 2
  · rw [if_pos h2] at hr hr'; exact incr_sim h hr hr'
  · rw [if_neg h2] at hr hr'
    by_cases h18 : c ≤ 18
    · rw [if_pos h18] at hr hr'; exact incr_sim h hr hr'
    · rw [if_neg h18] at hr hr'
      by_cases h19 : c = 19
      · rw [if_pos h19] at hr hr'
        obtain ⟨v, e1, e2⟩ := bind_ok hr
        obtain ⟨v', f1, f2⟩ := bind_ok hr'
        exact incr_sim (incr_sim h e1 f1) e2 f2
      · rw [if_neg h19] at hr hr'; exact incr_sim h hr hr'

theorem ctfLoop_sim {cl cl' : Arr} {n N : Nat} (h1 : n ≤ cl.size) (h2 : n ≤ cl'.size) (hc : AgreeTo n cl cl') :
    ∀ f i (a a' r r' : Arr), AgreeTo N a a' → ctfLoop cl n f i a = .ok r → ctfLoop cl' n f i a' = .ok r' → AgreeTo N r r' := by
  intro f
  induction f with
  | zero => intro i a a' r r' _ h; cases h
  | succ f ih =>
    intro i a a' r r' ha h h'
    unfold ctfLoop at h h'
    by_cases hi : i < n
    · rw [if_pos hi, rd_ok (show i < cl.size by omega), ok_bind] at h
      rw [if_pos hi, rd_ok (show i < cl'.size by omega), ok_bind, ← hc i hi, ← zeroRun_eq h1 h2 hc] at h'
      by_cases hz : cl.get i = 0
      · rw [if_pos hz] at h h'
        obtain ⟨j, e1, e2⟩ := bind_ok h
        rw [e1, ok_bind] at h'
        obtain ⟨v, e3, e4⟩ := bind_ok e2
        obtain ⟨v', f3, f4⟩ := bind_ok h'
        exact ih _ _ _ _ _ (ctfRun_sim ha e3 f3) e4 f4
      · rw [if_neg hz] at h h'
        obtain ⟨v, e3, e4⟩ := bind_ok h
        obtain ⟨v', f3, f4⟩ := bind_ok h'
        exact ih _ _ _ _ _ (incr_sim ha e3 f3) e4 f4
    · rw [if_neg hi] at h h'
      cases h; cases h'
      exact ha

theorem wclLoop_congr {cl cl' len code : Arr} {n : Nat} (h1 : n ≤ cl.size) (h2 : n ≤ cl'.size) (hc : AgreeTo n cl cl') :
    ∀ f i w, wclLoop cl len code n f i w = wclLoop cl' len code n f i w := by
  intro f
  induction f with
  | zero => intros; rfl
  | succ f ih =>
    intro i w
    unfold wclLoop
    by_cases hi : i < n
    · rw [if_pos hi, if_pos hi, rd_ok (show i < cl.size by omega), rd_ok (show i < cl'.size by omega), ok_bind, ok_bind,
        hc i hi, zeroRun_eq h1 h2 hc]
      simp only [ih]
    · rw [if_neg hi, if_neg hi]

/-- Two tables write the same for every symbol in use. -/
def SameSyms (P : Nat → Prop) (len code len' code' : Arr) : Prop :=
  ∀ c, P c → ∀ w, putSym len code c w = putSym len' code' c w

theorem putZeros_eq {len code len' code' : Arr} (h : ∀ w, putSym len code 0 w = putSym len' code' 0 w) :
    ∀ k w, putZeros len code k w = putZeros len' code' k w := by
  intro k
  induction k with
  | zero => intros; rfl
  | succ k ih => intro w; simp only [putZeros, h, ih]

/-- A run of zeros: the symbols written have been counted. -/
theorem run_same (count : Nat) (hc : 1 ≤ count) (hc2 : count ≤ 510) (tF : Arr) (hs : tF.size = 37)
    (hb : ∀ x, x < 19 → tF.get x ≤ 1000) :
    ∃ tF', ctfRun count tF = .ok tF' ∧ Grow count tF tF' ∧
    ∀ (len code len' code' : Arr), SameSyms (fun c => c < 19 ∧ tF'.get c ≠ 0) len code len' code' →
      ∀ w, wclRun len code count w = wclRun len' code' count w := by
  unfold ctfRun wclRun
  by_cases h2 : count ≤ 2
  · rw [if_pos h2]
    obtain ⟨tF', a1, a2, a3, _⟩ := incr_grow (a := tF) (i := 0) (d := count) (by omega)
      (by have := hb 0 (by omega); omega) hc
    refine ⟨tF', a1, a2, fun len code len' code' h w => ?_⟩
    rw [if_pos h2, if_pos h2]
    exact putZeros_eq (h 0 ⟨by omega, a3⟩) _ _
  · rw [if_neg h2]
    by_cases h18 : count ≤ 18
    · rw [if_pos h18]
      obtain ⟨tF', a1, a2, a3, _⟩ := incr_grow (a := tF) (i := 1) (d := 1) (by omega)
        (by have := hb 1 (by omega); omega) (by omega)
      refine ⟨tF', a1, a2.le hc, fun len code len' code' h w => ?_⟩
      rw [if_neg h2, if_pos h18, if_neg h2, if_pos h18, h 1 ⟨by omega, a3⟩]
    · rw [if_neg h18]
      by_cases h19 : count = 19
      · rw [if_pos h19]
        obtain ⟨tF1, a1, a2, a3, a4⟩ := incr_grow (a := tF) (i := 0) (d := 1) (by omega)
          (by have := hb 0 (by omega); omega) (by omega)
        obtain ⟨tF', b1, b2, b3, _⟩ := incr_grow (a := tF1) (i := 1) (d := 1) (by rw [a2.size]; omega)
          (by rw [a4 1 (by omega)]; have := hb 1 (by omega); omega) (by omega)
        rw [a1, ok_bind]
        refine ⟨tF', b1, (a2.trans b2).le (by omega), fun len code len' code' h w => ?_⟩
        simp only [if_neg h2, if_neg h18, if_pos h19, h 0 ⟨by omega, b2.nz a3⟩, h 1 ⟨by omega, b3⟩]
      · rw [if_neg h19]
        obtain ⟨tF', a1, a2, a3, _⟩ := incr_grow (a := tF) (i := 2) (d := 1) (by omega)
          (by have := hb 2 (by omega); omega) (by omega)
        refine ⟨tF', a1, a2.le hc, fun len code len' code' h w => ?_⟩
        simp only [if_neg h2, if_neg h18, if_neg h19, h 2 ⟨by omega, a3⟩]

/-- The lengths of the letter/length code: the symbols written have been counted. -/
theorem clen_same (cLen : Arr) (n : Nat) (hn : n ≤ 510) (hs : cLen.size = 510) (hl : ∀ x, x < n → cLen.get x ≤ 16) :
    ∀ (f i : Nat) (tF : Arr), n - i < f → i ≤ n → tF.size = 37 → (∀ x, x < 19 → tF.get x ≤ i) →
    ∃ tF', ctfLoop cLen n f i tF = .ok tF' ∧ Grow (n - i) tF tF' ∧
    ∀ (len code len' code' : Arr), SameSyms (fun c => c < 19 ∧ tF'.get c ≠ 0) len code len' code' →
      ∀ w, wclLoop cLen len code n f i w = wclLoop cLen len' code' n f i w := by
  intro f
  induction f with
  | zero => intro i tF hf; omega
  | succ f ih =>
    intro i tF hf hi19 hts htb
    unfold ctfLoop
    by_cases hi : i < n
    · simp only [if_pos hi, rd_ok (show i < cLen.size by omega), ok_bind]
      by_cases hz : cLen.get i = 0
      · obtain ⟨j, j1, j2, j3, j4⟩ := zeroRun_ok cLen n (by omega) (n - (i + 1)) (i + 1) (by omega)
        obtain ⟨tF1, a1, a2, a5⟩ := run_same (j - i) (by omega) (by omega) tF hts
          (fun x hx => by have := htb x hx; omega)
        obtain ⟨tF', b1, b2, b5⟩ := ih j tF1 (by omega) j3 (by rw [a2.size, hts])
          (fun x hx => by have := a2.bound x; have := htb x hx; omega)
        simp only [if_pos hz, j1, ok_bind, a1]
        refine ⟨tF', b1, (a2.trans b2).le (by omega), fun len code len' code' h w => ?_⟩
        simp only [wclLoop, if_pos hi, rd_ok (show i < cLen.size by omega), ok_bind, if_pos hz, j1,
          a5 len code len' code' (fun c hc => h c ⟨hc.1, b2.nz hc.2⟩), b5 len code len' code' h]
      · have hk := hl i hi
        obtain ⟨tF1, a1, a2, a3, _⟩ := incr_grow (a := tF) (i := cLen.get i + 2) (d := 1) (by omega)
          (by have := htb (cLen.get i + 2) (by omega); omega) (by omega)
        obtain ⟨tF', b1, b2, b5⟩ := ih (i + 1) tF1 (by omega) (by omega) (by rw [a2.size, hts])
          (fun x hx => by have := a2.bound x; have := htb x hx; omega)
        simp only [if_neg hz, ok_bind, a1]
        refine ⟨tF', b1, (a2.trans b2).le (by omega), fun len code len' code' h w => ?_⟩
        simp only [wclLoop, if_pos hi, rd_ok (show i < cLen.size by omega), ok_bind, if_neg hz,
          h (cLen.get i + 2) ⟨by omega, b2.nz a3⟩, b5 len code len' code' h]
    · simp only [if_neg hi]
      refine ⟨tF, rfl, ⟨rfl, fun _ => by omega, fun _ => by omega⟩, fun len code len' code' h w => ?_⟩
      rw [wclLoop, if_neg hi, wclLoop, if_neg hi]

theorem putSym_eq {len code len' code' : Arr} {c : Nat} (h1 : c < len.size) (h2 : c < code.size) (h1' : c < len'.size)
    (h2' : c < code'.size) (hl : len.get c = len'.get c) (hc : code.get c = code'.get c) (w : BW) :
    putSym len code c w = putSym len' code' c w := by
  unfold putSym
  rw [rd_ok h1, rd_ok h1', ok_bind, ok_bind, rd_ok h2, rd_ok h2', ok_bind, ok_bind, hl, hc]

/-- Two trees for the same counts write the same for every counted symbol. -/
theorem tree_same {nchar : Nat} {freq bitlen code left right freq' bitlen' code' left' right' : Arr}
    (hz : TreeSizes nchar freq bitlen code left right) (hz' : TreeSizes nchar freq' bitlen' code' left' right')
    (ha : AgreeTo nchar freq freq') {r r' : TreeRes}
    (h : makeTree nchar freq bitlen code left right = .ok r) (h' : makeTree nchar freq' bitlen' code' left' right' = .ok r') :
    r.root = r'.root ∧ AgreeTo nchar r.bitlen r'.bitlen ∧ r.freq.get r.root = r'.freq.get r'.root ∧
      SameSyms (fun c => c < nchar ∧ freq.get c ≠ 0) r.bitlen r.code r'.bitlen r'.code := by
  obtain ⟨a1, a2, a3, a4⟩ := makeTree_sim hz hz' ha h h'
  refine ⟨a1, a2, a3, fun c hc w => ?_⟩
  obtain ⟨u, u1, u2⟩ := makeTree_use hz
  obtain ⟨u', u1', u2'⟩ := makeTree_use hz'
  rw [h] at u1; cases u1
  rw [h'] at u1'; cases u1'
  have := hz.bitlen; have := hz.code; have := hz'.bitlen; have := hz'.code
  exact putSym_eq (by rw [u2.bsize]; omega) (by rw [u2.csize]; omega) (by rw [u2'.bsize]; omega) (by rw [u2'.csize]; omega)
    (a2 c hc.1) (a4 c hc.1 hc.2) w

/-- The letter/length code: same lengths, same bits. -/
theorem sendC_sim {root : Nat} {h h' : Hf} (ok : HfOk h) (ok' : HfOk h') (hc : AgreeTo 510 h.cLen h'.cLen)
    (hl : root ≥ 510 → ∀ x, x < 510 → h.cLen.get x ≤ 16) {w : BW} {e e' : Enc} (he : sendC root h w = .ok e)
    (he' : sendC root h' w = .ok e') : e.w = e'.w := by
  unfold sendC at he he'
  by_cases hr : root ≥ 510
  · rw [if_pos hr] at he he'
    have s1 := ok.cLen
    have s1' := ok'.cLen
    unfold countTFreq at he he'
    obtain ⟨tf0, z1, z2, z3⟩ := fillRange_ok 0 19 0 h.tFreq (by have := ok.tFreq; omega)
    obtain ⟨tf0', z1', z2', z3'⟩ := fillRange_ok 0 19 0 h'.tFreq (by have := ok'.tFreq; omega)
    obtain ⟨n, n1, n2, n3, n4⟩ := trimZeros_ok h.cLen 510 (by omega)
    have n1' : trimZeros h'.cLen 510 = .ok n := by rw [← trimZeros_eq 510 (by omega) (by omega) hc, n1]
    have hcn : AgreeTo n h.cLen h'.cLen := fun x hx => hc x (by omega)
    obtain ⟨tf, a1, a2, a3⟩ := clen_same h.cLen n n2 s1 (fun x hx => hl hr x (by omega)) (n + 1) 0 tf0 (by omega)
      (by omega) (by rw [z2]; exact ok.tFreq) (fun x hx => by rw [z3, if_pos ⟨by omega, by omega⟩])
    obtain ⟨tf', a1', a2', _⟩ := clen_same h'.cLen n n2 s1' (fun x hx => by rw [← hc x (by omega)]; exact hl hr x (by omega))
      (n + 1) 0 tf0' (by omega) (by omega) (by rw [z2']; exact ok'.tFreq)
      (fun x hx => by rw [z3', if_pos ⟨by omega, by omega⟩])
    have htf : AgreeTo 19 tf tf' := ctfLoop_sim (by omega) (by omega) hcn _ _ _ _ _ _
      (fun x hx => by rw [z3, z3', if_pos ⟨by omega, by omega⟩, if_pos ⟨by omega, by omega⟩]) a1 a1'
    rw [z1, ok_bind, n1, ok_bind, a1, ok_bind] at he
    rw [z1', ok_bind, n1', ok_bind, a1', ok_bind] at he'
    have hz : TreeSizes 19 tf h.ptLen h.ptCode h.left h.right :=
      ⟨by omega, by omega, by rw [a2.size, z2, ok.tFreq], by rw [ok.ptLen]; omega, by rw [ok.ptCode]; omega,
        by rw [ok.left]; omega, by rw [ok.right]; omega⟩
    have hz' : TreeSizes 19 tf' h'.ptLen h'.ptCode h'.left h'.right :=
      ⟨by omega, by omega, by rw [a2'.size, z2', ok'.tFreq], by rw [ok'.ptLen]; omega, by rw [ok'.ptCode]; omega,
        by rw [ok'.left]; omega, by rw [ok'.right]; omega⟩
    obtain ⟨u, u1, u2⟩ := makeTree_use hz
    obtain ⟨u', u1', u2'⟩ := makeTree_use hz'
    obtain ⟨t1, t2, _, t4⟩ := tree_same hz hz' htf u1 u1'
    rw [u1, ok_bind] at he
    rw [u1', ok_bind, ← sendPt_eq t1 (by rw [u2.bsize, ok.ptLen]; omega) (by rw [u2'.bsize, ok'.ptLen]; omega) t2
      (fun _ => by omega)] at he'
    obtain ⟨w1, b1, b2⟩ := bind_ok he
    rw [b1, ok_bind] at he'
    unfold writeCLen at b2 he'
    rw [n1, ok_bind] at b2
    rw [n1', ok_bind] at he'
    obtain ⟨w2, c1, c2⟩ := bind_ok b2
    obtain ⟨w3, c3, c4⟩ := bind_ok c1
    rw [c3, ok_bind, ← wclLoop_congr (by omega) (by omega) hcn, ← a3 _ _ _ _ t4, c4, ok_bind] at he'
    cases c2
    cases he'
    rfl
  · rw [if_neg hr] at he he'
    obtain ⟨w1, b1, b2⟩ := bind_ok he
    rw [b1, ok_bind] at he'
    obtain ⟨w2, b3, b4⟩ := bind_ok b2
    rw [b3, ok_bind] at he'
    obtain ⟨w3, b5, b6⟩ := bind_ok b4
    rw [b5, ok_bind] at he'
    obtain ⟨w4, b7, b8⟩ := bind_ok b6
    rw [b7, ok_bind] at he'
    cases b8
    cases he'
    rfl

/-- The block header: same counts, same bits, and codes that write the same for every counted symbol. -/
theorem sbTrees_sim {e e' : Enc} (ok : HfOk e.h) (ok' : HfOk e'.h) (hw : e.w = e'.w) (hnp1 : 1 ≤ e.h.np)
    (hnp2 : e.h.np ≤ 17) (hnp : e.h.np = e'.h.np) (hpb : e.h.pbit = e'.h.pbit) {W : List Bool} (hW : WRep e.w W)
    (hcf : AgreeTo 510 e.h.cFreq e'.h.cFreq) (hpf : AgreeTo e.h.np e.h.pFreq e'.h.pFreq) {n n' : Nat} {r r' : Enc}
    (h : sbTrees e = .ok (n, r)) (h' : sbTrees e' = .ok (n', r')) :
    n = n' ∧ r.w = r'.w ∧ SameSyms (fun c => c < 510 ∧ e.h.cFreq.get c ≠ 0) r.h.cLen r.h.cCode r'.h.cLen r'.h.cCode ∧
      SameSyms (fun c => c < e.h.np ∧ e.h.pFreq.get c ≠ 0) r.h.ptLen r.h.ptCode r'.h.ptLen r'.h.ptCode := by
  have hz : TreeSizes 510 e.h.cFreq e.h.cLen e.h.cCode e.h.left e.h.right :=
    ⟨by omega, by omega, by rw [ok.cFreq], by rw [ok.cLen], by rw [ok.cCode], by rw [ok.left], by rw [ok.right]⟩
  have hz' : TreeSizes 510 e'.h.cFreq e'.h.cLen e'.h.cCode e'.h.left e'.h.right :=
    ⟨by omega, by omega, by rw [ok'.cFreq], by rw [ok'.cLen], by rw [ok'.cCode], by rw [ok'.left], by rw [ok'.right]⟩
  obtain ⟨t, t1, t2⟩ := makeTree_use hz
  obtain ⟨t', t1', t2'⟩ := makeTree_use hz'
  obtain ⟨q1, q2, q3, q4⟩ := tree_same hz hz' hcf t1 t1'
  unfold sbTrees at h h'
  rw [t1, ok_bind] at h
  rw [t1', ok_bind] at h'
  obtain ⟨sz, a1, a2⟩ := bind_ok h
  obtain ⟨sz', a1', a2'⟩ := bind_ok h'
  have hsz : sz = sz' := by rw [(rd_inv a1).2, (rd_inv a1').2, q3]
  subst hsz
  obtain ⟨w1, c1, c2, c3, c4⟩ := Puts.bits 16 sz (by omega) e.w W hW
  rw [c1, ok_bind] at a2
  rw [← hw, c1, ok_bind] at a2'
  have hok1 : HfOk { e.h with cFreq := t.freq, cLen := t.bitlen, cCode := t.code, left := t.left, right := t.right } :=
    ⟨by rw [t2.lsize]; exact ok.left, by rw [t2.rsize]; exact ok.right, by rw [t2.fsize]; exact ok.cFreq, ok.pFreq,
      ok.tFreq, by rw [t2.bsize]; exact ok.cLen, ok.ptLen, by rw [t2.csize]; exact ok.cCode, ok.ptCode, ok.cTable,
      ok.ptTable⟩
  have hok1' : HfOk { e'.h with cFreq := t'.freq, cLen := t'.bitlen, cCode := t'.code, left := t'.left, right := t'.right } :=
    ⟨by rw [t2'.lsize]; exact ok'.left, by rw [t2'.rsize]; exact ok'.right, by rw [t2'.fsize]; exact ok'.cFreq, ok'.pFreq,
      ok'.tFreq, by rw [t2'.bsize]; exact ok'.cLen, ok'.ptLen, by rw [t2'.csize]; exact ok'.cCode, ok'.ptCode, ok'.cTable,
      ok'.ptTable⟩
  obtain ⟨e1, _, _, _, _, b1, _, _, _, b5, b6, _⟩ := sendC_ok t2 _ hok1 rfl w1 _ c2
  obtain ⟨e1', _, _, _, _, b1', _, _, _, b5', b6', _⟩ := sendC_ok t2' _ hok1' rfl w1 _ c2
  have hle : t.root ≥ 510 → ∀ x, x < 510 → t.bitlen.get x ≤ 16 := by
    intro hr x hx
    rcases t2.cases with ⟨_, _, m3, _⟩ | ⟨s1, _⟩
    · exact m3.le16 x hx
    · omega
  have hw1 : e1.w = e1'.w := sendC_sim hok1 hok1' q2 hle b1 (by rw [q1]; exact b1')
  rw [b1, ok_bind] at a2
  rw [b1', ok_bind] at a2'
  have hz2 : TreeSizes e.h.np e.h.pFreq e1.h.ptLen e1.h.ptCode e1.h.left e1.h.right :=
    ⟨by omega, by omega, by rw [ok.pFreq]; omega, by rw [b6.ptLen]; omega, by rw [b6.ptCode]; omega,
      by rw [b6.left]; omega, by rw [b6.right]; omega⟩
  have hz2' : TreeSizes e.h.np e'.h.pFreq e1'.h.ptLen e1'.h.ptCode e1'.h.left e1'.h.right :=
    ⟨by omega, by omega, by rw [ok'.pFreq]; omega, by rw [b6'.ptLen]; omega, by rw [b6'.ptCode]; omega,
      by rw [b6'.left]; omega, by rw [b6'.right]; omega⟩
  obtain ⟨v, v1, v2⟩ := makeTree_use hz2
  obtain ⟨v', v1', v2'⟩ := makeTree_use hz2'
  obtain ⟨p1, p2, p3, p4⟩ := tree_same hz2 hz2' hpf v1 v1'
  rw [show e1.h.np = e.h.np by rw [b5], show e1.h.pFreq = e.h.pFreq by rw [b5], show e1.h.pbit = e.h.pbit by rw [b5], v1,
    ok_bind] at a2
  rw [show e1'.h.np = e.h.np by rw [b5']; exact hnp.symm, show e1'.h.pFreq = e'.h.pFreq by rw [b5'],
    show e1'.h.pbit = e.h.pbit by rw [b5']; exact hpb.symm, v1', ok_bind,
    ← sendPt_eq p1 (by rw [v2.bsize, b6.ptLen]; omega) (by rw [v2'.bsize, b6'.ptLen]; omega) p2 (fun h => absurd rfl h),
    ← hw1] at a2'
  obtain ⟨w2, d1, d2⟩ := bind_ok a2
  rw [d1, ok_bind] at a2'
  cases d2
  cases a2'
  refine ⟨rfl, rfl, ?_, p4⟩
  show SameSyms _ e1.h.cLen e1.h.cCode e1'.h.cLen e1'.h.cCode
  rw [show e1.h.cLen = t.bitlen by rw [b5], show e1.h.cCode = t.code by rw [b5], show e1'.h.cLen = t'.bitlen by rw [b5'],
    show e1'.h.cCode = t'.code by rw [b5']]
  exact q4

/-- The flag bytes are determined by the tokens. -/
theorem BufCore.head_eq {h h' : Hf} {tk : Nat → Nat × Nat} {n m : Nat} (b : BufCore h tk n m) (b' : BufCore h' tk n m)
    {g : Nat} (hg : 8 * g < m) : h.buf.get (thd tk g) = h'.buf.get (thd tk g) := by
  obtain ⟨a1, a2⟩ := b.head g hg
  obtain ⟨c1, c2⟩ := b'.head g hg
  refine Nat.eq_of_testBit_eq (fun i => ?_)
  by_cases hi : i < 8
  · have e1 := a2 (7 - i) (by omega)
    have e2 := c2 (7 - i) (by omega)
    rw [show 7 - (7 - i) = i by omega] at e1 e2
    have := e1.trans e2.symm
    exact Bool.eq_iff_iff.mpr this
  · have hp : 2 ^ 8 ≤ 2 ^ i := Nat.pow_le_pow_right (by omega) (by omega)
    rw [Nat.testBit_lt_two_pow (by omega), Nat.testBit_lt_two_pow (by omega)]

theorem sbToken_eq {h h' k k' : Hf} {tk : Nat → Nat × Nat} {n i : Nat} (b : BufCore k tk n n) (b' : BufCore k' tk n n)
    (hb : h.buf = k.buf) (hb' : h'.buf = k'.buf)
    (hc : SameSyms (fun c => ∃ i, i < n ∧ c = (tk i).1) h.cLen h.cCode h'.cLen h'.cCode)
    (hp : SameSyms (fun c => ∃ i, i < n ∧ 256 ≤ (tk i).1 ∧ c = bitLen (tk i).2) h.ptLen h.ptCode h'.ptLen h'.ptCode)
    (hi : i < n) (w : BW) :
    sbToken h (k.buf.get (thd tk (i / 8)) * 2 ^ (i % 8) % 256) (tat tk i) w
      = sbToken h' (k.buf.get (thd tk (i / 8)) * 2 ^ (i % 8) % 256) (tat tk i) w ∧
    ∀ p w', sbToken h (k.buf.get (thd tk (i / 8)) * 2 ^ (i % 8) % 256) (tat tk i) w = .ok (p, w') →
      p = toff tk (i + 1) + (i + 1 + 7) / 8 := by
  have hat := b.tat_le hi
  have hbs := b.bsize
  have hbs' := b'.bsize
  obtain ⟨g1, g2⟩ := b.head (i / 8) (by omega)
  obtain ⟨b1, b2⟩ := b.body i hi
  obtain ⟨b1', b2'⟩ := b'.body i hi
  obtain ⟨t1, t2, t3⟩ := b.tok i hi
  have hbit : (k.buf.get (thd tk (i / 8)) * 2 ^ (i % 8) % 256 / 128 % 2 = 1) ↔ 256 ≤ (tk i).1 := by
    rw [flag_bit _ _ (by omega), g2 (i % 8) (by omega)]
    rw [show 8 * (i / 8) + i % 8 = i by omega]
    exact ⟨fun h => h.2, fun h => ⟨hi, h⟩⟩
  have hnext : tat tk i + tsz (tk i) = toff tk (i + 1) + (i + 1 + 7) / 8 := by
    rw [toff_succ]; unfold tat; omega
  unfold sbToken
  rw [hb, hb']
  by_cases h256 : 256 ≤ (tk i).1
  · have hts : tsz (tk i) = 3 := by unfold tsz; rw [if_pos h256]
    obtain ⟨b3, b4⟩ := b2 h256
    obtain ⟨b3', b4'⟩ := b2' h256
    rw [if_pos (hbit.mpr h256), if_pos (hbit.mpr h256), rd_ok (show tat tk i < k.buf.size by omega),
      rd_ok (show tat tk i < k'.buf.size by omega), ok_bind, ok_bind, b1, b1',
      show (tk i).1 % 256 + 256 = (tk i).1 by omega, show (tat tk i + 1) % 65536 = tat tk i + 1 by omega,
      show (tat tk i + 2) % 65536 = tat tk i + 2 by omega, rd_ok (show tat tk i + 1 < k.buf.size by omega),
      rd_ok (show tat tk i + 1 < k'.buf.size by omega), rd_ok (show tat tk i + 2 < k.buf.size by omega),
      rd_ok (show tat tk i + 2 < k'.buf.size by omega), b3, b4, b3', b4']
    simp only [ok_bind]
    rw [show ((tk i).2 / 256 * 256 + (tk i).2 % 256) % 65536 = (tk i).2 by omega,
      show (tat tk i + 3) % 65536 = toff tk (i + 1) + (i + 1 + 7) / 8 by omega]
    constructor
    · simp only [encodeP, hc _ ⟨i, hi, rfl⟩, hp _ ⟨i, hi, h256, rfl⟩]
    · intro p w' h
      obtain ⟨w1, _, e2⟩ := bind_ok h
      obtain ⟨w2, _, e4⟩ := bind_ok e2
      cases e4
      rfl
  · have hts : tsz (tk i) = 1 := by unfold tsz; rw [if_neg h256]
    rw [if_neg (fun e => h256 (hbit.mp e)), if_neg (fun e => h256 (hbit.mp e)), rd_ok (show tat tk i < k.buf.size by omega),
      rd_ok (show tat tk i < k'.buf.size by omega), ok_bind, ok_bind, b1, b1', show (tk i).1 % 256 = (tk i).1 by omega,
      show (tat tk i + 1) % 65536 = toff tk (i + 1) + (i + 1 + 7) / 8 by omega, hc _ ⟨i, hi, rfl⟩]
    refine ⟨rfl, fun p w' h => ?_⟩
    obtain ⟨w1, _, e2⟩ := bind_ok h
    cases e2
    rfl

theorem sbTokens_eq {h h' k k' : Hf} {tk : Nat → Nat × Nat} {n : Nat} (b : BufCore k tk n n) (b' : BufCore k' tk n n)
    (hb : h.buf = k.buf) (hb' : h'.buf = k'.buf)
    (hc : SameSyms (fun c => ∃ i, i < n ∧ c = (tk i).1) h.cLen h.cCode h'.cLen h'.cCode)
    (hp : SameSyms (fun c => ∃ i, i < n ∧ 256 ≤ (tk i).1 ∧ c = bitLen (tk i).2) h.ptLen h.ptCode h'.ptLen h'.ptCode) :
    ∀ (m i flags : Nat) (w : BW), i + m = n →
    (i % 8 ≠ 0 → flags = k.buf.get (thd tk (i / 8)) * 2 ^ ((i - 1) % 8) % 256) →
    sbTokens h m i (toff tk i + (i + 7) / 8) flags w = sbTokens h' m i (toff tk i + (i + 7) / 8) flags w := by
  intro m
  induction m with
  | zero => intros; rfl
  | succ m ih =>
    intro i flags w him hfl
    have hi : i < n := by omega
    have e1 : ∀ p f, sbFlags h i p f = sbFlags k i p f := fun p f => by unfold sbFlags; rw [hb]
    have e1' : ∀ p f, sbFlags h' i p f = sbFlags k' i p f := fun p f => by unfold sbFlags; rw [hb']
    have hd := b.head_eq b' (g := i / 8) (by omega)
    rw [sbTokens, sbTokens, e1, e1', sbFlags_ok b hi hfl, sbFlags_ok b' hi (by rw [← hd]; exact hfl), ← hd, ok_bind, ok_bind]
    simp only []
    obtain ⟨t1, t2⟩ := sbToken_eq b b' hb hb' hc hp hi w
    rw [← t1]
    cases hx : sbToken h (k.buf.get (thd tk (i / 8)) * 2 ^ (i % 8) % 256) (tat tk i) w with
    | error x => rfl
    | ok y =>
      obtain ⟨p, w1⟩ := y
      rw [ok_bind, ok_bind]
      simp only []
      rw [t2 p w1 hx, ih (i + 1) _ w1 (by omega) (fun h8 => by
        rw [show (i + 1) / 8 = i / 8 by omega, show (i + 1 - 1) % 8 = i % 8 by omega])]

/-- One block: same tokens, same bits. -/
theorem sendBlock_sim {e e' : Enc} {tk : Nat → Nat × Nat} {n : Nat} (b : BufCore e.h tk n n) (b' : BufCore e'.h tk n n)
    (hn : 1 ≤ n) (hw : e.w = e'.w) (hnp1 : 1 ≤ e.h.np) (hpb1 : e.h.np < 2 ^ e.h.pbit) (hpb2 : e.h.pbit ≤ 5)
    (hnp : e.h.np = e'.h.np) (hpb : e.h.pbit = e'.h.pbit) {W : List Bool} (hW : WRep e.w W) {r r' : Enc}
    (h : sendBlock e = .ok r) (h' : sendBlock e' = .ok r') : r.w = r'.w := by
  have hat := b.tat_le (show n - 1 < n by omega)
  have hn64 : n < 65536 := by
    have := toff_mono tk (show 0 ≤ n - 1 by omega)
    unfold tat at hat
    omega
  have hsum : ∑ c ∈ range 510, e.h.cFreq.get c = n := by
    rw [sum_congr rfl (fun c hc => b.cf c (mem_range.mp hc))]
    exact cntC_total tk n (fun j hj => (b.tok j hj).1)
  have hsum' : ∑ c ∈ range 510, e'.h.cFreq.get c = n := by
    rw [sum_congr rfl (fun c hc => b'.cf c (mem_range.mp hc))]
    exact cntC_total tk n (fun j hj => (b.tok j hj).1)
  obtain ⟨e1, _, _, _, _, _, _, a1, _, _, _, _, a6, _⟩ := sbTrees_ok e b.ok hnp1 b.np hpb1 hpb2 n hsum hn64 W hW
  obtain ⟨e1', _, _, _, _, _, _, a1', _, _, _, _, a6', _⟩ := sbTrees_ok e' b'.ok (by omega) b'.np (by rw [← hnp, ← hpb]; exact hpb1)
    (by omega) n hsum' hn64 W (by rw [← hw]; exact hW)
  obtain ⟨_, q2, q3, q4⟩ := sbTrees_sim b.ok b'.ok hw hnp1 b.np hnp hpb hW
    (fun c hc => by rw [b.cf c hc, b'.cf c hc]) (fun c hc => by rw [b.pf c hc, b'.pf c (by omega)]) a1 a1'
  have htok := sbTokens_eq (h := e1.h) (h' := e1'.h) b b' (by rw [a6]) (by rw [a6'])
    (fun c ⟨i, hi, hc⟩ => q3 c ⟨by rw [hc]; exact (b.tok i hi).1, by
      rw [hc, b.cf _ (b.tok i hi).1]; exact cntC_pos tk hi⟩)
    (fun c ⟨i, hi, h256, hc⟩ => q4 c ⟨by rw [hc]; exact (b.tok i hi).2.2 h256, by
      rw [hc, b.pf _ ((b.tok i hi).2.2 h256)]; exact cntP_pos tk hi h256⟩)
    n 0 0 e1.w (by omega) (by omega)
  rw [show toff tk 0 + (0 + 7) / 8 = 0 by simp [toff]] at htok
  unfold sendBlock at h h'
  rw [a1, ok_bind] at h
  rw [a1', ok_bind] at h'
  simp only [] at h h'
  rw [← q2, ← htok] at h'
  obtain ⟨⟨ey, w2⟩, c1, c2⟩ := bind_ok h
  rw [c1, ok_bind] at h'
  simp only [] at c2 h'
  by_cases hey : ey = true
  · rw [if_pos hey] at c2 h'
    cases c2; cases h'; rfl
  · rw [if_neg hey] at c2 h'
    obtain ⟨_, _, d2⟩ := bind_ok c2
    obtain ⟨_, _, d4⟩ := bind_ok d2
    obtain ⟨_, _, f2⟩ := bind_ok h'
    obtain ⟨_, _, f4⟩ := bind_ok f2
    cases d4; cases f4; rfl

/-- Two encoders that differ only in leftovers of earlier compressions. -/
def REnc (np pbit : Nat) (e e' : Enc) : Prop :=
  e.w = e'.w ∧ (e.w.unp = false → ∃ tk n, BufInv e.h tk n ∧ BufInv e'.h tk n ∧ e.h.np = np ∧ e'.h.np = np ∧
    e.h.pbit = pbit ∧ e'.h.pbit = pbit)

/-- One token through both encoders. -/
theorem outputSt1_sim {np pbit : Nat} (hnp : 1 ≤ np) (hpb : np < 2 ^ pbit) (hpb2 : pbit ≤ 5) {e e' : Enc}
    (hR : REnc np pbit e e') (hu : e.w.unp = false) {W : List Bool} (hW : WRep e.w W) {t : Nat × Nat} (ht : TokOk np t)
    {r r' : Enc} (h : outputSt1 t.1 t.2 e = .ok r) (h' : outputSt1 t.1 t.2 e' = .ok r') : REnc np pbit r r' := by
  obtain ⟨hw, hb0⟩ := hR
  obtain ⟨tk0, n, b0, b0', p1, p1', p2, p2'⟩ := hb0 hu
  obtain ⟨t1, t2, t3⟩ := ht
  let tk : Nat → Nat × Nat := fun j => if j < n then tk0 j else t
  have htkn : tk n = t := by simp [tk]
  have htk : ∀ j, j < n → tk j = tk0 j := fun j hj => by simp [tk, hj]
  have b : BufInv e.h tk n := b0.congr htk
  have b' : BufInv e'.h tk n := b0'.congr htk
  have hlim : ∀ {h : Hf}, h.buf.size = 65535 → outputLimit { h with outputMask := 128 } = 65504 := by
    intro h hs
    unfold outputLimit
    simp only []
    rw [hs]
  have hl := hlim b.core.bsize
  have hl' := hlim b'.core.bsize
  unfold outputSt1 at h h'
  simp only [] at h h' hl hl'
  rw [b.mask] at h
  rw [b'.mask] at h'
  have hpp : e.h.outputPos = e'.h.outputPos := by rw [b.pos, b'.pos]
  by_cases h8 : n % 8 = 0
  · rw [if_pos h8, if_pos rfl, hl] at h
    rw [if_pos h8, if_pos rfl, hl'] at h'
    have hpos : e.h.outputPos = toff tk n + n / 8 := by rw [b.pos]; omega
    by_cases hfull : e.h.outputPos ≥ 65504
    · rw [if_pos hfull] at h
      rw [if_pos (by omega)] at h'
      have hn1 : 1 ≤ n := by
        by_contra hc
        have h0 : n = 0 := by omega
        have hf := hfull
        rw [hpos, h0] at hf
        simp [toff] at hf
      obtain ⟨e1, W1, s1, s2, s3, s5, s4, _⟩ := sendBlock_ok (e := ⟨{ e.h with outputMask := 128 }, e.w⟩) (tk := tk)
        (b.core.setMask 128) hn1 (by simp only []; omega) (by simp only [p1, p2]; exact hpb)
        (by simp only [p2]; exact hpb2) hW
      obtain ⟨e1', W1', s1', s2', s3', s5', s4', _⟩ := sendBlock_ok (e := ⟨{ e'.h with outputMask := 128 }, e'.w⟩) (tk := tk)
        (b'.core.setMask 128) hn1 (by simp only []; omega) (by simp only [p1', p2']; exact hpb)
        (by simp only [p2']; exact hpb2) (W := W) (by simp only []; rw [← hw]; exact hW)
      have hw1 : e1.w = e1'.w := sendBlock_sim (e := ⟨{ e.h with outputMask := 128 }, e.w⟩)
        (e' := ⟨{ e'.h with outputMask := 128 }, e'.w⟩) (b.core.setMask 128) (b'.core.setMask 128) hn1 hw (by simp only []; omega)
        (by simp only [p1, p2]; exact hpb) (by simp only [p2]; exact hpb2) (by simp only [p1, p1'])
        (by simp only [p2, p2']) hW s1 s1'
      rw [s1, ok_bind] at h
      rw [s1', ok_bind, ← hw1] at h'
      by_cases hu1 : e1.w.unp = true
      · rw [if_pos hu1] at h h'
        cases h; cases h'
        exact ⟨hw1, fun hf => by rw [hu1] at hf; cases hf⟩
      · rw [if_neg hu1] at h h'
        have hu1' : e1.w.unp = false := by simpa using hu1
        obtain ⟨_, _, _, u3, u4, u5, u6⟩ := s4 hu1'
        obtain ⟨_, _, _, u3', u4', u5', u6'⟩ := s4' (by rw [← hw1]; exact hu1')
        simp only [p1, p2, p1', p2'] at u5 u6 u5' u6'
        obtain ⟨h1, v1, v2, v3, v4⟩ := outputNew_ok (e := ⟨{ e1.h with outputPos := 0 }, e1.w⟩) (tk := fun _ => t) (n := 0)
          ((u3.congr (by omega) (fun j hj => by omega)).setPos 0) (by omega) (by simp [toff]) (by simp) u4 t1 t2
          (by simp only [u5]; exact t3)
        obtain ⟨h1', v1', v2', v3', v4'⟩ := outputNew_ok (e := ⟨{ e1'.h with outputPos := 0 }, e1.w⟩) (tk := fun _ => t)
          (n := 0) ((u3'.congr (by omega) (fun j hj => by omega)).setPos 0) (by omega) (by simp [toff]) (by simp) u4' t1 t2
          (by simp only [u5']; exact t3)
        rw [v1] at h
        rw [v1'] at h'
        cases h; cases h'
        exact ⟨rfl, fun _ => ⟨_, _, v2, v2', by rw [v3]; exact u5, by rw [v3']; exact u5', by rw [v4]; exact u6,
          by rw [v4']; exact u6'⟩⟩
    · rw [if_neg hfull] at h
      rw [if_neg (by omega)] at h'
      obtain ⟨h1, v1, v2, v3, v4⟩ := outputNew_ok (e := ⟨{ e.h with outputMask := 128 }, e.w⟩) (tk := tk) (n := n)
        (b.core.setMask 128) h8 hpos (by simp only []; omega) rfl (by rw [htkn]; exact t1) (by rw [htkn]; exact t2)
        (by rw [htkn]; simp only [p1]; exact t3)
      obtain ⟨h1', v1', v2', v3', v4'⟩ := outputNew_ok (e := ⟨{ e'.h with outputMask := 128 }, e'.w⟩) (tk := tk) (n := n)
        (b'.core.setMask 128) h8 (by simp only []; rw [← hpp]; exact hpos) (by simp only []; omega) rfl
        (by rw [htkn]; exact t1) (by rw [htkn]; exact t2) (by rw [htkn]; simp only [p1']; exact t3)
      rw [htkn] at v1 v1'
      rw [v1] at h
      rw [v1'] at h'
      cases h; cases h'
      exact ⟨hw, fun _ => ⟨_, _, v2, v2', by rw [v3]; exact p1, by rw [v3']; exact p1', by rw [v4]; exact p2,
        by rw [v4']; exact p2'⟩⟩
  · rw [if_neg h8, if_neg (Nat.two_pow_pos _).ne'] at h h'
    have hn0 : n ≠ 0 := by intro e; subst e; exact h8 rfl
    have hcore : ∀ {h : Hf}, BufInv h tk n → BufCore { h with outputMask := 2 ^ (7 - n % 8) } tk n (n + 1) := by
      intro h hb
      have b := hb.core.setMask (2 ^ (7 - n % 8))
      exact ⟨b.ok, b.bsize, b.np, b.tok, fun g hg => b.grp g (by omega), b.body, fun g hg => b.head g (by omega), b.cf, b.pf⟩
    obtain ⟨h1, v1, v2, v3, v4⟩ := outputStore_ok (tk := tk) (n := n) (hcore b)
      (by simp only []; rw [b.pos]; unfold tat; omega) rfl
      (by simp only []; rw [b.cpos hn0, show (n - 1) / 8 = n / 8 by omega])
      (by rw [htkn]; exact t1) (by rw [htkn]; exact t2) (by rw [htkn]; simp only [p1]; exact t3)
    obtain ⟨h1', v1', v2', v3', v4'⟩ := outputStore_ok (tk := tk) (n := n) (hcore b')
      (by simp only []; rw [b'.pos]; unfold tat; omega) rfl
      (by simp only []; rw [b'.cpos hn0, show (n - 1) / 8 = n / 8 by omega])
      (by rw [htkn]; exact t1) (by rw [htkn]; exact t2) (by rw [htkn]; simp only [p1']; exact t3)
    rw [htkn] at v1 v1'
    rw [v1, ok_bind] at h
    rw [v1', ok_bind] at h'
    cases h; cases h'
    exact ⟨hw, fun _ => ⟨_, _, v2, v2', by rw [v3]; exact p1, by rw [v3']; exact p1', by rw [v4]; exact p2,
      by rw [v4']; exact p2'⟩⟩

/-- Starting both encoders. -/
theorem encodeStart_sim {dicbit np pbit : Nat} (hset : ∀ h : Hf, setNp dicbit h = { h with np := np, pbit := pbit })
    (hnp : np ≤ 17) {h h' : Hf} (ok : HfOk h) (ok' : HfOk h') (hb : h.buf.size = 65535) (hb' : h'.buf.size = 65535)
    {w : BW} {e e' : Enc} (he : encodeStartSt1 dicbit ⟨h, w⟩ = .ok e) (he' : encodeStartSt1 dicbit ⟨h', w⟩ = .ok e') :
    REnc np pbit e e' := by
  have hone : ∀ {h : Hf} {e : Enc}, HfOk h → h.buf.size = 65535 → encodeStartSt1 dicbit ⟨h, w⟩ = .ok e →
      e.w = initPutbits w ∧ BufInv e.h (fun _ => (0, 0)) 0 ∧ e.h.np = np ∧ e.h.pbit = pbit := by
    intro h e hok hbuf he
    unfold encodeStartSt1 at he
    simp only [hset] at he
    obtain ⟨cf, f1, f2, f3⟩ := fillRange_ok 0 510 0 h.cFreq (by rw [hok.cFreq]; omega)
    obtain ⟨pf, g1, g2, g3⟩ := fillRange_ok 0 17 0 h.pFreq (by rw [hok.pFreq]; omega)
    rw [f1, ok_bind, g1, ok_bind, wr_ok (by omega), ok_bind] at he
    cases he
    refine ⟨rfl, ⟨⟨⟨hok.left, hok.right, by simp only [f2]; exact hok.cFreq, by simp only [g2]; exact hok.pFreq, hok.tFreq,
      hok.cLen, hok.ptLen, hok.cCode, hok.ptCode, hok.cTable, hok.ptTable⟩, by simpa using hbuf, hnp,
      fun i hi => absurd hi (by omega), fun g hg => absurd hg (by omega), fun i hi => absurd hi (by omega),
      fun g hg => absurd hg (by omega), ?_, ?_⟩, by simp [toff], by simp, fun h => absurd rfl h⟩, rfl, rfl⟩
    · intro c hc
      simp only []
      rw [f3, if_pos ⟨by omega, by omega⟩]
      rfl
    · intro c hc
      simp only [] at hc ⊢
      rw [g3, if_pos ⟨by omega, by omega⟩]
      rfl
  obtain ⟨a1, a2, a3, a4⟩ := hone ok hb he
  obtain ⟨c1, c2, c3, c4⟩ := hone ok' hb' he'
  exact ⟨by rw [a1, c1], fun _ => ⟨_, _, a2, c2, a3, c3, a4, c4⟩⟩

/-- Closing both encoders. -/
theorem encodeEnd_sim {np pbit : Nat} (hnp : 1 ≤ np) (hpb : np < 2 ^ pbit) (hpb2 : pbit ≤ 5) {e e' : Enc}
    (hR : REnc np pbit e e') {W : List Bool} (hW : WRep e.w W) (hn : e.w.unp = false → e.h.outputPos ≠ 0) {r r' : Enc}
    (h : encodeEndSt1 e = .ok r) (h' : encodeEndSt1 e' = .ok r') : r.w = r'.w := by
  obtain ⟨hw, hb⟩ := hR
  unfold encodeEndSt1 at h h'
  rw [← hw] at h'
  by_cases hu : e.w.unp = true
  · rw [if_pos hu] at h h'
    cases h; cases h'
    exact hw
  · rw [if_neg hu] at h h'
    have hu' : e.w.unp = false := by simpa using hu
    obtain ⟨tk, n, b, b', p1, p1', p2, p2'⟩ := hb hu'
    have hn1 : 1 ≤ n := by
      by_contra hc
      have h0 : n = 0 := by omega
      refine hn hu' ?_
      rw [b.pos, h0]
      simp [toff]
    obtain ⟨e1, a1, a2⟩ := bind_ok h
    obtain ⟨e1', a1', a2'⟩ := bind_ok h'
    have := sendBlock_sim b.core b'.core hn1 hw (by omega) (by rw [p1, p2]; exact hpb) (by omega) (by omega) (by omega) hW
      a1 a1'
    rw [← this] at a2'
    obtain ⟨w2, c1, c2⟩ := bind_ok a2
    rw [c1, ok_bind] at a2'
    cases c2; cases a2'
    rfl

end Lha
