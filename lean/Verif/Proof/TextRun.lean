import Verif.Model.Text
import Verif.Spec.Text
import Verif.Props.C84
import Verif.Props.C86
/-!
# Compression with `TextMode` follows compression of the converted text

The run with `TextMode` goes through the same states as the run without it on the text with its line ends converted, except for the checksum and for the limit of the
output, which grows while lines are read.  The limits are handed to the writer as a list (`oSink`), so that what is known about all runs of the LZ stage applies.
-/

namespace Lha

open Spec

theorem crlf_length (l : List Nat) : (crlf l).length = l.length + l.count 10 := by
  induction l with
  | nil => rfl
  | cons x xs ih =>
    by_cases hx : x = 10
    · subst hx
      have e : crlf (10 :: xs) = 13 :: 10 :: crlf xs := by simp [crlf]
      rw [e]; simp only [List.length_cons, List.count_cons_self]; omega
    · have e : crlf (x :: xs) = x :: crlf xs := by simp [crlf, hx]
      rw [e]; simp only [List.length_cons, List.count_cons_of_ne hx]; omega

theorem crlf_isBytes {l : List Nat} (h : IsBytes l) : IsBytes (crlf l) := by
  intro x hx
  unfold crlf at hx
  obtain ⟨c, hc, hx⟩ := List.mem_flatMap.1 hx
  have := h c hc
  split at hx
  · simp at hx; omega
  · simp at hx; omega

/-- What `freadTxt` leaves is the rest of the converted text. -/
theorem freadTxt_rest (n : Nat) : ∀ (inp : List Nat) (cache : Option Nat), (∀ c, cache = some c → c = 10) →
    (freadTxt n inp cache).2.2.1.toList ++ crlf (freadTxt n inp cache).2.1 = (cache.toList ++ crlf inp).drop n ∧
    (∀ c, (freadTxt n inp cache).2.2.1 = some c → c = 10) ∧ (freadTxt n inp cache).2.1.count 10 ≤ inp.count 10 := by
  induction n with
  | zero => intro inp cache hc; exact ⟨by simp [freadTxt], by simpa [freadTxt] using hc, by simp [freadTxt]⟩
  | succ n ih =>
    intro inp cache hc
    cases cache with
    | some c =>
      obtain ⟨h1, h2, h3⟩ := ih inp none (by simp)
      exact ⟨by simp only [freadTxt]; rw [h1]; simp, h2, h3⟩
    | none =>
      cases inp with
      | nil => exact ⟨by simp [freadTxt, crlf], by simp [freadTxt], by simp [freadTxt]⟩
      | cons x xs =>
        by_cases hx : x = 10
        · subst hx
          obtain ⟨h1, h2, h3⟩ := ih xs (some 10) (by simp)
          have e : crlf (10 :: xs) = 13 :: 10 :: crlf xs := by simp [crlf]
          simp only [freadTxt, if_true]
          refine ⟨by rw [h1, e]; simp, h2, by rw [List.count_cons_self]; omega⟩
        · obtain ⟨h1, h2, h3⟩ := ih xs none (by simp)
          have e : crlf (x :: xs) = x :: crlf xs := by simp [crlf, hx]
          simp only [freadTxt, if_neg hx]
          exact ⟨by rw [h1, e]; simp, h2, by rw [List.count_cons_of_ne hx]; exact h3⟩

/-- The bytes the checksum covers when `n` bytes have been read: whole reads. -/
def whole (g : Geo) (n : Nat) : Nat := g.txtsiz - g.dicsiz + g.dicsiz * ((n - (g.txtsiz - g.dicsiz)) / g.dicsiz)

/-- The two runs, when `n` bytes of the converted text have been read.  `tot`: the line feeds in the text. -/
structure TRel (g : Geo) (D : List Nat) (tot n : Nat) (s : Lz) (t : TLz) : Prop where
  eqs : t.s = { s with inp := t.s.inp, crc := t.s.crc }
  cache : ∀ c, t.cache = some c → c = 10
  inp : s.inp = t.cache.toList ++ crlf t.s.inp
  off : s.inp = D.drop n
  le : n ≤ D.length
  lo : g.txtsiz - g.dicsiz ≤ n
  crc : t.s.crc = crc16 0 (D.take (whole g n))
  same : n < D.length → whole g n = n
  tot : t.lines + t.s.inp.count 10 = tot

/-- Steps that touch neither the input nor the checksum. -/
theorem TRel.step {g : Geo} {D : List Nat} {tot n : Nat} {s s' : Lz} {t : TLz} (h : TRel g D tot n s t) (h1 : s'.inp = s.inp) :
    TRel g D tot n s' { t with s := { s' with inp := t.s.inp, crc := t.s.crc } } :=
  ⟨rfl, h.cache, by rw [h1]; exact h.inp, by rw [h1]; exact h.off, h.le, h.lo, h.crc, h.same, h.tot⟩

theorem add_div_whole {a q d r : Nat} (hd : 0 < d) (ha : a = d * q) (hr : r < d) : (a + r) / d = a / d := by
  subst ha
  rw [Nat.mul_add_div hd, Nat.div_eq_of_lt hr, Nat.mul_div_cancel_left _ hd, Nat.add_zero]

theorem updateDict_sim {g : Geo} (hg : GeoFit g) {tab : Arr} (ht : CrcTab tab) {D : List Nat} (hD : IsBytes D) {tot n : Nat} {s s' : Lz} {t : TLz}
    (h : TRel g D tot n s t) (hs : updateDict g tab s = .ok s') :
    ∃ n' t', updateDictT g tab t = .ok t' ∧ TRel g D tot n' s' t' ∧ t.lines ≤ t'.lines := by
  obtain ⟨d1, d2, d3⟩ := hg.dic
  obtain ⟨e1, e2, e3, e4, e5, e6, e7, e8, e9⟩ := h
  obtain ⟨ts, cache, lines⟩ := t
  simp only [] at e1 e2 e3 e4 e5 e6 e7 e8 e9
  unfold updateDict at hs
  unfold updateDictT
  simp only []
  have f1 : ts.text = s.text := by rw [e1]
  have f2 : ts.hpos = s.hpos := by rw [e1]
  have f3 : ts.hflag = s.hflag := by rw [e1]
  have f4 : ts.prevs = s.prevs := by rw [e1]
  have f5 : ts.rem = s.rem := by rw [e1]
  have f6 : ts.pos = s.pos := by rw [e1]
  have f7 : ts.token = s.token := by rw [e1]
  rw [f1]
  cases hx : copyDown g.dicsiz (g.txtsiz - g.dicsiz) 0 s.text with
  | error x => rw [hx] at hs; cases hs
  | ok text =>
    rw [hx, ok_bind] at hs
    rw [ok_bind]
    unfold freadText at hs
    unfold freadTextT
    obtain ⟨g1, g2, g3⟩ := freadTxt_eq g.dicsiz ts.inp cache e2
    obtain ⟨g4, g5, g6⟩ := freadTxt_rest g.dicsiz ts.inp cache e2
    rw [← e3] at g1 g2 g4
    rcases hr : freadTxt g.dicsiz ts.inp cache with ⟨got, rest, cache', full⟩
    rw [hr] at g1 g2 g3 g4 g5 g6
    simp only [] at g1 g2 g3 g4 g5 g6 hs ⊢
    have hb : IsBytes (s.inp.take g.dicsiz) := by
      rw [e4]; exact fun x hx => hD x (List.mem_of_mem_drop (List.mem_of_mem_take hx))
    rw [calcCrc_all ht _ hb] at hs
    rw [g1]
    cases hw : wrList (g.txtsiz - g.dicsiz) (s.inp.take g.dicsiz) text with
    | error x => rw [hw] at hs; cases hs
    | ok text2 =>
      rw [hw, ok_bind, ok_bind, ok_bind] at hs
      simp only [] at hs
      rw [ok_bind]
      have hcrc : ∀ {α : Type} (k : Nat → G α), (if full = true then calcCrc tab (s.inp.take g.dicsiz).length ts.crc (s.inp.take g.dicsiz) >>= k else Except.ok ts.crc >>= k) =
          k (if full = true then crc16 ts.crc (s.inp.take g.dicsiz) else ts.crc) := by
        intro α k
        split
        · rw [calcCrc_all ht _ hb, ok_bind]
        · rfl
      rw [hcrc, ok_bind]
      simp only []
      rw [f2, f3, f4, f5, f6, f7]
      cases h1 : modRange (shiftPos g.dicsiz) 32768 0 s.hpos with
      | error x => rw [h1] at hs; cases hs
      | ok hpos =>
        rw [h1, ok_bind] at hs
        rw [ok_bind]
        cases h2 : fillAll 32768 0 s.hflag with
        | error x => rw [h2] at hs; cases hs
        | ok hflag =>
          rw [h2, ok_bind] at hs
          rw [ok_bind]
          cases h3 : modRange (shiftPos g.dicsiz) g.dicsiz 0 s.prevs with
          | error x => rw [h3] at hs; cases hs
          | ok prevs =>
            rw [h3, ok_bind] at hs
            rw [ok_bind]
            have hs := Except.ok.inj hs
            subst hs
            have hlen : s.inp.length = D.length - n := by rw [e4, List.length_drop]
            refine ⟨min (n + g.dicsiz) D.length, _, rfl, ⟨rfl, g5, g4.symm, ?_, by omega, by omega, ?_, ?_, ?_⟩, by simp only []; omega⟩
            · simp only []
              rw [e4, List.drop_drop]
              by_cases hc : n + g.dicsiz ≤ D.length
              · rw [Nat.min_eq_left hc]
              · rw [Nat.min_eq_right (by omega), List.drop_eq_nil_of_le (by omega), List.drop_length]
            · simp only []
              by_cases hfu : full = true
              · rw [if_pos hfu, e7]
                have h5 := g2.1 hfu
                have h6 : whole g n = n := e8 (by omega)
                rw [Nat.min_eq_left (by omega), h6, e4, ← crc16_append, take_append_take_drop]
                congr 2
                unfold whole at h6 ⊢
                rw [show n + g.dicsiz - (g.txtsiz - g.dicsiz) = n - (g.txtsiz - g.dicsiz) + g.dicsiz by omega, Nat.add_div_right _ (by omega), Nat.mul_succ]
                omega
              · rw [if_neg hfu, e7]
                have h5 : ¬ g.dicsiz ≤ s.inp.length := fun hh => hfu (g2.2 hh)
                rw [Nat.min_eq_right (by omega)]
                by_cases hn : n < D.length
                · have h6 := e8 hn
                  congr 2
                  rw [h6]
                  unfold whole at h6 ⊢
                  have h7 : (D.length - (g.txtsiz - g.dicsiz)) / g.dicsiz = (n - (g.txtsiz - g.dicsiz)) / g.dicsiz := by
                    rw [show D.length - (g.txtsiz - g.dicsiz) = (n - (g.txtsiz - g.dicsiz)) + (D.length - n) by omega]
                    have h8 : n - (g.txtsiz - g.dicsiz) = g.dicsiz * ((n - (g.txtsiz - g.dicsiz)) / g.dicsiz) := by omega
                    exact add_div_whole (by omega) h8 (by omega)
                  rw [h7]
                  omega
                · rw [show n = D.length by omega]
            · intro hlt
              have hc : n + g.dicsiz < D.length := by omega
              rw [Nat.min_eq_left (by omega)]
              have h6 := e8 (by omega)
              unfold whole at h6 ⊢
              rw [show n + g.dicsiz - (g.txtsiz - g.dicsiz) = n - (g.txtsiz - g.dicsiz) + g.dicsiz by omega, Nat.add_div_right _ (by omega), Nat.mul_succ]
              omega
            · simp only []
              omega

theorem nextToken_sim {g : Geo} (hg : GeoFit g) {tab : Arr} (ht : CrcTab tab) {D : List Nat} (hD : IsBytes D) {tot n : Nat} {s s' : Lz} {t : TLz}
    (h : TRel g D tot n s t) (hs : nextToken g tab s = .ok s') :
    ∃ n' t', nextTokenT g tab t = .ok t' ∧ TRel g D tot n' s' t' ∧ t.lines ≤ t'.lines := by
  have h0 := h.step (s' := { s with rem := s.rem - 1, pos := s.pos + 1 }) rfl
  have f1 : ({ t with s := { t.s with rem := t.s.rem - 1, pos := t.s.pos + 1 } } : TLz) =
      { t with s := { ({ s with rem := s.rem - 1, pos := s.pos + 1 } : Lz) with inp := t.s.inp, crc := t.s.crc } } := by
    have := h.eqs
    congr 1
    rw [this]
  unfold nextToken at hs
  unfold nextTokenT
  simp only [] at hs ⊢
  rw [f1]
  have hfin : ∀ (n2 : Nat) (s2 : Lz) (t2 : TLz), TRel g D tot n2 s2 t2 → t.lines ≤ t2.lines →
      (nextHash s2.text s2.token s2.pos >>= fun x => (Except.ok { s2 with token := x } : G Lz)) = .ok s' →
      ∃ n' t', (nextHash t2.s.text t2.s.token t2.s.pos >>= fun x => (Except.ok { t2 with s := { t2.s with token := x } } : G TLz)) = .ok t' ∧
        TRel g D tot n' s' t' ∧ t.lines ≤ t'.lines := by
    intro n2 s2 t2 h2 hl hs2
    have a1 : t2.s.text = s2.text := by rw [h2.eqs]
    have a2 : t2.s.token = s2.token := by rw [h2.eqs]
    have a3 : t2.s.pos = s2.pos := by rw [h2.eqs]
    rw [a1, a2, a3]
    cases hx : nextHash s2.text s2.token s2.pos with
    | error x => rw [hx] at hs2; cases hs2
    | ok x =>
      rw [hx, ok_bind] at hs2
      have hs2 := Except.ok.inj hs2
      subst hs2
      refine ⟨n2, _, rfl, ?_, hl⟩
      have := h2.step (s' := { s2 with token := x }) rfl
      have e : ({ t2 with s := { t2.s with token := x } } : TLz) = { t2 with s := { ({ s2 with token := x } : Lz) with inp := t2.s.inp, crc := t2.s.crc } } := by
        congr 1
        conv_lhs => rw [h2.eqs]
      rw [e]
      exact this
  have hpp : t.s.pos = s.pos := by rw [h.eqs]
  rw [hpp]
  by_cases hp : s.pos + 1 ≥ g.txtsiz - g.maxmatch
  · rw [if_pos hp] at hs ⊢
    cases hu : updateDict g tab { s with rem := s.rem - 1, pos := s.pos + 1 } with
    | error x => rw [hu] at hs; cases hs
    | ok s2 =>
      rw [hu, ok_bind] at hs
      obtain ⟨n2, t2, u1, u2, u3⟩ := updateDict_sim hg ht hD h0 hu
      rw [u1, ok_bind]
      exact hfin n2 s2 t2 u2 u3 hs
  · rw [if_neg hp] at hs ⊢
    rw [ok_bind] at hs ⊢
    exact hfin n _ _ h0 (Nat.le_refl _) hs

theorem insertHash_sim {g : Geo} {s s' : Lz} (i : List Nat) (c : Nat) (hs : insertHash g s = .ok s') :
    insertHash g { s with inp := i, crc := c } = .ok { s' with inp := i, crc := c } ∧ s'.inp = s.inp := by
  unfold insertHash at hs ⊢
  simp only []
  cases h1 : rd s.hpos s.token with
  | error x => rw [h1] at hs; cases hs
  | ok v =>
    rw [h1, ok_bind] at hs
    rw [ok_bind]
    cases h2 : wr s.prevs (s.pos % g.dicsiz) v with
    | error x => rw [h2] at hs; cases hs
    | ok prevs =>
      rw [h2, ok_bind] at hs
      rw [ok_bind]
      cases h3 : wr s.hpos s.token s.pos with
      | error x => rw [h3] at hs; cases hs
      | ok hpos =>
        rw [h3, ok_bind] at hs
        rw [ok_bind]
        have hs := Except.ok.inj hs
        subst hs
        exact ⟨rfl, rfl⟩

theorem offLoop_inp (s : Lz) (i : List Nat) (c : Nat) : ∀ f off tok, offLoop { s with inp := i, crc := c } f off tok = offLoop s f off tok := by
  intro f
  induction f with
  | zero => intro off tok; rfl
  | succ f ih =>
    intro off tok
    rw [offLoop, offLoop]
    simp only []
    cases rd s.hflag tok with
    | error x => rfl
    | ok fl =>
      rw [ok_bind, ok_bind]
      split
      · cases nextHash s.text tok (s.pos + (off + 1)) with
        | error x => rfl
        | ok t => rw [ok_bind, ok_bind]; exact ih _ _
      · rfl

theorem searchDict1_sim {g : Geo} {s : Lz} {tok off mx : Nat} {m : Match} {r : Lz × Match} (i : List Nat) (c : Nat) (hs : searchDict1 g s tok off mx m = .ok r) :
    searchDict1 g { s with inp := i, crc := c } tok off mx m = .ok ({ r.1 with inp := i, crc := c }, r.2) ∧ r.1.inp = s.inp ∧ r.1.rem = s.rem := by
  unfold searchDict1 at hs ⊢
  simp only []
  cases h1 : rd s.hpos tok with
  | error x => rw [h1] at hs; cases hs
  | ok v =>
    rw [h1, ok_bind] at hs
    rw [ok_bind]
    cases h2 : scanLoop g s.text s.prevs s.pos off mx (s.pos + 2) v 0 m with
    | error x => rw [h2] at hs; cases hs
    | ok cm =>
      rw [h2, ok_bind] at hs
      rw [ok_bind]
      simp only [] at hs ⊢
      split at hs
      · rename_i hc
        rw [if_pos hc]
        cases h3 : wr s.hflag tok 1 with
        | error x => rw [h3] at hs; cases hs
        | ok hf =>
          rw [h3, ok_bind] at hs
          rw [ok_bind]
          have hs := Except.ok.inj hs
          subst hs
          exact ⟨rfl, rfl, rfl⟩
      · rename_i hc
        rw [if_neg hc]
        have hs := Except.ok.inj hs
        subst hs
        exact ⟨rfl, rfl, rfl⟩

theorem searchDict_sim {g : Geo} {s : Lz} {mn : Nat} {r : Lz × Match} (i : List Nat) (c : Nat) (hs : searchDict g s mn = .ok r) :
    searchDict g { s with inp := i, crc := c } mn = .ok ({ r.1 with inp := i, crc := c }, r.2) ∧ r.1.inp = s.inp := by
  unfold searchDict at hs ⊢
  simp only [] at hs ⊢
  rw [offLoop_inp]
  cases h1 : offLoop s (g.maxmatch - 3) 0 s.token with
  | error x => rw [h1] at hs; cases hs
  | ok ot =>
    rw [h1, ok_bind] at hs
    rw [ok_bind]
    try simp only [] at hs ⊢
    generalize (if ot.1 = g.maxmatch - 3 then (0, s.token) else (ot.1, ot.2)) = q at hs ⊢
    obtain ⟨off, tok⟩ := q
    simp only [] at hs ⊢
    cases h2 : searchDict1 g s tok off g.maxmatch ⟨if mn < 2 then 2 else mn, 0⟩ with
    | error x => rw [h2] at hs; cases hs
    | ok r1 =>
      rw [h2, ok_bind] at hs
      obtain ⟨a1, a2, a3⟩ := searchDict1_sim i c h2
      rw [a1, ok_bind]
      simp only [] at hs ⊢
      have hfin : ∀ r2 : Lz × Match, r2.1.inp = s.inp → (if r2.2.len > r2.1.rem then (Except.ok (r2.1, (⟨r2.1.rem, r2.2.off⟩ : Match)) : G (Lz × Match)) else .ok (r2.1, r2.2)) = .ok r →
          (if r2.2.len > r2.1.rem then (Except.ok (({ r2.1 with inp := i, crc := c } : Lz), (⟨r2.1.rem, r2.2.off⟩ : Match)) : G (Lz × Match))
            else .ok ({ r2.1 with inp := i, crc := c }, r2.2)) = .ok ({ r.1 with inp := i, crc := c }, r.2) ∧ r.1.inp = s.inp := by
        intro r2 hr2 hh
        split at hh
        · rename_i hc
          rw [if_pos hc]
          have hh := Except.ok.inj hh
          subst hh
          exact ⟨rfl, hr2⟩
        · rename_i hc
          rw [if_neg hc]
          have hh := Except.ok.inj hh
          subst hh
          exact ⟨rfl, hr2⟩
      by_cases hc : off > 0 ∧ r1.2.len < off + 3
      · rw [if_pos hc] at hs ⊢
        cases h3 : searchDict1 g r1.1 r1.1.token 0 (off + 2) r1.2 with
        | error x => rw [h3] at hs; cases hs
        | ok r2 =>
          rw [h3, ok_bind] at hs
          obtain ⟨b1, b2, b3⟩ := searchDict1_sim i c h3
          rw [b1, ok_bind]
          exact hfin r2 (b2.trans a2) hs
      · rw [if_neg hc] at hs ⊢
        rw [ok_bind] at hs ⊢
        exact hfin r1 a2 hs

theorem skipLoop_sim {g : Geo} (hg : GeoFit g) {tab : Arr} (ht : CrcTab tab) {D : List Nat} (hD : IsBytes D) {tot : Nat} (k : Nat) : ∀ {n : Nat} {s s' : Lz} {t : TLz},
    TRel g D tot n s t → skipLoop g tab k s = .ok s' →
    ∃ n' t', skipLoopT g tab k t = .ok t' ∧ TRel g D tot n' s' t' ∧ t.lines ≤ t'.lines := by
  induction k with
  | zero =>
    intro n s s' t h hs
    cases hs
    exact ⟨n, t, rfl, h, Nat.le_refl _⟩
  | succ k ih =>
    intro n s s' t h hs
    rw [skipLoop] at hs
    rw [skipLoopT]
    cases h1 : nextToken g tab s with
    | error x => rw [h1] at hs; cases hs
    | ok s1 =>
      rw [h1, ok_bind] at hs
      obtain ⟨n1, t1, a1, a2, a3⟩ := nextToken_sim hg ht hD h h1
      rw [a1, ok_bind]
      cases h2 : insertHash g s1 with
      | error x => rw [h2] at hs; cases hs
      | ok s2 =>
        rw [h2, ok_bind] at hs
        obtain ⟨b1, b2⟩ := insertHash_sim t1.s.inp t1.s.crc h2
        rw [a2.eqs, b1, ok_bind]
        obtain ⟨n', t', c1, c2, c3⟩ := ih (a2.step (s' := s2) b2) hs
        exact ⟨n', t', c1, c2, Nat.le_trans a3 c3⟩

/-- The writer with the limits it is going to have, token by token. -/
def oSink : Sink (Enc × List Nat) :=
  ⟨fun c p o => (outputSt1 c p (setOrig (o.2.headD o.1.w.origsize) o.1)).map fun e => (e, o.2.tail), fun o => o.1.w.unp⟩

theorem ostop {e : Enc} {Ns : List Nat} {n : Nat} (h : n > 0 ∧ e.w.unp = false) : n > 0 ∧ oSink.stop (e, Ns) = false := h

/-- The limits. -/
def Limits (lo hi : Nat) (Ns : List Nat) : Prop := Ns.Pairwise (· ≤ ·) ∧ ∀ N ∈ Ns, lo ≤ N ∧ N ≤ hi

theorem Limits.cons {lo hi N : Nat} {Ns : List Nat} (h : Limits N hi Ns) (h1 : lo ≤ N) (h2 : N ≤ hi) : Limits lo hi (N :: Ns) := by
  refine ⟨List.pairwise_cons.2 ⟨fun x hx => (h.2 x hx).1, h.1⟩, ?_⟩
  intro x hx
  rcases List.mem_cons.1 hx with rfl | hx
  · exact ⟨h1, h2⟩
  · exact ⟨Nat.le_trans h1 (h.2 x hx).1, (h.2 x hx).2⟩

theorem Limits.nil (lo hi : Nat) : Limits lo hi [] := ⟨List.Pairwise.nil, by simp⟩

theorem Limits.mono {lo lo' hi : Nat} {Ns : List Nat} (h : Limits lo hi Ns) (h1 : lo' ≤ lo) : Limits lo' hi Ns :=
  ⟨h.1, fun N hN => ⟨Nat.le_trans h1 (h.2 N hN).1, (h.2 N hN).2⟩⟩

theorem encodeLoop_sim {g : Geo} (hg : GeoFit g) {tab : Arr} (ht : CrcTab tab) {D : List Nat} (hD : IsBytes D) {tot : Nat} (size : Nat) (f : Nat) :
    ∀ {n : Nat} {s : Lz} {t : TLz} (m : Match) (count : Nat) (e : Enc), TRel g D tot n s t →
    ∃ Ns, Limits (size + t.lines) (size + tot) Ns ∧ ∀ s' c' o', encodeLoop oSink g tab f s m count (e, Ns) = .ok (s', c', o') →
      ∃ n' t', encodeLoopT g tab size f t m count e = .ok (t', c', o'.1) ∧ TRel g D tot n' s' t' ∧ o'.2 = [size + t'.lines] := by
  induction f with
  | zero => intro n s t m count e _; exact ⟨[], Limits.nil _ _, fun s' c' o' h => by cases h⟩
  | succ f ih =>
    intro n s t m count e h
    have htot := h.tot
    have hrem : t.s.rem = s.rem := by rw [h.eqs]
    by_cases hgo : s.rem > 0 ∧ e.w.unp = false
    · cases h1 : nextToken g tab s with
      | error x =>
        refine ⟨[], Limits.nil _ _, fun s' c' o' hh => ?_⟩
        rw [encodeLoop, if_pos (ostop hgo), h1] at hh
        cases hh
      | ok s1 =>
        obtain ⟨n1, t1, a1, a2, a3⟩ := nextToken_sim hg ht hD h h1
        cases h2 : searchDict g s1 (m.len - 1) with
        | error x =>
          refine ⟨[], Limits.nil _ _, fun s' c' o' hh => ?_⟩
          rw [encodeLoop, if_pos (ostop hgo)] at hh
          simp only [] at hh
          rw [h1, ok_bind, h2] at hh
          cases hh
        | ok r2 =>
          obtain ⟨s2, m2⟩ := r2
          obtain ⟨b1, b2⟩ := searchDict_sim t1.s.inp t1.s.crc h2
          rw [← a2.eqs] at b1
          cases h3 : insertHash g s2 with
          | error x =>
            refine ⟨[], Limits.nil _ _, fun s' c' o' hh => ?_⟩
            rw [encodeLoop, if_pos (ostop hgo)] at hh
            simp only [] at hh
            rw [h1, ok_bind, h2, ok_bind] at hh
            simp only [] at hh
            rw [h3] at hh
            cases hh
          | ok s3 =>
            obtain ⟨c1, c2⟩ := insertHash_sim t1.s.inp t1.s.crc h3
            simp only [] at b1 b2
            have a4 := a2.step (s' := s3) (c2.trans b2)
            have htot1 := a2.tot
            by_cases hbr : m2.len > m.len ∨ m.len < 3
            · cases h4 : rd s3.text (s3.pos - 1) with
              | error x =>
                refine ⟨[], Limits.nil _ _, fun s' c' o' hh => ?_⟩
                rw [encodeLoop, if_pos (ostop hgo)] at hh
                simp only [] at hh
                rw [h1, ok_bind, h2, ok_bind] at hh
                simp only [] at hh
                rw [h3, ok_bind, if_pos hbr, h4] at hh
                cases hh
              | ok ch =>
                cases h5 : outputSt1 ch 0 (setOrig (size + t1.lines) e) with
                | error x =>
                  refine ⟨[size + t1.lines], Limits.cons (Limits.nil _ _) (by omega) (by omega), fun s' c' o' hh => ?_⟩
                  rw [encodeLoop, if_pos (ostop hgo)] at hh
                  simp only [] at hh
                  rw [h1, ok_bind, h2, ok_bind] at hh
                  simp only [] at hh
                  rw [h3, ok_bind, if_pos hbr, h4, ok_bind] at hh
                  unfold oSink at hh
                  simp only [List.headD_cons] at hh
                  rw [h5] at hh
                  cases hh
                | ok e2 =>
                  obtain ⟨Ns, k1, k2⟩ := ih m2 (count + 1) e2 a4
                  refine ⟨(size + t1.lines) :: Ns, Limits.cons k1 (by omega) (by omega), fun s' c' o' hh => ?_⟩
                  rw [encodeLoop, if_pos (ostop hgo)] at hh
                  simp only [] at hh
                  rw [h1, ok_bind, h2, ok_bind] at hh
                  simp only [] at hh
                  rw [h3, ok_bind, if_pos hbr, h4, ok_bind] at hh
                  have ho : oSink.out ch 0 (e, (size + t1.lines) :: Ns) = .ok (e2, Ns) := by
                    unfold oSink
                    simp only [List.headD_cons]
                    rw [h5]
                    rfl
                  rw [ho, ok_bind] at hh
                  obtain ⟨n', t', q1, q2, q3⟩ := k2 s' c' o' hh
                  refine ⟨n', t', ?_, q2, q3⟩
                  rw [encodeLoopT, if_pos (by rw [hrem]; exact hgo)]
                  simp only []
                  rw [a1, ok_bind, b1, ok_bind]
                  simp only []
                  rw [c1, ok_bind, if_pos hbr]
                  simp only []
                  rw [h4, ok_bind, h5, ok_bind]
                  exact q1
            · cases h5 : outputSt1 (m.len + 253) ((m.off + g.dicsiz - 1) % g.dicsiz) (setOrig (size + t1.lines) e) with
              | error x =>
                refine ⟨[size + t1.lines], Limits.cons (Limits.nil _ _) (by omega) (by omega), fun s' c' o' hh => ?_⟩
                rw [encodeLoop, if_pos (ostop hgo)] at hh
                simp only [] at hh
                rw [h1, ok_bind, h2, ok_bind] at hh
                simp only [] at hh
                rw [h3, ok_bind, if_neg hbr] at hh
                unfold oSink at hh
                simp only [List.headD_cons] at hh
                rw [h5] at hh
                cases hh
              | ok e2 =>
                have ho : ∀ Ns, oSink.out (m.len + 253) ((m.off + g.dicsiz - 1) % g.dicsiz) (e, (size + t1.lines) :: Ns) = .ok (e2, Ns) := by
                  intro Ns
                  unfold oSink
                  simp only [List.headD_cons]
                  rw [h5]
                  rfl
                have hbad : (∀ o : Enc × List Nat, ∀ s' c' o', (skipLoop g tab (m.len - 2) s3 >>= fun s => nextToken g tab s >>= fun s => searchDict g s 2 >>= fun x =>
                    insertHash g x.1 >>= fun s => encodeLoop oSink g tab f s x.2 (count + m.len) o) = .ok (s', c', o') → False) →
                    ∀ Ns s' c' o', encodeLoop oSink g tab (f + 1) s m count (e, (size + t1.lines) :: Ns) = .ok (s', c', o') → False := by
                  intro hP Ns s' c' o' hh
                  rw [encodeLoop, if_pos (ostop hgo)] at hh
                  simp only [] at hh
                  rw [h1, ok_bind, h2, ok_bind] at hh
                  simp only [] at hh
                  rw [h3, ok_bind, if_neg hbr, ho, ok_bind] at hh
                  exact hP _ s' c' o' hh
                cases h6 : skipLoop g tab (m.len - 2) s3 with
                | error x =>
                  refine ⟨[size + t1.lines], Limits.cons (Limits.nil _ _) (by omega) (by omega), fun s1' c1' o1' hh1 => (hbad (fun o s' c' o' hh => ?_) [] s1' c1' o1' hh1).elim⟩
                  rw [h6] at hh
                  cases hh
                | ok s4 =>
                  obtain ⟨n4, t4, d1, d2, d3⟩ := skipLoop_sim hg ht hD (m.len - 2) a4 h6
                  simp only [] at d3
                  cases h7 : nextToken g tab s4 with
                  | error x =>
                    refine ⟨[size + t1.lines], Limits.cons (Limits.nil _ _) (by omega) (by omega), fun s1' c1' o1' hh1 => (hbad (fun o s' c' o' hh => ?_) [] s1' c1' o1' hh1).elim⟩
                    rw [h6, ok_bind, h7] at hh
                    cases hh
                  | ok s5 =>
                    obtain ⟨n5, t5, e1, e2', e3⟩ := nextToken_sim hg ht hD d2 h7
                    cases h8 : searchDict g s5 2 with
                    | error x =>
                      refine ⟨[size + t1.lines], Limits.cons (Limits.nil _ _) (by omega) (by omega), fun s1' c1' o1' hh1 => (hbad (fun o s' c' o' hh => ?_) [] s1' c1' o1' hh1).elim⟩
                      rw [h6, ok_bind, h7, ok_bind, h8] at hh
                      cases hh
                    | ok r6 =>
                      obtain ⟨s6, m6⟩ := r6
                      obtain ⟨f1, f2⟩ := searchDict_sim t5.s.inp t5.s.crc h8
                      rw [← e2'.eqs] at f1
                      cases h9 : insertHash g s6 with
                      | error x =>
                        refine ⟨[size + t1.lines], Limits.cons (Limits.nil _ _) (by omega) (by omega), fun s1' c1' o1' hh1 => (hbad (fun o s' c' o' hh => ?_) [] s1' c1' o1' hh1).elim⟩
                        rw [h6, ok_bind, h7, ok_bind, h8, ok_bind] at hh
                        simp only [] at hh
                        rw [h9] at hh
                        cases hh
                      | ok s7 =>
                        obtain ⟨g1, g2⟩ := insertHash_sim t5.s.inp t5.s.crc h9
                        simp only [] at f1 f2
                        have a5 := e2'.step (s' := s7) (g2.trans f2)
                        obtain ⟨Ns, k1, k2⟩ := ih m6 (count + m.len) e2 a5
                        refine ⟨(size + t1.lines) :: Ns, Limits.cons (k1.mono (by simp only []; omega)) (by omega) (by omega), fun s' c' o' hh => ?_⟩
                        rw [encodeLoop, if_pos (ostop hgo)] at hh
                        simp only [] at hh
                        rw [h1, ok_bind, h2, ok_bind] at hh
                        simp only [] at hh
                        rw [h3, ok_bind, if_neg hbr, ho, ok_bind, h6, ok_bind, h7, ok_bind, h8, ok_bind] at hh
                        simp only [] at hh
                        rw [h9, ok_bind] at hh
                        obtain ⟨n', t', q1, q2, q3⟩ := k2 s' c' o' hh
                        refine ⟨n', t', ?_, q2, q3⟩
                        rw [encodeLoopT, if_pos (by rw [hrem]; exact hgo)]
                        simp only []
                        rw [a1, ok_bind, b1, ok_bind]
                        simp only []
                        rw [c1, ok_bind, if_neg hbr, h5, ok_bind, d1, ok_bind, e1, ok_bind, f1, ok_bind]
                        simp only []
                        rw [g1, ok_bind]
                        exact q1
    · refine ⟨[size + t.lines], Limits.cons (Limits.nil _ _) (Nat.le_refl _) (by omega), fun s' c' o' hh => ?_⟩
      rw [encodeLoop, if_neg (show ¬ (s.rem > 0 ∧ oSink.stop (e, [size + t.lines]) = false) from hgo)] at hh
      cases hh
      refine ⟨n, t, ?_, h, rfl⟩
      rw [encodeLoopT, if_neg (by rw [hrem]; exact hgo)]

end Lha
