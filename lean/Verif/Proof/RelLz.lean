import Verif.Proof.RelBlock
import Verif.Proof.Codec
/-!
# Two runs of the whole encoder on the same data

The hash table is cleared at the start of a compression, the text buffer up to its working size; the table of previous
positions is not, and neither is the rest of the text buffer.  The search never looks at what was not written during
this compression, so the output does not depend on it.
-/

namespace Lha

open Spec

/-- The same state with another table of previous positions and another text buffer. -/
def Lz.put (s : Lz) (pv tx : Arr) : Lz := { s with prevs := pv, text := tx }

/-- `pv` and `tx` agree with the buffers of `s` wherever the search may look. -/
structure RelBufs (g : Geo) (F q : Nat) (s : Lz) (pv tx : Arr) : Prop where
  prs : pv.size = 65536
  txs : g.txtsiz + 1 ≤ tx.size
  text : AgreeTo g.txtsiz s.text tx
  prevs : ∀ v, 0 < v → F ≤ v → v < q → q ≤ v + g.dicsiz → s.prevs.get (v % g.dicsiz) = pv.get (v % g.dicsiz)

theorem insertHash_both {g : Geo} (hg : GeoFit g) {D : List Nat} {base F : Nat} {s : Lz} (h : LInv g D base F s.pos s)
    {pv tx : Arr} (hr : RelBufs g F s.pos s pv tx) {r : Lz} (hi : insertHash g s = .ok r) :
    ∃ pv', insertHash g (s.put pv tx) = .ok (r.put pv' tx) ∧ RelBufs g F (s.pos + 1) r pv' tx := by
  obtain ⟨d1, d2, d3⟩ := hg.dic
  have hlt : s.pos % g.dicsiz < g.dicsiz := Nat.mod_lt _ (by omega)
  have hps := h.hps
  have hprs := h.prs
  have hprs' := hr.prs
  have htk := h.tok
  unfold insertHash at hi ⊢
  rw [rd_ok (by omega), ok_bind, wr_ok (by omega), ok_bind, wr_ok (by omega), ok_bind] at hi
  cases hi
  simp only [Lz.put]
  rw [rd_ok (show s.token < s.hpos.size by omega), ok_bind, wr_ok (show s.pos % g.dicsiz < pv.size by omega), ok_bind,
    wr_ok (show s.token < s.hpos.size by omega), ok_bind]
  refine ⟨_, rfl, by simpa using hr.prs, hr.txs, hr.text, ?_⟩
  intro v v1 v2 v3 v4
  simp only []
  by_cases hv : v = s.pos
  · subst hv
    rw [Arr.get_upd_same, Arr.get_upd_same]
  · have := mod_ne_of_lt (d := g.dicsiz) (show v < s.pos by omega) (by omega)
    rw [Arr.get_upd_ne _ _ _ _ this, Arr.get_upd_ne _ _ _ _ this]
    exact hr.prevs v v1 v2 (by omega) (by omega)

theorem updateDict_both {g : Geo} (hg : GeoFit g) {tab : Arr} (ht : CrcTab tab) {F : Nat} {s : Lz}
    (hpos : s.pos = 2 * g.dicsiz) (hps : s.hpos.size = 32768) (hfs : s.hflag.size = 32768) (prs : s.prevs.size = 65536)
    (txs : g.txtsiz + 1 ≤ s.text.size) (hb : IsBytes s.inp) (fle : F ≤ g.dicsiz) {pv tx : Arr}
    (hr : RelBufs g F s.pos s pv tx) {r : Lz} (hu : updateDict g tab s = .ok r) :
    ∃ pv' tx', updateDict g tab (s.put pv tx) = .ok (r.put pv' tx') ∧ RelBufs g 0 r.pos r pv' tx' := by
  obtain ⟨d1, d2, d3⟩ := hg.dic
  have hm4 := hg.mm4
  have prs' := hr.prs
  have txs' := hr.txs
  unfold updateDict at hu ⊢
  obtain ⟨tx0, c1, c2, c3⟩ := copyDown_ok g.dicsiz (g.txtsiz - g.dicsiz) 0 s.text (by omega) (by omega)
  obtain ⟨tx0', c1', c2', c3'⟩ := copyDown_ok g.dicsiz (g.txtsiz - g.dicsiz) 0 tx (by omega) (by omega)
  obtain ⟨tx1, e1, e2, e3⟩ := freadText_ok ht (g.txtsiz - g.dicsiz) g.dicsiz { s with text := tx0 } hb
    (by simp only [List.length_take]; omega)
  obtain ⟨tx1', e1', e2', e3'⟩ := freadText_ok ht (g.txtsiz - g.dicsiz) g.dicsiz { s with prevs := pv, text := tx0' } hb
    (by simp only [List.length_take]; omega)
  obtain ⟨hp, f1, f2, f3⟩ := modRange_ok (shiftPos g.dicsiz) 32768 0 s.hpos (by omega)
  obtain ⟨hf, g1, g2, _⟩ := fillAll_ok 32768 0 s.hflag (by omega)
  obtain ⟨pv1, i1, i2, i3⟩ := modRange_ok (shiftPos g.dicsiz) g.dicsiz 0 s.prevs (by omega)
  obtain ⟨pv1', i1', i2', i3'⟩ := modRange_ok (shiftPos g.dicsiz) g.dicsiz 0 pv (by omega)
  simp only [Lz.put] at e1 e1' e2 e2' e3 e3' ⊢
  rw [c1, ok_bind, e1, ok_bind] at hu
  simp only [] at hu
  rw [f1, ok_bind, g1, ok_bind, i1, ok_bind] at hu
  cases hu
  rw [c1', ok_bind, e1', ok_bind]
  simp only []
  rw [f1, ok_bind, g1, ok_bind, i1', ok_bind]
  refine ⟨pv1', tx1', rfl, by omega, by omega, ?_, ?_⟩
  · intro x hx
    simp only []
    rw [e3, e3']
    by_cases hx1 : g.txtsiz - g.dicsiz ≤ x ∧ x < g.txtsiz - g.dicsiz + (s.inp.take g.dicsiz).length
    · rw [if_pos hx1, if_pos hx1]
    · rw [if_neg hx1, if_neg hx1, c3, c3']
      by_cases hx2 : 0 ≤ x ∧ x < 0 + (g.txtsiz - g.dicsiz)
      · rw [if_pos hx2, if_pos hx2, hr.text _ (by omega)]
      · rw [if_neg hx2, if_neg hx2, hr.text _ hx]
  · intro v v1 v2 v3 v4
    simp only [] at v3 v4 ⊢
    have hvm : v % g.dicsiz < g.dicsiz := Nat.mod_lt _ (by omega)
    rw [i3, i3', if_pos ⟨by omega, by omega⟩, if_pos ⟨by omega, by omega⟩]
    have := hr.prevs (v + g.dicsiz) (by omega) (by omega) (by omega) (by omega)
    rw [Nat.add_mod_right] at this
    rw [this]

theorem nextHash_eq {t t' : Arr} {N : Nat} (h : AgreeTo N t t') (h1 : N ≤ t.size) (h2 : N ≤ t'.size) {tok p : Nat}
    (hp : p + 2 < N) : nextHash t tok p = nextHash t' tok p := by
  unfold nextHash
  rw [rd_ok (show p + 2 < t.size by omega), rd_ok (show p + 2 < t'.size by omega), ok_bind, ok_bind, h _ hp]

theorem nextToken_both {g : Geo} (hg : GeoFit g) {tab : Arr} (ht : CrcTab tab) {D : List Nat} (hD : IsBytes D)
    {base F : Nat} {s : Lz} (h : LInv g D base F (s.pos + 1) s) (hr : 0 < s.rem) {pv tx : Arr}
    (hl : RelBufs g F (s.pos + 1) s pv tx) :
    ∃ s' base' F' pv' tx', nextToken g tab s = .ok s' ∧ nextToken g tab (s.put pv tx) = .ok (s'.put pv' tx') ∧
      LInv g D base' F' s'.pos s' ∧ RelBufs g F' s'.pos s' pv' tx' ∧ s'.pos + base' = s.pos + base + 1 ∧ s.rem ≤ s'.rem + 1 := by
  obtain ⟨d1, d2, d3⟩ := hg.dic
  have hm4 := hg.mm4
  have hpl := h.posLo
  have hph := h.posHi
  have hlim := h.lim
  have hfull := h.full
  have hle := h.le
  have htx := h.txs
  unfold nextToken
  simp only []
  have hcont : ∀ (s1 : Lz) (base' F' : Nat) (pv1 tx1 : Arr), LInv g D base' F' s1.pos s1 → RelBufs g F' s1.pos s1 pv1 tx1 →
      s1.pos + base' = s.pos + base + 1 → s.rem ≤ s1.rem + 1 →
      ∃ s' base' F' pv' tx', (do
          let t ← nextHash s1.text s1.token s1.pos
          .ok { s1 with token := t } : G Lz) = .ok s' ∧ (do
          let t ← nextHash (s1.put pv1 tx1).text (s1.put pv1 tx1).token (s1.put pv1 tx1).pos
          .ok { s1.put pv1 tx1 with token := t } : G Lz) = .ok (s'.put pv' tx') ∧
        LInv g D base' F' s'.pos s' ∧ RelBufs g F' s'.pos s' pv' tx' ∧ s'.pos + base' = s.pos + base + 1 ∧
        s.rem ≤ s'.rem + 1 := by
    intro s1 base' F' pv1 tx1 h1 hl1 h2 h3
    have := h1.posHi
    have := h1.txs
    have := hl1.txs
    obtain ⟨t, t1, t2⟩ := nextHash_ok (text := s1.text) (token := s1.token) (pos := s1.pos) (by omega)
    have t1' : nextHash (s1.put pv1 tx1).text (s1.put pv1 tx1).token (s1.put pv1 tx1).pos = .ok t := by
      rw [← t1]
      exact (nextHash_eq hl1.text (by omega) (show g.txtsiz ≤ tx1.size by omega) (show s1.pos + 2 < g.txtsiz by omega)).symm
    rw [t1, ok_bind, t1', ok_bind]
    exact ⟨_, base', F', pv1, tx1, rfl, rfl, ⟨h1.hps, h1.hfs, h1.prs, h1.txs, h1.posLo, h1.posHi, h1.lim, h1.rd, h1.le, h1.full, h1.text,
      h1.crc, t2, h1.fle, h1.hash, h1.chain⟩, ⟨hl1.prs, hl1.txs, hl1.text, hl1.prevs⟩, h2, h3⟩
  have he : s.pos + 1 + (s.rem - 1) = s.pos + s.rem := by omega
  by_cases hup : s.pos + 1 ≥ g.txtsiz - g.maxmatch
  · obtain ⟨s1, u1, u2, u3, u4⟩ := updateDict_ok hg ht hD (base := base) (F := F)
      (s := { s with rem := s.rem - 1, pos := s.pos + 1 }) (by simp only []; omega) h.hps h.hfs h.prs h.txs
      (by simp only []; omega) (by simp only [he]; exact h.rd) (by simp only []; omega) (by simp only []; omega)
      (by simp only [he]; exact h.text) (by simp only [he]; exact h.crc) h.tok h.fle h.hash
      (fun v v1 v2 v3 v4 => h.chain v v1 v2 v3 v4)
    obtain ⟨pv1, tx1, w1, w2⟩ := updateDict_both hg ht (F := F) (s := { s with rem := s.rem - 1, pos := s.pos + 1 })
      (by simp only []; omega) h.hps h.hfs h.prs h.txs
      (fun x hx => hD x (List.mem_of_mem_drop (h.rd ▸ hx))) h.fle (pv := pv) (tx := tx)
      ⟨hl.prs, hl.txs, hl.text, hl.prevs⟩ u1
    simp only [] at u3 u4
    have w1' : updateDict g tab { s.put pv tx with rem := (s.put pv tx).rem - 1, pos := (s.put pv tx).pos + 1 }
        = .ok (s1.put pv1 tx1) := w1
    rw [if_pos hup, if_pos (show (s.put pv tx).pos + 1 ≥ g.txtsiz - g.maxmatch from hup), u1, w1', ok_bind, ok_bind]
    exact hcont s1 _ _ _ _ u2 w2 (by omega) (by omega)
  · rw [if_neg hup, if_neg (show ¬ (s.put pv tx).pos + 1 ≥ g.txtsiz - g.maxmatch from hup), ok_bind, ok_bind]
    exact hcont { s with rem := s.rem - 1, pos := s.pos + 1 } base F pv tx
      ⟨h.hps, h.hfs, h.prs, h.txs, by simp only []; omega, by simp only []; omega, by simp only []; omega,
        by simp only [he]; exact h.rd, by simp only []; omega, by simp only []; omega, by simp only [he]; exact h.text,
        by simp only [he]; exact h.crc, h.tok, h.fle, h.hash, h.chain⟩ ⟨hl.prs, hl.txs, hl.text, hl.prevs⟩
        (by simp only []; omega) (by simp only []; omega)

theorem collate_eq {t t' : Arr} {N : Nat} (h : AgreeTo N t t') (h1 : N ≤ t.size) (h2 : N ≤ t'.size) :
    ∀ n a b, a + n ≤ N → b + n ≤ N → collate t n a b = collate t' n a b := by
  intro n
  induction n with
  | zero => intros; rfl
  | succ n ih =>
    intro a b ha hb
    rw [collate, collate, rd_ok (show a < t.size by omega), rd_ok (show a < t'.size by omega), ok_bind, ok_bind,
      rd_ok (show b < t.size by omega), rd_ok (show b < t'.size by omega), ok_bind, ok_bind, h a (by omega), h b (by omega),
      ih (a + 1) (b + 1) (by omega) (by omega)]

theorem scanLoop_eq {g : Geo} {text prevs text' prevs' : Arr} {pos F N : Nat}
    (hpr : g.dicsiz ≤ prevs.size) (hpr' : g.dicsiz ≤ prevs'.size) (hd : 2 ≤ g.dicsiz) (hsz : pos + g.maxmatch < N)
    (h1 : N ≤ text.size) (h2 : N ≤ text'.size) (ht : AgreeTo N text text')
    (chain : ∀ v, 0 < v → F ≤ v → v < pos → pos ≤ v + g.dicsiz →
      prevs.get (v % g.dicsiz) < v ∧ (prevs.get (v % g.dicsiz) = 0 ∨ F ≤ prevs.get (v % g.dicsiz)))
    (hp : ∀ v, 0 < v → F ≤ v → v < pos → pos ≤ v + g.dicsiz → prevs.get (v % g.dicsiz) = prevs'.get (v % g.dicsiz))
    (off max : Nat) (hmax : max ≤ g.maxmatch) :
    ∀ (f sp ch : Nat) (m : Match), (sp = 0 ∨ (F ≤ sp ∧ sp < pos)) → m.len ≤ g.maxmatch →
    scanLoop g text prevs pos off max f sp ch m = scanLoop g text' prevs' pos off max f sp ch m := by
  intro f
  induction f with
  | zero => intros; rfl
  | succ f ih =>
    intro sp ch m hsp hm
    rw [scanLoop, scanLoop]
    by_cases hc : off < sp ∧ pos < sp - off + g.dicsiz
    · rw [if_pos hc, if_pos hc]
      simp only []
      have hlt : sp < pos := by omega
      rw [rd_ok (show sp - off + m.len < text.size by omega), rd_ok (show sp - off + m.len < text'.size by omega),
        rd_ok (show pos + m.len < text.size by omega), rd_ok (show pos + m.len < text'.size by omega)]
      simp only [ok_bind]
      rw [← ht _ (show sp - off + m.len < N by omega), ← ht _ (show pos + m.len < N by omega),
        ← collate_eq ht h1 h2 max (sp - off) pos (by omega) (by omega)]
      obtain ⟨k1, k2⟩ := chain sp (by omega) (by omega) hlt (by omega)
      have hq := hp sp (by omega) (by omega) hlt (by omega)
      have hmod : sp % g.dicsiz < g.dicsiz := Nat.mod_lt _ (by omega)
      have hcont : ∀ m1 : Match, m1.len ≤ g.maxmatch →
          (if m1.len = max ∧ m1.len > m.len then .ok (ch + 1, m1)
            else do
              let sp ← rd prevs (sp % g.dicsiz)
              scanLoop g text prevs pos off max f sp (ch + 1) m1 : G (Nat × Match)) =
          (if m1.len = max ∧ m1.len > m.len then .ok (ch + 1, m1)
            else do
              let sp ← rd prevs' (sp % g.dicsiz)
              scanLoop g text' prevs' pos off max f sp (ch + 1) m1 : G (Nat × Match)) := by
        intro m1 h2
        by_cases hb : m1.len = max ∧ m1.len > m.len
        · rw [if_pos hb, if_pos hb]
        · rw [if_neg hb, if_neg hb, rd_ok (show sp % g.dicsiz < prevs.size by omega),
            rd_ok (show sp % g.dicsiz < prevs'.size by omega), ok_bind, ok_bind, ← hq]
          exact ih _ _ _ (by omega) h2
      by_cases hx : text.get (sp - off + m.len) = text.get (pos + m.len)
      · rw [if_pos hx, if_pos hx]
        obtain ⟨le, l1, l2, l3⟩ := collate_ok text max (sp - off) pos (by omega) (by omega)
        rw [l1, ok_bind, ok_bind]
        by_cases hle : le > m.len
        · rw [if_pos hle, if_pos hle]
          exact hcont ⟨le, pos - (sp - off)⟩ (by simp only []; omega)
        · rw [if_neg hle, if_neg hle]
          exact hcont m hm
      · rw [if_neg hx, if_neg hx]
        exact hcont m hm
    · rw [if_neg hc, if_neg hc]

theorem searchDict1_both {g : Geo} (hg : GeoFit g) {D : List Nat} {base F : Nat} {s : Lz} (h : LInv g D base F s.pos s)
    {pv tx : Arr} (hl : RelBufs g F s.pos s pv tx)
    (token off max : Nat) (m : Match) (htk : token < 32768) (hmax : max ≤ g.maxmatch) (hm : m.len ≤ g.maxmatch) {r : Lz}
    {m' : Match} (hs : searchDict1 g s token off max m = .ok (r, m')) :
    searchDict1 g (s.put pv tx) token off max m = .ok (r.put pv tx, m') := by
  obtain ⟨d1, d2, d3⟩ := hg.dic
  have hps := h.hps
  have hprs := h.prs
  have hph := h.posHi
  have htx := h.txs
  have hfs := h.hfs
  have hprs' := hl.prs
  have htx' := hl.txs
  unfold searchDict1 at hs ⊢
  rw [rd_ok (by omega), ok_bind] at hs
  rw [rd_ok (show token < (s.put pv tx).hpos.size by simp only [Lz.put]; omega), ok_bind]
  obtain ⟨⟨ch, m1⟩, e1, e2⟩ := bind_ok hs
  have heq : scanLoop g (s.put pv tx).text (s.put pv tx).prevs (s.put pv tx).pos off max ((s.put pv tx).pos + 2)
      ((s.put pv tx).hpos.get token) 0 m = .ok (ch, m1) := by
    rw [← e1]
    exact (scanLoop_eq (F := F) (N := g.txtsiz) (by omega) (show g.dicsiz ≤ pv.size by omega) d1 (by omega) (by omega)
      (show g.txtsiz ≤ tx.size by omega) hl.text h.chain hl.prevs off max hmax _ _ _ _ (h.hash token htk) hm).symm
  rw [heq, ok_bind]
  simp only [] at e2 ⊢
  by_cases hc : ch ≥ 256
  · rw [if_pos hc, wr_ok (by omega), ok_bind] at e2
    rw [if_pos hc, wr_ok (show token < (s.put pv tx).hflag.size by simp only [Lz.put]; omega), ok_bind]
    cases e2
    rfl
  · rw [if_neg hc] at e2 ⊢
    cases e2
    rfl

theorem offLoop_eq {g : Geo} {s : Lz} {pv tx : Arr} (ht : AgreeTo g.txtsiz s.text tx) (h1 : g.txtsiz ≤ s.text.size)
    (h2 : g.txtsiz ≤ tx.size) : ∀ f off tok, s.pos + off + f + 2 < g.txtsiz →
    offLoop (s.put pv tx) f off tok = offLoop s f off tok := by
  intro f
  induction f with
  | zero => intros; rfl
  | succ f ih =>
    intro off tok hb
    rw [offLoop, offLoop]
    have e : nextHash (s.put pv tx).text tok ((s.put pv tx).pos + (off + 1)) = nextHash s.text tok (s.pos + (off + 1)) :=
      (nextHash_eq ht h1 h2 (show s.pos + (off + 1) + 2 < g.txtsiz by omega)).symm
    rw [e]
    show (rd s.hflag tok >>= _) = _
    have : ∀ t, offLoop (s.put pv tx) f (off + 1) t = offLoop s f (off + 1) t := fun t => ih _ _ (by omega)
    simp only [this]

theorem searchDict_both {g : Geo} (hg : GeoFit g) {D : List Nat} {base F : Nat} {s : Lz} (h : LInv g D base F s.pos s)
    {pv tx : Arr} (hl : RelBufs g F s.pos s pv tx) (mn : Nat) (hmn : mn ≤ g.maxmatch) {r : Lz} {m : Match}
    (hs : searchDict g s mn = .ok (r, m)) : searchDict g (s.put pv tx) mn = .ok (r.put pv tx, m) := by
  obtain ⟨d1, d2, d3⟩ := hg.dic
  have hm4 := hg.mm4
  have hph := h.posHi
  have htx := h.txs
  have hlim := h.lim
  have htx' := hl.txs
  unfold searchDict at hs ⊢
  generalize hmn' : (if mn < 2 then 2 else mn) = mn' at hs ⊢
  have hmn2 : mn' ≤ g.maxmatch := by
    rw [← hmn']; split <;> omega
  obtain ⟨off0, tok0, o1, o2, o3, o4⟩ := offLoop_ok s h.hfs (g.maxmatch - 3) 0 s.token h.tok (by omega)
  have o1' : offLoop (s.put pv tx) (g.maxmatch - 3) 0 (s.put pv tx).token = .ok (off0, tok0) := by
    rw [← o1]
    exact offLoop_eq hl.text (by omega) (by omega) _ _ _ (by omega)
  simp only [] at hs ⊢
  rw [o1, ok_bind] at hs
  rw [o1', ok_bind]
  simp only [] at hs ⊢
  have hpair : ∃ off tok, (if off0 = g.maxmatch - 3 then (0, s.token) else (off0, tok0)) = (off, tok) ∧
      off + 3 ≤ g.maxmatch ∧ tok < 32768 := by
    by_cases hz : off0 = g.maxmatch - 3
    · rw [if_pos hz]; exact ⟨0, s.token, rfl, by omega, h.tok⟩
    · rw [if_neg hz]; exact ⟨off0, tok0, rfl, by omega, o4⟩
  obtain ⟨off, tok, p1, p2, p3⟩ := hpair
  have p1' : (if off0 = g.maxmatch - 3 then (0, (s.put pv tx).token) else (off0, tok0)) = (off, tok) := p1
  rw [p1] at hs
  rw [p1']
  simp only [] at hs ⊢
  obtain ⟨hf1, m1, q1, q2, q3, q4, q5⟩ := searchDict1_ok hg h tok off g.maxmatch ⟨mn', 0⟩ p3 (by omega) (by simp only []; omega)
  have q1' := searchDict1_both hg h hl tok off g.maxmatch ⟨mn', 0⟩ p3 (by omega) (by simp only []; omega) q1
  rw [q1, ok_bind] at hs
  rw [q1', ok_bind]
  simp only [] at hs ⊢
  by_cases hre : off > 0 ∧ m1.len < off + 3
  · rw [if_pos hre] at hs ⊢
    obtain ⟨hf2, m2, r1, r2, r3, r4, r5⟩ := searchDict1_ok hg (s := { s with hflag := hf1 }) (h.setFlag hf1 q2) s.token 0 (off + 2) m1 h.tok
      (by omega) q4
    have r1' := searchDict1_both hg (s := { s with hflag := hf1 }) (h.setFlag hf1 q2) (pv := pv) (tx := tx)
      ⟨hl.prs, hl.txs, hl.text, hl.prevs⟩ s.token 0 (off + 2) m1 h.tok (by omega) q4 r1
    simp only [] at r1
    rw [r1, ok_bind] at hs
    have r1'' : searchDict1 g ({ s with hflag := hf1 }.put pv tx) ({ s with hflag := hf1 }.put pv tx).token 0 (off + 2) m1
      = .ok ({ s with hflag := hf2 }.put pv tx, m2) := r1'
    rw [r1'', ok_bind]
    simp only [] at hs ⊢
    by_cases hc : m2.len > s.rem
    · rw [if_pos hc] at hs
      rw [if_pos (by exact hc)]
      cases hs; rfl
    · rw [if_neg hc] at hs
      rw [if_neg (by exact hc)]
      cases hs; rfl
  · rw [if_neg hre, ok_bind] at hs
    rw [if_neg hre, ok_bind]
    simp only [] at hs ⊢
    by_cases hc : m1.len > s.rem
    · rw [if_pos hc] at hs
      rw [if_pos (by exact hc)]
      cases hs; rfl
    · rw [if_neg hc] at hs
      rw [if_neg (by exact hc)]
      cases hs; rfl

theorem RelBufs.setFlag {g : Geo} {F q : Nat} {s : Lz} {pv tx : Arr} (h : RelBufs g F q s pv tx) (hf : Arr) :
    RelBufs g F q { s with hflag := hf } pv tx := ⟨h.prs, h.txs, h.text, h.prevs⟩

theorem skipLoop_both {g : Geo} (hg : GeoFit g) {tab : Arr} (ht : CrcTab tab) {D : List Nat} (hD : IsBytes D) :
    ∀ (n : Nat) (s : Lz) (base F : Nat) (pv tx : Arr), LInv g D base F (s.pos + 1) s → RelBufs g F (s.pos + 1) s pv tx →
    n < s.rem →
    ∃ s' base' F' pv' tx', skipLoop g tab n s = .ok s' ∧ skipLoop g tab n (s.put pv tx) = .ok (s'.put pv' tx') ∧
      LInv g D base' F' (s'.pos + 1) s' ∧ RelBufs g F' (s'.pos + 1) s' pv' tx' ∧ s'.pos + base' = s.pos + base + n ∧
      s.rem ≤ s'.rem + n := by
  intro n
  induction n with
  | zero => intro s base F pv tx h hl _; exact ⟨s, base, F, pv, tx, rfl, rfl, h, hl, rfl, Nat.le_refl _⟩
  | succ n ih =>
    intro s base F pv tx h hl hn
    obtain ⟨s1, b1, F1, pv1, tx1, n1, n1', n2, l2, n3, n4⟩ := nextToken_both hg ht hD h (by omega) hl
    obtain ⟨s2, i1, i2, i3, i4, i5⟩ := insertHash_ok hg n2
    obtain ⟨pv2, i1', l3⟩ := insertHash_both hg n2 l2 i1
    obtain ⟨s', b', F', pv', tx', r1, r1', r2, l4, r3, r4⟩ := ih s2 b1 F1 pv2 tx1 (by rw [i3]; exact i2)
      (by rw [i3]; exact l3) (by omega)
    rw [skipLoop, n1, ok_bind, i1, ok_bind, skipLoop, n1', ok_bind, i1', ok_bind]
    exact ⟨s', b', F', pv', tx', r1, r1', r2, l4, by omega, by omega⟩

/-- A relation between two states of a sink that is kept by every valid token. -/
structure SinkRel {σ : Type} (k : Sink σ) (g : Geo) (R : List (Nat × Nat) → σ → σ → Prop) : Prop where
  stop : ∀ ts o o', R ts o o' → k.stop o = k.stop o'
  out : ∀ ts o o' t, R ts o o' → k.stop o = false → TokV g t →
    ∃ p p', k.out t.1 t.2 o = .ok p ∧ k.out t.1 t.2 o' = .ok p' ∧ R (ts ++ [t]) p p'

theorem encodeLoop_both {σ : Type} {k : Sink σ} {g : Geo} (hg : GeoFit g) {tab : Arr} (ht : CrcTab tab) {D : List Nat}
    (hD : IsBytes D) {R : List (Nat × Nat) → σ → σ → Prop} (hR : SinkRel k g R) :
    ∀ (f : Nat) (s : Lz) (m : Match) (count : Nat) (o o' : σ) (ts : List (Nat × Nat)) (base F : Nat) (pv tx : Arr),
    LInv g D base F (s.pos + 1) s → RelBufs g F (s.pos + 1) s pv tx → count + g.dicsiz = s.pos + base → D.length - count < f →
    m.len ≤ s.rem → (m.len < 3 ∨ MatchAt g D (s.pos + base) m) → R ts o o' →
    ∃ s' count' p p' ts' pv' tx', encodeLoop k g tab f s m count o = .ok (s', count', p) ∧
      encodeLoop k g tab f (s.put pv tx) m count o' = .ok (s'.put pv' tx', count', p') ∧ R ts' p p' := by
  obtain ⟨d1, d2, d3⟩ := hg.dic
  have hm4 := hg.mm4
  intro f
  induction f with
  | zero => intro s m count o o' ts base F pv tx _ _ _ h; omega
  | succ f ih =>
    intro s m count o o' ts base F pv tx h hl hc hf hml hm hRo
    rw [encodeLoop, encodeLoop, ← hR.stop ts o o' hRo]
    by_cases hgo : s.rem > 0 ∧ k.stop o = false
    · rw [if_pos hgo, if_pos (show (s.put pv tx).rem > 0 ∧ k.stop o = false from hgo)]
      simp only []
      obtain ⟨s1, b1, F1, pv1, tx1, n1, n1', n2, l2, n3, n4⟩ := nextToken_both hg ht hD h hgo.1 hl
      have hmm : m.len - 1 ≤ g.maxmatch := by
        rcases hm with hm | hm
        · omega
        · have := hm.2.2.1; omega
      obtain ⟨hf2, m2, e1, e2, e3, e4⟩ := searchDict_ok hg n2 (m.len - 1) hmm
      have e1' := searchDict_both hg n2 l2 (m.len - 1) hmm e1
      obtain ⟨s3, i1, i2, i3, i4, i5⟩ := insertHash_ok hg (s := { s1 with hflag := hf2 }) (n2.setFlag hf2 e2)
      obtain ⟨pv3, i1', l3⟩ := insertHash_both hg (s := { s1 with hflag := hf2 }) (n2.setFlag hf2 e2) (l2.setFlag hf2) i1
      simp only [] at i1 i2 i3 i4 i5
      rw [n1, ok_bind, e1, ok_bind, n1', ok_bind, e1', ok_bind]
      simp only []
      rw [i1, ok_bind, i1', ok_bind]
      have hle := h.le
      have hpl := n2.posLo
      have htx := n2.txs
      have htx' := l2.txs
      have hph := n2.posHi
      by_cases hbr : m2.len > m.len ∨ m.len < 3
      · rw [if_pos hbr, if_pos hbr]
        rw [rd_ok (show s3.pos - 1 < s3.text.size by rw [i5]; omega), ok_bind,
          rd_ok (show (s3.put pv3 tx1).pos - 1 < (s3.put pv3 tx1).text.size by simp only [Lz.put]; omega), ok_bind]
        have hcur : s3.text.get (s3.pos - 1) = D.getD count 0 := by
          rw [i5, i3, n2.text _ (by omega)]
          unfold hist
          rw [if_neg (by omega)]
          congr 1
          omega
        have hcur' : (s3.put pv3 tx1).text.get ((s3.put pv3 tx1).pos - 1) = D.getD count 0 := by
          rw [← hcur]
          exact (l3.text _ (show s3.pos - 1 < g.txtsiz by omega)).symm
        have hb : D.getD count 0 < 256 := getD_isBytes hD count (by omega)
        rw [hcur, hcur']
        obtain ⟨p, p', o1, o1', o2⟩ := hR.out ts o o' (D.getD count 0, 0) hRo hgo.2 (Or.inl ⟨hb, rfl⟩)
        simp only [] at o1 o1'
        rw [o1, o1', ok_bind, ok_bind]
        apply ih s3 m2 (count + 1) p p' (ts ++ [(D.getD count 0, 0)]) b1 F1
        · rw [i3]; exact i2
        · rw [i3]; exact l3
        · omega
        · omega
        · omega
        · rw [i3]
          rcases e4 with e4 | e4 | e4
          · left; omega
          · left; omega
          · right; exact e4
        · exact o2
      · rw [if_neg hbr, if_neg hbr]
        have hM : MatchAt g D (s.pos + base) m := by
          rcases hm with hm | hm
          · omega
          · exact hm
        obtain ⟨M1, M2, M3, M4⟩ := hM
        have hoff : (m.off + g.dicsiz - 1) % g.dicsiz = m.off - 1 := by
          rw [show m.off + g.dicsiz - 1 = m.off - 1 + g.dicsiz by omega, Nat.add_mod_right, Nat.mod_eq_of_lt (by omega)]
        rw [hoff]
        have hv : TokV g (m.len + 253, m.off - 1) := Or.inr ⟨by simp only []; omega, by simp only []; omega, by simp only []; omega⟩
        obtain ⟨p, p', o1, o1', o2⟩ := hR.out ts o o' (m.len + 253, m.off - 1) hRo hgo.2 hv
        simp only [] at o1 o1'
        rw [o1, o1', ok_bind, ok_bind]
        obtain ⟨s4, b4, F4, pv4, tx4, k1, k1', k2, l4, k3, k4⟩ := skipLoop_both hg ht hD (m.len - 2) s3 b1 F1 pv3 tx1
          (by rw [i3]; exact i2) (by rw [i3]; exact l3) (by omega)
        rw [k1, k1', ok_bind, ok_bind]
        obtain ⟨s5, b5, F5, pv5, tx5, p1, p1', p2, l5, p3, p4⟩ := nextToken_both hg ht hD k2 (by omega) l4
        rw [p1, p1', ok_bind, ok_bind]
        obtain ⟨hf6, m6, q1, q2, q3, q4⟩ := searchDict_ok hg p2 2 (by omega)
        have q1' := searchDict_both hg p2 l5 2 (by omega) q1
        obtain ⟨s7, r1, r2, r3, r4, r5⟩ := insertHash_ok hg (s := { s5 with hflag := hf6 }) (p2.setFlag hf6 q2)
        obtain ⟨pv7, r1', l7⟩ := insertHash_both hg (s := { s5 with hflag := hf6 }) (p2.setFlag hf6 q2) (l5.setFlag hf6) r1
        simp only [] at r1 r2 r3 r4 r5
        rw [q1, q1', ok_bind, ok_bind]
        simp only []
        rw [r1, r1', ok_bind, ok_bind]
        apply ih s7 m6 (count + m.len) p p' (ts ++ [(m.len + 253, m.off - 1)]) b5 F5
        · rw [r3]; exact r2
        · rw [r3]; exact l7
        · omega
        · omega
        · omega
        · rw [r3]
          rcases q4 with e4 | e4 | e4
          · left; omega
          · left; omega
          · right; exact e4
        · exact o2
    · rw [if_neg hgo, if_neg (show ¬ ((s.put pv tx).rem > 0 ∧ k.stop o = false) from hgo)]
      exact ⟨s, count, o, o', ts, pv, tx, rfl, rfl, hRo⟩

/-- The whole LZ stage from two sets of buffers. -/
theorem encodeLz_both {σ : Type} {k : Sink σ} {g : Geo} (hg : GeoFit g) {tab : Arr} (ht : CrcTab tab) {D : List Nat}
    (hD : IsBytes D) {R : List (Nat × Nat) → σ → σ → Prop} (hR : SinkRel k g R) {b b' : LzBufs} (hb : BufsOk g b)
    (hb' : BufsOk g b') {o o' : σ} (hRo : R [] o o') (hne : D ≠ []) (hfirst : D.getD 0 0 &&& 32 = 0) :
    ∃ r r' ts, encodeLz k g tab b D o = .ok (some r) ∧ encodeLz k g tab b' D o' = .ok (some r') ∧ R ts r.sink r'.sink ∧
      r.crc = r'.crc ∧ r.count = r'.count ∧ r.rest = r'.rest := by
  obtain ⟨d1, d2, d3⟩ := hg.dic
  have hm4 := hg.mm4
  have hps := hb.hpos
  have hfs := hb.hflag
  have hps' := hb'.hpos
  have hfs' := hb'.hflag
  have txs := hb.text
  have txs' := hb'.text
  unfold encodeLz
  have a1 : ∀ {a : Arr}, a.size = 32768 → fillAll 32768 0 a = .ok (Arr.mk' 32768 0) := by
    intro a h
    unfold fillAll
    rw [if_pos h.symm]
  obtain ⟨tx, c1, c2, c3⟩ := fillAll_ok (g.txtsiz + 1) 32 b.text (by omega)
  obtain ⟨tx', c1', c2', c3'⟩ := fillAll_ok (g.txtsiz + 1) 32 b'.text (by omega)
  rw [a1 hps, a1 hfs, a1 hps', a1 hfs', c1, c1']
  simp only [ok_bind, if_neg hne]
  obtain ⟨tx2, e1, e2, e3⟩ := freadText_ok ht g.dicsiz (g.txtsiz - g.dicsiz)
    ⟨Arr.mk' 32768 0, Arr.mk' 32768 0, b.prevs, tx, D, 0, g.dicsiz, 0, 0⟩ hD (by simp only [List.length_take]; omega)
  obtain ⟨tx2', e1', e2', e3'⟩ := freadText_ok ht g.dicsiz (g.txtsiz - g.dicsiz)
    ⟨Arr.mk' 32768 0, Arr.mk' 32768 0, b'.prevs, tx', D, 0, g.dicsiz, 0, 0⟩ hD (by simp only [List.length_take]; omega)
  simp only [] at e1 e2 e3 e1' e2' e3'
  rw [e1, e1', ok_bind, ok_bind]
  simp only []
  have hDl : 0 < D.length := List.length_pos_iff.2 hne
  generalize hv : (D.take (g.txtsiz - g.dicsiz)).length = v at *
  have hv2 : v = min (g.txtsiz - g.dicsiz) D.length := by rw [← hv, List.length_take]
  have hag : AgreeTo (g.txtsiz + 1) tx2 tx2' := by
    intro x hx
    rw [e3, e3']
    by_cases hc : g.dicsiz ≤ x ∧ x < g.dicsiz + v
    · rw [if_pos hc, if_pos hc]
    · rw [if_neg hc, if_neg hc, c3 _ hx, c3' _ hx]
  have htext : ∀ x, x < g.dicsiz + v → tx2.get x = hist g.dicsiz D x := by
    intro x hx
    rw [e3]
    unfold hist
    by_cases hxd : x < g.dicsiz
    · rw [if_neg (by omega), if_pos hxd, c3 _ (by omega)]
    · rw [if_pos ⟨by omega, by omega⟩, if_neg hxd, getD_take _ _ _ (by omega)]
  have hlt : ∀ x, x < g.txtsiz + 1 → tx2.get x < 256 := by
    intro x hx
    rw [e3]
    by_cases hc : g.dicsiz ≤ x ∧ x < g.dicsiz + v
    · rw [if_pos hc, getD_take _ _ _ (by omega)]
      exact getD_isBytes hD _ (by omega)
    · rw [if_neg hc, c3 _ hx]; omega
  have hini : ∃ t, initHash tx2 g.dicsiz = .ok t ∧ initHash tx2' g.dicsiz = .ok t ∧ t < 32768 := by
    unfold initHash
    rw [rd_ok (show g.dicsiz < tx2.size by omega), rd_ok (show g.dicsiz < tx2'.size by omega),
      rd_ok (show g.dicsiz + 1 < tx2.size by omega), rd_ok (show g.dicsiz + 1 < tx2'.size by omega),
      rd_ok (show g.dicsiz + 2 < tx2.size by omega), rd_ok (show g.dicsiz + 2 < tx2'.size by omega),
      ← hag _ (show g.dicsiz < g.txtsiz + 1 by omega), ← hag _ (show g.dicsiz + 1 < g.txtsiz + 1 by omega),
      ← hag _ (show g.dicsiz + 2 < g.txtsiz + 1 by omega)]
    simp only [ok_bind]
    refine ⟨_, rfl, rfl, (initHash_val _ _ _ (hlt _ (by omega)) (hlt _ (by omega)) (hlt _ (by omega))).2 ?_⟩
    rw [htext _ (by omega)]
    unfold hist
    rw [if_neg (by omega), Nat.sub_self]
    exact hfirst
  obtain ⟨t, t1, t1', t2⟩ := hini
  rw [t1, t1', ok_bind, ok_bind]
  have hL : LInv g D 0 g.dicsiz g.dicsiz
      ⟨Arr.mk' 32768 0, Arr.mk' 32768 0, b.prevs, tx2, D.drop (g.txtsiz - g.dicsiz), v, g.dicsiz, t, crc16 0 (D.take (g.txtsiz - g.dicsiz))⟩ := by
    refine ⟨by simp, by simp, hb.prevs, by simp only []; omega, Nat.le_refl _,
      by simp only []; omega, by simp only []; omega, ?_, by simp only []; omega, by simp only []; omega, ?_, ?_, t2, Nat.le_refl _,
      ?_, ?_⟩
    · simp only []
      by_cases hall : v = g.txtsiz - g.dicsiz
      · congr 1; omega
      · rw [List.drop_eq_nil_of_le (by omega), List.drop_eq_nil_of_le (by omega)]
    · intro x hx
      exact htext x hx
    · simp only []
      by_cases hall : v = g.txtsiz - g.dicsiz
      · congr 2; omega
      · rw [List.take_of_length_le (by omega), List.take_of_length_le (by omega)]
    · intro t ht
      exact Or.inl (by simp)
    · intro v v1 v2 v3 v4
      omega
  have hl : RelBufs g g.dicsiz g.dicsiz
      ⟨Arr.mk' 32768 0, Arr.mk' 32768 0, b.prevs, tx2, D.drop (g.txtsiz - g.dicsiz), v, g.dicsiz, t, crc16 0 (D.take (g.txtsiz - g.dicsiz))⟩
      b'.prevs tx2' := ⟨hb'.prevs, by omega, fun x hx => hag x (by omega), fun v _ _ _ _ => by omega⟩
  have hput : (⟨Arr.mk' 32768 0, Arr.mk' 32768 0, b'.prevs, tx2', D.drop (g.txtsiz - g.dicsiz), v, g.dicsiz, t,
      crc16 0 (D.take (g.txtsiz - g.dicsiz))⟩ : Lz) = Lz.put ⟨Arr.mk' 32768 0, Arr.mk' 32768 0, b.prevs, tx2,
      D.drop (g.txtsiz - g.dicsiz), v, g.dicsiz, t, crc16 0 (D.take (g.txtsiz - g.dicsiz))⟩ b'.prevs tx2' := rfl
  rw [hput]
  generalize hs0 : (⟨Arr.mk' 32768 0, Arr.mk' 32768 0, b.prevs, tx2, D.drop (g.txtsiz - g.dicsiz), v, g.dicsiz, t, crc16 0 (D.take (g.txtsiz - g.dicsiz))⟩ : Lz) = s0 at hL hl ⊢
  have hs0p : s0.pos = g.dicsiz := by rw [← hs0]
  have hs0r : s0.rem = v := by rw [← hs0]
  obtain ⟨s1, i1, i2, i3, i4, i5⟩ := insertHash_ok hg (s := s0) (by rw [hs0p]; exact hL)
  obtain ⟨pv1, i1', l1⟩ := insertHash_both hg (s := s0) (by rw [hs0p]; exact hL) (by rw [hs0p]; exact hl) i1
  rw [i1, i1', ok_bind, ok_bind]
  generalize hm : (if 2 > v then (⟨v, 0⟩ : Match) else ⟨2, 0⟩) = m
  have hml : m.len < 3 ∧ m.len ≤ v := by
    rw [← hm]; split <;> simp only [] <;> omega
  obtain ⟨s', c', p, p', ts, pv', tx'', r1, r1', r2⟩ := encodeLoop_both hg ht hD hR (D.length + 1) s1 m 0 o o' []
    0 g.dicsiz pv1 tx2' (by rw [i3]; exact i2) (by rw [i3]; exact l1) (by omega) (by omega) (by omega) (Or.inl hml.1) hRo
  rw [r1, r1', ok_bind, ok_bind]
  exact ⟨_, _, ts, rfl, rfl, r2, rfl, rfl, rfl⟩

/-- The block coder as a pair of sinks. -/
theorem st1_sinkRel {g : Geo} (hg : GeoM g) {np pbit : Nat} (hnp : np = g.dicbit + 1) (hpb : np < 2 ^ pbit)
    (hpb2 : pbit ≤ 5) (size : Nat) : SinkRel st1Sink g
      (fun ts o o' => St1Inv np pbit size ts o ∧ St1Inv np pbit size ts o' ∧ REnc np pbit o o') := by
  refine ⟨fun ts o o' h => ?_, fun ts o o' t ⟨h1, h2, h3⟩ hst hv => ?_⟩
  · show o.w.unp = o'.w.unp
    rw [h.2.2.1]
  · obtain ⟨p, a1, a2⟩ := st1_sinkInv hg hnp hpb hpb2 size ts o t h1 hst hv
    have hst' : st1Sink.stop o' = false := by
      show o'.w.unp = false
      rw [← h3.1]; exact hst
    obtain ⟨p', a1', a2'⟩ := st1_sinkInv hg hnp hpb hpb2 size ts o' t h2 hst' hv
    have hE := h1.2.2.2 hst
    obtain ⟨_, B, _, _, _, _, hW, _⟩ := hE
    exact ⟨p, p', a1, a1', a2, a2', outputSt1_sim (by omega) hpb hpb2 h3 hst hW (hv.ok hg hnp) a1 a1'⟩

/-- The whole encoder: what it produces does not depend on earlier compressions. -/
theorem encode_both {g : Geo} (hg : GeoM g) {tab : Arr} (ht : CrcTab tab) {p p' : Proc} (hp : ProcOk g p) (hp' : ProcOk g p')
    (size : Nat) {D : List Nat} (hD : IsBytes D) (hne : D ≠ []) (hfirst : D.getD 0 0 &&& 32 = 0) :
    ∃ r r', encode g tab p size D = .ok (some r) ∧ encode g tab p' size D = .ok (some r') ∧ r.out = r'.out ∧
      r.packed = r'.packed ∧ r.original = r'.original ∧ r.crc = r'.crc ∧ r.unp = r'.unp ∧ r.rest = r'.rest := by
  obtain ⟨np, pbit, hset, h1, h17, hnp, hpb, hpb2⟩ := setNp_ok hg.ok
  obtain ⟨b, hf, a1, a2, a3, a4⟩ := allocBufs_ok hp
  obtain ⟨b', hf', a1', a2', a3', a4'⟩ := allocBufs_ok hp'
  unfold encode
  rw [a1, a1']
  simp only []
  obtain ⟨e0, b1, b2, b3⟩ := encodeStart_ok hset h17 hf a3 a4 ⟨[], 0, size, 0, 0, false⟩ rfl rfl rfl
  obtain ⟨e0', b1', b2', b3'⟩ := encodeStart_ok hset h17 hf' a3' a4' ⟨[], 0, size, 0, 0, false⟩ rfl rfl rfl
  have hRE := encodeStart_sim hset h17 a3 a3' a4 a4' b1 b1'
  rw [b1, b1', ok_bind, ok_bind]
  have hI0 : ∀ {e : Enc}, EInv np pbit e [] → e.w.origsize = size → St1Inv np pbit size [] e := by
    intro e b2 b3
    have b2' := b2
    obtain ⟨_, _, _, _, _, _, p3, _, _, p6, _⟩ := b2'
    exact ⟨p3.inv, b3, ⟨p6.core.ok, p6.core.bsize⟩, fun _ => b2⟩
  obtain ⟨r, r', ts, c1, c1', ⟨c21, c22, c23⟩, c3, c4, c5⟩ := encodeLz_both hg.fit ht hD (st1_sinkRel hg hnp hpb hpb2 size)
    a2 a2' ⟨hI0 b2 b3, hI0 b2' b3', hRE⟩ hne hfirst
  obtain ⟨r1, ts1, f1, ⟨f21, f22, f23, f24⟩, f3, f4, f5, f6, _⟩ := encodeLz_ok hg.fit ht hD (st1_sinkInv hg hnp hpb hpb2 size) b e0
    a2.hpos a2.hflag a2.prevs a2.text hne hfirst (hI0 b2 b3)
  rw [c1] at f1
  cases f1
  rw [c1, c1', ok_bind, ok_bind]
  simp only []
  by_cases hu : r.sink.w.unp = true
  · have hu' : r'.sink.w.unp = true := by rw [← c23.1]; exact hu
    unfold encodeEndSt1
    rw [if_pos hu, if_pos hu', ok_bind, ok_bind]
    refine ⟨_, _, rfl, rfl, ?_, ?_, c4, c3, ?_, c5⟩
    · simp only [c23.1]
    · simp only [c23.1]
    · simp only [c23.1]
  · have hu0 : r.sink.w.unp = false := by simpa using hu
    have hu' : r'.sink.w.unp = false := by rw [← c23.1]; exact hu0
    obtain ⟨g1, g2⟩ := f6 hu0
    rw [g1, List.take_length] at f4
    have htsne : ts1 ≠ [] := by
      intro h; subst h; exact hne f4.symm
    have hE := f24 hu0
    obtain ⟨e2, x1, _⟩ := encodeEnd_ok h1 hpb hpb2 hE htsne
    have hpos : r.sink.h.outputPos ≠ 0 := by
      obtain ⟨_, _, tk, n, _, q2, _, _, _, q6, _⟩ := hE
      have := q2 htsne
      rw [q6.pos]
      have := toff_mono tk (show 0 ≤ n by omega)
      omega
    obtain ⟨_, B, _, _, _, _, hW, _⟩ := hE
    -- the second run
    obtain ⟨_, _, f1', ⟨_, _, _, f24'⟩, _, f4', _, f6', _⟩ := encodeLz_ok hg.fit ht hD (st1_sinkInv hg hnp hpb hpb2 size) b' e0'
      a2'.hpos a2'.hflag a2'.prevs a2'.text hne hfirst (hI0 b2' b3')
    rw [c1'] at f1'
    cases f1'
    obtain ⟨g1', _⟩ := f6' hu'
    rw [g1', List.take_length] at f4'
    obtain ⟨e2', x1', _⟩ := encodeEnd_ok h1 hpb hpb2 (f24' hu') (by intro h; subst h; exact hne f4'.symm)
    have hww := encodeEnd_sim h1 hpb hpb2 c23 hW (fun _ => hpos) x1 x1'
    rw [x1, x1', ok_bind, ok_bind]
    refine ⟨_, _, rfl, rfl, ?_, ?_, c4, c3, ?_, c5⟩
    · simp only [hww]
    · simp only [hww]
    · simp only [hww]

end Lha
