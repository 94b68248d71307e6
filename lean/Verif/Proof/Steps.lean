import Verif.Model.Steps
import Verif.Proof.Lz
import Verif.Proof.Optimal
/-!
# The counter does not change the result, and stays small
-/

namespace Lha

/-- A run with a counter is a run. -/
theorem scanLoopN_fst {g : Geo} {text prevs : Arr} {pos off max : Nat} (f : Nat) : ∀ (sp ch : Nat) (m : Match) (t : Nat),
    (scanLoopN g text prevs pos off max f sp ch m t).map Prod.fst = scanLoop g text prevs pos off max f sp ch m := by
  induction f with
  | zero => intro sp ch m t; rfl
  | succ f ih =>
    intro sp ch m t
    unfold scanLoopN scanLoop
    split
    · simp only []
      cases rd text (sp - off + m.len) with
      | error e => rfl
      | ok x =>
        simp only [ok_bind]
        cases rd text (pos + m.len) with
        | error e => rfl
        | ok y =>
          simp only [ok_bind]
          have hc : ∀ (m' : Match) (t' : Nat), Except.map Prod.fst (if m'.len = max ∧ m'.len > m.len then .ok ((ch + 1, m'), t')
              else do
                let sp ← rd prevs (sp % g.dicsiz)
                scanLoopN g text prevs pos off max f sp (ch + 1) m' t' : G ((Nat × Match) × Nat)) =
              (if m'.len = max ∧ m'.len > m.len then .ok (ch + 1, m')
              else do
                let sp ← rd prevs (sp % g.dicsiz)
                scanLoop g text prevs pos off max f sp (ch + 1) m' : G (Nat × Match)) := by
            intro m' t'
            split
            · rfl
            · cases rd prevs (sp % g.dicsiz) with
              | error e => rfl
              | ok z => rw [ok_bind, ok_bind]; exact ih _ _ _ _
          split
          · cases collate text max (sp - off) pos with
            | error e => rfl
            | ok le =>
              simp only [ok_bind]
              split
              · exact hc ⟨le, pos - (sp - off)⟩ _
              · exact hc _ _
          · exact hc _ _
    · rfl

theorem searchDict1N_fst (g : Geo) (s : Lz) (token off max : Nat) (m : Match) (t : Nat) :
    (searchDict1N g s token off max m t).map Prod.fst = searchDict1 g s token off max m := by
  unfold searchDict1N searchDict1
  cases rd s.hpos token with
  | error e => rfl
  | ok sp =>
    rw [ok_bind, ok_bind, ← scanLoopN_fst _ _ _ _ t]
    cases scanLoopN g s.text s.prevs s.pos off max (s.pos + 2) sp 0 m t with
    | error e => rfl
    | ok r =>
      obtain ⟨⟨ch, m'⟩, t'⟩ := r
      rw [ok_bind]
      show Except.map Prod.fst (if ch ≥ 256 then _ else _) = (if ch ≥ 256 then _ else _)
      split
      · cases wr s.hflag token 1 with
        | error e => rfl
        | ok z => rfl
      · rfl

theorem searchDictN_fst (g : Geo) (s : Lz) (mn t : Nat) : (searchDictN g s mn t).map Prod.fst = searchDict g s mn := by
  unfold searchDictN searchDict
  simp only []
  cases offLoop s (g.maxmatch - 3) 0 s.token with
  | error e => rfl
  | ok p =>
    obtain ⟨off0, tok0⟩ := p
    rw [ok_bind, ok_bind]
    simp only []
    generalize (if off0 = g.maxmatch - 3 then (0, s.token) else (off0, tok0)) = q
    obtain ⟨off, tok⟩ := q
    simp only []
    rw [← searchDict1N_fst g s tok off g.maxmatch _ (t + off0)]
    cases searchDict1N g s tok off g.maxmatch ⟨if mn < 2 then 2 else mn, 0⟩ (t + off0) with
    | error e => rfl
    | ok r =>
      obtain ⟨⟨s1, m1⟩, t1⟩ := r
      show Except.map Prod.fst (if off > 0 ∧ m1.len < off + 3 then _ else _) = if off > 0 ∧ m1.len < off + 3 then _ else _
      simp only []
      split
      · rw [← searchDict1N_fst g s1 s1.token 0 (off + 2) m1 t1]
        cases searchDict1N g s1 s1.token 0 (off + 2) m1 t1 with
        | error e => rfl
        | ok r =>
          obtain ⟨⟨s2, m2⟩, t2⟩ := r
          rw [ok_bind]
          show Except.map Prod.fst _ = (Except.ok (s2, m2) >>= _)
          rw [ok_bind]
          simp only []
          split <;> rfl
      · rw [ok_bind, ok_bind]
        simp only []
        split <;> rfl

theorem skipLoopN_fst (g : Geo) (tab : Arr) (n : Nat) : ∀ (s : Lz) (t : Nat), (skipLoopN g tab n s t).map Prod.fst = skipLoop g tab n s := by
  induction n with
  | zero => intro s t; rfl
  | succ n ih =>
    intro s t
    unfold skipLoopN skipLoop
    simp only []
    cases nextToken g tab s with
    | error e => rfl
    | ok s1 =>
      rw [ok_bind, ok_bind]
      cases insertHash g s1 with
      | error e => rfl
      | ok s2 => rw [ok_bind, ok_bind]; exact ih _ _

theorem encodeLoopN_fst {σ : Type} (k : Sink σ) (g : Geo) (tab : Arr) (f : Nat) : ∀ (s : Lz) (m : Match) (count : Nat) (o : σ) (t : Nat),
    (encodeLoopN k g tab f s m count o t).map Prod.fst = encodeLoop k g tab f s m count o := by
  induction f with
  | zero => intro s m count o t; rfl
  | succ f ih =>
    intro s m count o t
    unfold encodeLoopN encodeLoop
    split
    · simp only []
      cases nextToken g tab s with
      | error e => rfl
      | ok s1 =>
        rw [ok_bind, ok_bind, ← searchDictN_fst g s1 (m.len - 1) (t + 1 + nextSteps g s)]
        cases searchDictN g s1 (m.len - 1) (t + 1 + nextSteps g s) with
        | error e => rfl
        | ok r =>
          obtain ⟨⟨s2, m2⟩, t2⟩ := r
          rw [ok_bind]
          show Except.map Prod.fst _ = (Except.ok (s2, m2) >>= _)
          rw [ok_bind]
          simp only []
          cases insertHash g s2 with
          | error e => rfl
          | ok s3 =>
            rw [ok_bind, ok_bind]
            split
            · cases rd s3.text (s3.pos - 1) with
              | error e => rfl
              | ok c =>
                rw [ok_bind, ok_bind]
                cases k.out c 0 o with
                | error e => rfl
                | ok o1 => rw [ok_bind, ok_bind]; exact ih _ _ _ _ _
            · cases k.out (m.len + 253) ((m.off + g.dicsiz - 1) % g.dicsiz) o with
              | error e => rfl
              | ok o1 =>
                rw [ok_bind, ok_bind, ← skipLoopN_fst g tab (m.len - 2) s3 t2]
                cases skipLoopN g tab (m.len - 2) s3 t2 with
                | error e => rfl
                | ok r =>
                  obtain ⟨s4, t4⟩ := r
                  rw [ok_bind]
                  show Except.map Prod.fst _ = (Except.ok s4 >>= _)
                  rw [ok_bind]
                  simp only []
                  cases nextToken g tab s4 with
                  | error e => rfl
                  | ok s5 =>
                    rw [ok_bind, ok_bind, ← searchDictN_fst g s5 2 (t4 + nextSteps g s4)]
                    cases searchDictN g s5 2 (t4 + nextSteps g s4) with
                    | error e => rfl
                    | ok r =>
                      obtain ⟨⟨s6, m6⟩, t6⟩ := r
                      rw [ok_bind]
                      show Except.map Prod.fst _ = (Except.ok (s6, m6) >>= _)
                      rw [ok_bind]
                      simp only []
                      cases insertHash g s6 with
                      | error e => rfl
                      | ok s7 => rw [ok_bind, ok_bind]; exact ih _ _ _ _ _
    · rfl

theorem encodeLzN_fst {σ : Type} (k : Sink σ) (g : Geo) (tab : Arr) (b : LzBufs) (inp : List Nat) (o : σ) :
    (encodeLzN k g tab b inp o).map (Option.map Prod.fst) = encodeLz k g tab b inp o := by
  unfold encodeLzN encodeLz
  cases fillAll 32768 0 b.hpos with
  | error e => rfl
  | ok hp =>
    rw [ok_bind, ok_bind]
    cases fillAll 32768 0 b.hflag with
    | error e => rfl
    | ok hf =>
      rw [ok_bind, ok_bind]
      cases fillAll (g.txtsiz + 1) 32 b.text with
      | error e => rfl
      | ok tx =>
        rw [ok_bind, ok_bind]
        split
        · rfl
        · cases freadText tab g.dicsiz (g.txtsiz - g.dicsiz) ⟨hp, hf, b.prevs, tx, inp, 0, g.dicsiz, 0, 0⟩ with
          | error e => rfl
          | ok p =>
            obtain ⟨v, s⟩ := p
            rw [ok_bind, ok_bind]
            simp only []
            cases initHash s.text s.pos with
            | error e => rfl
            | ok t =>
              rw [ok_bind, ok_bind]
              cases insertHash g { s with rem := v, token := t } with
              | error e => rfl
              | ok s1 =>
                rw [ok_bind, ok_bind, ← encodeLoopN_fst k g tab _ _ _ _ _ (32768 + (g.txtsiz + 1) + v)]
                cases encodeLoopN k g tab (inp.length + 1) s1 (if 2 > v then ⟨v, 0⟩ else ⟨2, 0⟩) 0 o (32768 + (g.txtsiz + 1) + v) with
                | error e => rfl
                | ok r => rfl

/-! ## Bounds -/

theorem scanLoopN_steps {g : Geo} {text prevs : Arr} {pos F : Nat}
    (chain : ∀ v, 0 < v → F ≤ v → v < pos → pos ≤ v + g.dicsiz →
      prevs.get (v % g.dicsiz) < v ∧ (prevs.get (v % g.dicsiz) = 0 ∨ F ≤ prevs.get (v % g.dicsiz)))
    (off max : Nat) (f : Nat) : ∀ {sp ch : Nat} {m : Match} {t : Nat} {r : (Nat × Match) × Nat}, (sp = 0 ∨ (F ≤ sp ∧ sp < pos)) →
      scanLoopN g text prevs pos off max f sp ch m t = .ok r → r.2 ≤ t + (sp + g.dicsiz - (pos + off)) * (max + 1) := by
  induction f with
  | zero => intro sp ch m t r _ h; cases h
  | succ f ih =>
    intro sp ch m t r hsp h
    unfold scanLoopN at h
    split at h
    · rename_i hc
      simp only [] at h
      obtain ⟨x, _, h⟩ := bind_ok h
      obtain ⟨y, _, h⟩ := bind_ok h
      have hlt : sp < pos := by omega
      obtain ⟨k1, k2⟩ := chain sp (by omega) (by omega) hlt (by omega)
      have hcont : ∀ (m' : Match) (t' : Nat), t' ≤ t + (max + 1) → (if m'.len = max ∧ m'.len > m.len then .ok ((ch + 1, m'), t')
              else do
                let sp ← rd prevs (sp % g.dicsiz)
                scanLoopN g text prevs pos off max f sp (ch + 1) m' t' : G ((Nat × Match) × Nat)) = .ok r →
            r.2 ≤ t + (sp + g.dicsiz - (pos + off)) * (max + 1) := by
        intro m' t' ht' h
        have hone : (max + 1) ≤ (sp + g.dicsiz - (pos + off)) * (max + 1) := Nat.le_mul_of_pos_left _ (by omega)
        split at h
        · cases h
          show t' ≤ _
          omega
        · obtain ⟨z, hz, h⟩ := bind_ok h
          have hz := rd_get hz
          have := ih (by rw [hz]; omega) h
          have h2 : (z + g.dicsiz - (pos + off)) + 1 ≤ sp + g.dicsiz - (pos + off) := by omega
          have h3 := Nat.mul_le_mul_right (max + 1) h2
          rw [Nat.add_mul, Nat.one_mul] at h3
          omega
      split at h
      · obtain ⟨le, hle, h⟩ := bind_ok h
        split at h
        · rw [ok_bind] at h
          exact hcont ⟨le, pos - (sp - off)⟩ _ (by omega) h
        · rw [ok_bind] at h
          exact hcont m _ (by omega) h
      · rw [ok_bind] at h
        exact hcont m (t + 1) (by omega) h
    · cases h
      exact Nat.le_add_right _ _

/-- The work of one search. -/
def searchBound (g : Geo) : Nat := g.maxmatch + 2 * (g.dicsiz * (g.maxmatch + 1))

theorem searchDict1N_steps {g : Geo} {D : List Nat} {base F : Nat} {s : Lz} (h : LInv g D base F s.pos s)
    (token off max : Nat) (m : Match) (t : Nat) (htk : token < 32768) (hmax : max ≤ g.maxmatch) {r : (Lz × Match) × Nat}
    (hr : searchDict1N g s token off max m t = .ok r) : r.2 ≤ t + g.dicsiz * (g.maxmatch + 1) := by
  unfold searchDict1N at hr
  obtain ⟨sp, hsp, hr⟩ := bind_ok hr
  have hsp := rd_get hsp
  obtain ⟨q, hq, hr⟩ := bind_ok hr
  have hash := h.hash token htk
  rw [← hsp] at hash
  have := scanLoopN_steps h.chain off max _ hash hq
  have h2 : sp + g.dicsiz - (s.pos + off) ≤ g.dicsiz := by omega
  have h3 : (sp + g.dicsiz - (s.pos + off)) * (max + 1) ≤ g.dicsiz * (g.maxmatch + 1) := Nat.mul_le_mul h2 (by omega)
  obtain ⟨⟨ch, m'⟩, t'⟩ := q
  simp only [] at hr this
  split at hr
  · obtain ⟨z, _, hr⟩ := bind_ok hr
    cases hr
    simp only []
    omega
  · cases hr
    simp only []
    omega

theorem searchDictN_steps {g : Geo} (hg : GeoFit g) {D : List Nat} {base F : Nat} {s : Lz} (h : LInv g D base F s.pos s)
    (mn : Nat) (hmn : mn ≤ g.maxmatch) (t : Nat) {r : (Lz × Match) × Nat} (hr : searchDictN g s mn t = .ok r) : r.2 ≤ t + searchBound g := by
  obtain ⟨d1, d2, d3⟩ := hg.dic
  have hm4 := hg.mm4
  have hph := h.posHi
  have htx := h.txs
  unfold searchDictN at hr
  generalize hmn' : (if mn < 2 then 2 else mn) = mn' at hr
  have hmn2 : mn' ≤ g.maxmatch := by rw [← hmn']; split <;> omega
  simp only [] at hr
  obtain ⟨off0, tok0, o1, o2, o3, o4⟩ := offLoop_ok s h.hfs (g.maxmatch - 3) 0 s.token h.tok (by omega)
  rw [o1, ok_bind] at hr
  simp only [] at hr
  have hpair : ∃ off tok, (if off0 = g.maxmatch - 3 then (0, s.token) else (off0, tok0)) = (off, tok) ∧ off + 3 ≤ g.maxmatch ∧ tok < 32768 := by
    by_cases hz : off0 = g.maxmatch - 3
    · rw [if_pos hz]; exact ⟨0, s.token, rfl, by omega, h.tok⟩
    · rw [if_neg hz]; exact ⟨off0, tok0, rfl, by omega, o4⟩
  obtain ⟨off, tok, p1, p2, p3⟩ := hpair
  rw [p1] at hr
  simp only [] at hr
  obtain ⟨q, hq, hr⟩ := bind_ok hr
  have b1 := searchDict1N_steps h tok off g.maxmatch _ _ p3 (Nat.le_refl _) hq
  have e1 := searchDict1N_fst g s tok off g.maxmatch ⟨mn', 0⟩ (t + off0)
  obtain ⟨hf1, m1, q1, q2, q3, q4, _⟩ := searchDict1_ok hg h tok off g.maxmatch ⟨mn', 0⟩ p3 (Nat.le_refl _) hmn2
  rw [hq, q1] at e1
  obtain ⟨⟨s1, m1'⟩, t1⟩ := q
  have e1 : (s1, m1') = ({ s with hflag := hf1 }, m1) := Except.ok.inj e1
  cases e1
  simp only [] at hr b1
  unfold searchBound
  split at hr
  · obtain ⟨q, hq, hr⟩ := bind_ok hr
    have b2 := searchDict1N_steps (s := { s with hflag := hf1 }) (h.setFlag hf1 q2) s.token 0 (off + 2) _ _ h.tok (by omega) hq
    obtain ⟨⟨s2, m2⟩, t2⟩ := q
    simp only [] at hr b2
    split at hr <;> cases hr <;> simp only [] <;> omega
  · rw [ok_bind] at hr
    simp only [] at hr
    split at hr <;> cases hr <;> simp only [] <;> omega

theorem nextSteps_le (g : Geo) (s : Lz) : nextSteps g s ≤ 1 + updateSteps g := by
  unfold nextSteps
  split <;> omega

theorem skipLoopN_steps (g : Geo) (tab : Arr) (n : Nat) : ∀ {s : Lz} {t : Nat} {r : Lz × Nat}, skipLoopN g tab n s t = .ok r → r.2 ≤ t + n * (2 + updateSteps g) := by
  induction n with
  | zero => intro s t r h; cases h; simp
  | succ n ih =>
    intro s t r h
    unfold skipLoopN at h
    simp only [] at h
    obtain ⟨s1, _, h⟩ := bind_ok h
    obtain ⟨s2, _, h⟩ := bind_ok h
    have := ih h
    have := nextSteps_le g s
    rw [Nat.add_mul, Nat.one_mul]
    omega

/-- The work for one byte. -/
def byteBound (g : Geo) : Nat := 2 + updateSteps g + searchBound g

theorem encodeLoopN_steps {σ : Type} {k : Sink σ} {g : Geo} (hg : GeoFit g) {tab : Arr} (ht : CrcTab tab) {D : List Nat} (hD : IsBytes D) (f : Nat) :
    ∀ {s : Lz} {m : Match} {count : Nat} {o : σ} {t base F : Nat} {r : (Lz × Nat × σ) × Nat},
    LInv g D base F (s.pos + 1) s → count + g.dicsiz = s.pos + base → m.len ≤ s.rem → (m.len < 3 ∨ MatchAt g D (s.pos + base) m) →
    encodeLoopN k g tab f s m count o t = .ok r → r.2 ≤ t + (D.length - count) * byteBound g := by
  obtain ⟨d1, d2, d3⟩ := hg.dic
  have hm4 := hg.mm4
  induction f with
  | zero => intro s m count o t base F r _ _ _ _ h; cases h
  | succ f ih =>
    intro s m count o t base F r h hc hml hm hr
    unfold encodeLoopN at hr
    split at hr
    · rename_i hgo
      simp only [] at hr
      obtain ⟨s1, b1, F1, n1, n2, n3, n4⟩ := nextToken_ok hg ht hD h hgo.1
      have hmm : m.len - 1 ≤ g.maxmatch := by
        rcases hm with hm | hm
        · omega
        · have := hm.2.2.1; omega
      obtain ⟨hf2, m2, e1, e2, e3, e4⟩ := searchDict_ok hg n2 (m.len - 1) hmm
      obtain ⟨s3, i1, i2, i3, i4, i5⟩ := insertHash_ok hg (s := { s1 with hflag := hf2 }) (n2.setFlag hf2 e2)
      simp only [] at i1 i2 i3 i4 i5
      rw [n1, ok_bind] at hr
      obtain ⟨q, hq, hr⟩ := bind_ok hr
      have st1 := searchDictN_steps hg n2 _ hmm _ hq
      have er := searchDictN_fst g s1 (m.len - 1) (t + 1 + nextSteps g s)
      rw [hq, e1] at er
      obtain ⟨⟨s2', m2'⟩, t2⟩ := q
      have er : (s2', m2') = ({ s1 with hflag := hf2 }, m2) := Except.ok.inj er
      cases er
      simp only [] at hr st1
      rw [i1, ok_bind] at hr
      have hle := h.le
      have hns := nextSteps_le g s
      split at hr
      · obtain ⟨c, _, hr⟩ := bind_ok hr
        obtain ⟨o1, _, hr⟩ := bind_ok hr
        have := ih (base := b1) (F := F1) (by rw [i3]; exact i2) (by omega) (by omega) (by
          rw [i3]
          rcases e4 with e4 | e4 | e4
          · left; omega
          · left; omega
          · right; exact e4) hr
        have h1 : D.length - count = D.length - (count + 1) + 1 := by omega
        rw [h1, Nat.add_mul, Nat.one_mul]
        unfold byteBound at *
        omega
      · rename_i hbr
        obtain ⟨M1, M2, M3, M4⟩ : MatchAt g D (s.pos + base) m := by
          rcases hm with hm | hm
          · omega
          · exact hm
        obtain ⟨o1, _, hr⟩ := bind_ok hr
        obtain ⟨q, hq, hr⟩ := bind_ok hr
        have st2 := skipLoopN_steps g tab _ hq
        obtain ⟨s4, b4, F4, k1, k2, k3, k4⟩ := skipLoop_ok hg ht hD (m.len - 2) s3 b1 F1 (by rw [i3]; exact i2) (by omega)
        have er := skipLoopN_fst g tab (m.len - 2) s3 t2
        rw [hq, k1] at er
        obtain ⟨s4', t4⟩ := q
        have er : s4' = s4 := Except.ok.inj er
        subst er
        simp only [] at hr st2
        obtain ⟨s5, b5, F5, p1, p2, p3, p4⟩ := nextToken_ok hg ht hD k2 (by omega)
        rw [p1, ok_bind] at hr
        obtain ⟨hf6, m6, q1, q2, q3, q4⟩ := searchDict_ok hg p2 2 (by omega)
        obtain ⟨s7, r1, r2, r3, r4, r5⟩ := insertHash_ok hg (s := { s5 with hflag := hf6 }) (p2.setFlag hf6 q2)
        simp only [] at r1 r2 r3 r4 r5
        obtain ⟨q, hq, hr⟩ := bind_ok hr
        have st3 := searchDictN_steps hg p2 _ (by omega) _ hq
        have er := searchDictN_fst g s5 2 (t4 + nextSteps g s4')
        rw [hq, q1] at er
        obtain ⟨⟨s6', m6'⟩, t6⟩ := q
        have er : (s6', m6') = ({ s5 with hflag := hf6 }, m6) := Except.ok.inj er
        cases er
        simp only [] at hr st3
        rw [r1, ok_bind] at hr
        have hns4 := nextSteps_le g s4'
        have := ih (base := b5) (F := F5) (by rw [r3]; exact r2) (by omega) (by omega) (by
          rw [r3]
          rcases q4 with e4 | e4 | e4
          · left; omega
          · left; omega
          · right; exact e4) hr
        have h1 : D.length - count = D.length - (count + m.len) + (m.len - 2) + 2 := by omega
        have h2 : (m.len - 2) * (2 + updateSteps g) ≤ (m.len - 2) * byteBound g := Nat.mul_le_mul_left _ (by unfold byteBound; omega)
        rw [h1, Nat.add_mul, Nat.add_mul]
        generalize (m.len - 2) * byteBound g = A at *
        generalize (m.len - 2) * (2 + updateSteps g) = B at *
        generalize (D.length - (count + m.len)) * byteBound g = C at *
        unfold byteBound
        omega
    · cases hr
      exact Nat.le_add_right _ _

end Lha
