import Verif.Proof.Longest
/-!
# The tokens are those of a lazy coder
-/

namespace Lha

open Spec

theorem LazyParse_snoc {W M : Nat} {D : List Nat} {t : Nat × Nat} : ∀ {ts : List (Nat × Nat)} {i : Nat}, LazyParse W M D i ts →
    LazyTok W M D (i + (ts.map tokLen).sum) t → LazyParse W M D i (ts ++ [t]) := by
  intro ts
  induction ts with
  | nil => intro i _ h; exact ⟨by simpa using h, trivial⟩
  | cons x ts ih =>
    intro i h ht
    refine ⟨h.1, ih h.2 ?_⟩
    rw [List.map_cons, List.sum_cons, ← Nat.add_assoc] at ht
    exact ht

theorem sum_snoc (ts : List (Nat × Nat)) (t : Nat × Nat) :
    ((ts ++ [t]).map tokLen).sum = (ts.map tokLen).sum + tokLen t := by
  rw [List.map_append, List.sum_append]
  simp

theorem MatchAt.repeats {g : Geo} {D : List Nat} {i : Nat} {m : Match} (h : MatchAt g D (i + g.dicsiz) m)
    (hl : i + m.len ≤ D.length) : Repeats D i m.off m.len := by
  obtain ⟨h1, h2, h3, h4⟩ := h
  refine ⟨h1, hl, ?_⟩
  intro k hk
  have := h4 k hk
  unfold hist at this
  rw [if_neg (by omega : ¬ i + g.dicsiz + k < g.dicsiz), show i + g.dicsiz + k - g.dicsiz = i + k by omega] at this
  rw [← this]
  unfold before
  by_cases hc : m.off ≤ i + k
  · rw [if_pos hc, if_neg (by omega)]
    congr 1
    omega
  · rw [if_neg hc, if_pos (by omega)]

/-- What the search at text index `i` finds is at least as long as anything possible there. -/
theorem could_found {g : Geo} (hg : GeoFit g) {D : List Nat} {base F i : Nat} {s : Lz} (h : LInv g D base F s.pos s)
    (hc : CInv g base F s.pos s.pos s) {mn l : Nat} {r : Lz × Match} (hr : searchDict g s mn = .ok r)
    (hi : s.pos + base = i + g.dicsiz) (l3 : 3 ≤ l) (hl : CouldCopy g.dicsiz g.maxmatch D i l) : l ≤ r.2.len := by
  obtain ⟨hlm, d, hd, hdi, hd1, hil, heq⟩ := hl
  have hpl := h.posLo
  have hph := h.posHi
  have hfu := h.full
  have hle := h.le
  have hcov := hc.cov
  obtain ⟨d1, d2, d3⟩ := hg.dic
  have hrem : l ≤ s.rem := by omega
  apply searchDict_all hg h hc hr (v := s.pos - d) (by omega) (by omega) (by omega) (by omega) l3 hlm hrem
  intro k hk
  rw [h.text _ (by omega), h.text _ (by omega)]
  have := heq k hk
  unfold before at this
  rw [if_pos (by omega)] at this
  unfold hist
  rw [if_neg (by omega), if_neg (by omega), show s.pos + k + base - g.dicsiz = i + k by omega, ← this]
  congr 1
  omega

theorem skipLoop_all {g : Geo} (hg : GeoFit g) {tab : Arr} (ht : CrcTab tab) {D : List Nat} (hD : IsBytes D) :
    ∀ (n : Nat) (s : Lz) (base F : Nat), LInv g D base F (s.pos + 1) s → CInv g base F (s.pos + 1) s.pos s → n < s.rem →
    ∃ s' base' F', skipLoop g tab n s = .ok s' ∧ LInv g D base' F' (s'.pos + 1) s' ∧ CInv g base' F' (s'.pos + 1) s'.pos s' ∧
      s'.pos + base' = s.pos + base + n ∧ s.rem ≤ s'.rem + n := by
  intro n
  induction n with
  | zero => intro s base F h hc _; exact ⟨s, base, F, rfl, h, hc, rfl, Nat.le_refl _⟩
  | succ n ih =>
    intro s base F h hc hn
    obtain ⟨s1, b1, F1, n1, n2, nc, n3, n4⟩ := nextToken_all hg ht hD h hc (by omega)
    obtain ⟨s2, i1, i2, i3, i4, i5⟩ := insertHash_ok hg n2
    have ic := insertHash_all hg n2 nc i1
    obtain ⟨s', b', F', r1, r2, rc, r3, r4⟩ := ih s2 b1 F1 (by rw [i3]; exact i2) (by rw [i3]; exact ic) (by omega)
    rw [skipLoop, n1, ok_bind, i1, ok_bind]
    exact ⟨s', b', F', r1, r2, rc, by omega, by omega⟩

theorem encodeLoop_lazy {σ : Type} {k : Sink σ} {g : Geo} (hg : GeoFit g) {tab : Arr} (ht : CrcTab tab) {D : List Nat}
    (hD : IsBytes D) {I : List (Nat × Nat) → σ → Prop} (hI : SinkInv k g I) :
    ∀ (f : Nat) (s : Lz) (m : Match) (count : Nat) (o : σ) (ts : List (Nat × Nat)) (base F : Nat),
    LInv g D base F (s.pos + 1) s → CInv g base F (s.pos + 1) s.pos s → count + g.dicsiz = s.pos + base → D.length - count < f →
    m.len ≤ s.rem → (m.len < 3 ∨ MatchAt g D (s.pos + base) m) →
    (∀ l, 3 ≤ l → CouldCopy g.dicsiz g.maxmatch D count l → l ≤ m.len) → I ts o → (∀ t ∈ ts, TokV g t) →
    expand 253 ts = D.take count → (ts.map tokLen).sum = count → LazyParse g.dicsiz g.maxmatch D 0 ts →
    ∃ s' count' o' ts', encodeLoop k g tab f s m count o = .ok (s', count', o') ∧ I ts' o' ∧ (∀ t ∈ ts', TokV g t) ∧
      expand 253 ts' = D.take count' ∧ count' ≤ D.length ∧
      (k.stop o' = false → count' = D.length ∧ s'.crc = crc16 0 D) ∧ LazyParse g.dicsiz g.maxmatch D 0 ts' := by
  obtain ⟨d1, d2, d3⟩ := hg.dic
  have hm4 := hg.mm4
  intro f
  induction f with
  | zero => intro s m count o ts base F _ _ _ h; omega
  | succ f ih =>
    intro s m count o ts base F h hcc hc hf hml hm hbest hIo hts hex hsum hlz
    rw [encodeLoop]
    by_cases hgo : s.rem > 0 ∧ k.stop o = false
    · rw [if_pos hgo]
      simp only []
      obtain ⟨s1, b1, F1, n1, n2, nc, n3, n4⟩ := nextToken_all hg ht hD h hcc hgo.1
      have hmm : m.len - 1 ≤ g.maxmatch := by
        rcases hm with hm | hm
        · omega
        · have := hm.2.2.1; omega
      obtain ⟨hf2, m2, e1, e2, e3, e4⟩ := searchDict_ok hg n2 (m.len - 1) hmm
      have hbest2 : ∀ l, 3 ≤ l → CouldCopy g.dicsiz g.maxmatch D (count + 1) l → l ≤ m2.len :=
        fun l l3 hl => could_found hg n2 nc e1 (by omega) l3 hl
      obtain ⟨s3, i1, i2, i3, i4, i5⟩ := insertHash_ok hg (s := { s1 with hflag := hf2 }) (n2.setFlag hf2 e2)
      have ic := insertHash_all hg (s := { s1 with hflag := hf2 }) (n2.setFlag hf2 e2) (nc.setFlag hf2) i1
      simp only [] at i1 i2 i3 i4 i5 ic
      rw [n1, ok_bind, e1, ok_bind]
      simp only []
      rw [i1, ok_bind]
      have hle := h.le
      have hpl := n2.posLo
      have htx := n2.txs
      have hph := n2.posHi
      have hle2 := n2.le
      by_cases hbr : m2.len > m.len ∨ m.len < 3
      · rw [if_pos hbr]
        have hcb : s3.text.get (s3.pos - 1) = D.getD count 0 := by
          rw [i5, i3, n2.text _ (by omega)]
          unfold hist
          rw [if_neg (by omega)]
          congr 1
          omega
        have hb : s3.text.get (s3.pos - 1) < 256 := by
          rw [hcb]; exact getD_isBytes hD _ (by omega)
        rw [rd_ok (by rw [i5, i3]; omega), ok_bind]
        obtain ⟨o', o1, o2⟩ := hI ts o (s3.text.get (s3.pos - 1), 0) hIo hgo.2 (Or.inl ⟨hb, rfl⟩)
        simp only [] at o1
        rw [o1, ok_bind]
        apply ih s3 m2 (count + 1) o' (ts ++ [(s3.text.get (s3.pos - 1), 0)]) b1 F1
        · rw [i3]; exact i2
        · rw [i3]; exact ic
        · omega
        · omega
        · omega
        · rw [i3]
          rcases e4 with e4 | e4 | e4
          · left; omega
          · left; omega
          · right; exact e4
        · exact hbest2
        · exact o2
        · intro t htm
          rcases List.mem_append.1 htm with h1 | h1
          · exact hts t h1
          · rw [List.mem_singleton] at h1; subst h1; exact Or.inl ⟨hb, rfl⟩
        · rw [expand_snoc, hex]
          unfold expandTok
          rw [if_pos hb, hcb]
          exact take_snoc D count (by omega)
        · rw [sum_snoc, hsum]
          unfold tokLen
          rw [if_pos hb]
        · apply LazyParse_snoc hlz
          rw [Nat.zero_add, hsum]
          unfold LazyTok
          rw [if_pos hb]
          intro len l3 hcan
          have hb1 := hbest len l3 hcan
          have hM : MatchAt g D (count + 1 + g.dicsiz) m2 := by
            rcases e4 with e4 | e4 | e4
            · omega
            · omega
            · rwa [show s1.pos + b1 = count + 1 + g.dicsiz by omega] at e4
          exact ⟨m2.len, m2.off, by omega, hM.2.2.1, hM.2.1, hM.repeats (by omega)⟩
      · rw [if_neg hbr]
        have hM : MatchAt g D (s.pos + base) m := by
          rcases hm with hm | hm
          · omega
          · exact hm
        have hrep : Repeats D count m.off m.len := by
          apply MatchAt.repeats (g := g)
          · rw [hc]; exact hM
          · omega
        obtain ⟨M1, M2, M3, M4⟩ := hM
        have hoff : (m.off + g.dicsiz - 1) % g.dicsiz = m.off - 1 := by
          rw [show m.off + g.dicsiz - 1 = m.off - 1 + g.dicsiz by omega, Nat.add_mod_right, Nat.mod_eq_of_lt (by omega)]
        rw [hoff]
        have hv : TokV g (m.len + 253, m.off - 1) := Or.inr ⟨by simp only []; omega, by simp only []; omega, by simp only []; omega⟩
        obtain ⟨o', o1, o2⟩ := hI ts o (m.len + 253, m.off - 1) hIo hgo.2 hv
        simp only [] at o1
        rw [o1, ok_bind]
        obtain ⟨s4, b4, F4, k1, k2, kc, k3, k4⟩ := skipLoop_all hg ht hD (m.len - 2) s3 b1 F1 (by rw [i3]; exact i2)
          (by rw [i3]; exact ic) (by omega)
        rw [k1, ok_bind]
        obtain ⟨s5, b5, F5, p1, p2, pc, p3, p4⟩ := nextToken_all hg ht hD k2 kc (by omega)
        rw [p1, ok_bind]
        obtain ⟨hf6, m6, q1, q2, q3, q4⟩ := searchDict_ok hg p2 2 (by omega)
        have hbest6 : ∀ l, 3 ≤ l → CouldCopy g.dicsiz g.maxmatch D (count + m.len) l → l ≤ m6.len :=
          fun l l3 hl => could_found hg p2 pc q1 (by omega) l3 hl
        obtain ⟨s7, r1, r2, r3, r4, r5⟩ := insertHash_ok hg (s := { s5 with hflag := hf6 }) (p2.setFlag hf6 q2)
        have rc := insertHash_all hg (s := { s5 with hflag := hf6 }) (p2.setFlag hf6 q2) (pc.setFlag hf6) r1
        simp only [] at r1 r2 r3 r4 r5 rc
        rw [q1, ok_bind]
        simp only []
        rw [r1, ok_bind]
        apply ih s7 m6 (count + m.len) o' (ts ++ [(m.len + 253, m.off - 1)]) b5 F5
        · rw [r3]; exact r2
        · rw [r3]; exact rc
        · omega
        · omega
        · omega
        · rw [r3]
          rcases q4 with e4 | e4 | e4
          · left; omega
          · left; omega
          · right; exact e4
        · exact hbest6
        · exact o2
        · intro t htm
          rcases List.mem_append.1 htm with h1 | h1
          · exact hts t h1
          · rw [List.mem_singleton] at h1; subst h1; exact hv
        · rw [expand_snoc, hex]
          unfold expandTok
          rw [if_neg (by simp only []; omega)]
          simp only []
          rw [show m.off - 1 + 1 = m.off by omega, show m.len + 253 - 253 = m.len by omega]
          apply copyN_take g.dicsiz D m.off M1 M2 m.len count (by omega)
          intro kk hkk
          have := M4 kk hkk
          rwa [← hc] at this
        · rw [sum_snoc, hsum]
          unfold tokLen
          rw [if_neg (by simp only []; omega)]
          simp only []
          omega
        · apply LazyParse_snoc hlz
          rw [Nat.zero_add, hsum]
          unfold LazyTok
          rw [if_neg (by simp only []; omega)]
          simp only []
          rw [show m.off - 1 + 1 = m.off by omega, show m.len + 253 - 253 = m.len by omega]
          refine ⟨⟨M2, hrep⟩, ?_, ?_⟩
          · intro len hl
            by_cases h3 : 3 ≤ len
            · exact hbest len h3 hl
            · omega
          · intro len hl
            by_cases h3 : 3 ≤ len
            · have := hbest2 len h3 hl; omega
            · omega
    · rw [if_neg hgo]
      have hle := h.le
      have hfu := h.full
      have hph := h.posHi
      have hr : k.stop o = false → s.rem = 0 := by
        intro hst
        by_cases h0 : s.rem > 0
        · exact absurd ⟨h0, hst⟩ hgo
        · omega
      refine ⟨s, count, o, ts, rfl, hIo, hts, hex, by omega, ?_, hlz⟩
      intro hst
      have := hr hst
      refine ⟨by omega, ?_⟩
      rw [h.crc, List.take_of_length_le (by omega)]

/-- The whole LZ stage. -/
theorem encodeLz_lazy {σ : Type} {k : Sink σ} {g : Geo} (hg : GeoFit g) {tab : Arr} (ht : CrcTab tab) {D : List Nat}
    (hD : IsBytes D) {I : List (Nat × Nat) → σ → Prop} (hI : SinkInv k g I) (b : LzBufs) (o : σ)
    (hps : b.hpos.size = 32768) (hfs : b.hflag.size = 32768) (prs : b.prevs.size = 65536)
    (txs : g.txtsiz + 1 ≤ b.text.size) (hne : D ≠ []) (hfirst : D.getD 0 0 &&& 32 = 0) (hIo : I [] o) :
    ∃ r ts, encodeLz k g tab b D o = .ok (some r) ∧ I ts r.sink ∧ (∀ t ∈ ts, TokV g t) ∧
      expand 253 ts = D.take r.count ∧ r.count ≤ D.length ∧
      (k.stop r.sink = false → r.count = D.length ∧ r.crc = crc16 0 D) ∧ LazyParse g.dicsiz g.maxmatch D 0 ts := by
  obtain ⟨d1, d2, d3⟩ := hg.dic
  have hm4 := hg.mm4
  unfold encodeLz
  obtain ⟨hp, a1, a2, a3⟩ := fillAll_ok 32768 0 b.hpos (by omega)
  obtain ⟨hf, b1, b2, b3⟩ := fillAll_ok 32768 0 b.hflag (by omega)
  obtain ⟨tx, c1, c2, c3⟩ := fillAll_ok (g.txtsiz + 1) 32 b.text (by omega)
  rw [a1, ok_bind, b1, ok_bind, c1, ok_bind, if_neg hne]
  simp only []
  obtain ⟨tx2, e1, e2, e3⟩ := freadText_ok ht g.dicsiz (g.txtsiz - g.dicsiz)
    ⟨hp, hf, b.prevs, tx, D, 0, g.dicsiz, 0, 0⟩ hD (by simp only [List.length_take]; omega)
  simp only [] at e1 e2 e3
  rw [e1, ok_bind]
  simp only []
  have hDl : 0 < D.length := List.length_pos_iff.2 hne
  generalize hv : (D.take (g.txtsiz - g.dicsiz)).length = v at *
  have hv2 : v = min (g.txtsiz - g.dicsiz) D.length := by rw [← hv, List.length_take]
  have htext : ∀ x, x < g.dicsiz + v → tx2.get x = hist g.dicsiz D x := by
    intro x hx
    rw [e3]
    unfold hist
    by_cases hxd : x < g.dicsiz
    · rw [if_neg (by omega), if_pos hxd, c3 _ (by omega)]
    · rw [if_pos ⟨by omega, by omega⟩, if_neg hxd, getD_take _ _ _ (by omega)]
  have hlt : ∀ x, x < g.txtsiz + 1 → tx2.get x < 256 := by
    intro x hx
    rw [e3]
    by_cases hc : g.dicsiz ≤ x ∧ x < g.dicsiz + v
    · rw [if_pos hc, getD_take _ _ _ (by omega)]
      exact getD_isBytes hD _ (by omega)
    · rw [if_neg hc, c3 _ hx]; omega
  have hini : ∃ t, initHash tx2 g.dicsiz = .ok t ∧ t < 32768 := by
    unfold initHash
    rw [rd_ok (by omega), ok_bind, rd_ok (by omega), ok_bind, rd_ok (by omega), ok_bind]
    refine ⟨_, rfl, (initHash_val _ _ _ (hlt _ (by omega)) (hlt _ (by omega)) (hlt _ (by omega))).2 ?_⟩
    rw [htext _ (by omega)]
    unfold hist
    rw [if_neg (by omega), Nat.sub_self]
    exact hfirst
  obtain ⟨t, t1, t2⟩ := hini
  have t3 := initHash_hash3 t1 t2
  rw [t1, ok_bind]
  have hL : LInv g D 0 g.dicsiz g.dicsiz
      ⟨hp, hf, b.prevs, tx2, D.drop (g.txtsiz - g.dicsiz), v, g.dicsiz, t, crc16 0 (D.take (g.txtsiz - g.dicsiz))⟩ := by
    refine ⟨by simp only []; omega, by simp only []; omega, prs, by simp only []; omega, Nat.le_refl _,
      by simp only []; omega, by simp only []; omega, ?_, by simp only []; omega, by simp only []; omega, ?_, ?_, t2, Nat.le_refl _,
      ?_, ?_⟩
    · simp only []
      by_cases hall : v = g.txtsiz - g.dicsiz
      · congr 1; omega
      · rw [List.drop_eq_nil_of_le (by omega), List.drop_eq_nil_of_le (by omega)]
    · intro x hx
      exact htext x hx
    · simp only []
      by_cases hall : v = g.txtsiz - g.dicsiz
      · congr 2; omega
      · rw [List.take_of_length_le (by omega), List.take_of_length_le (by omega)]
    · intro t ht
      exact Or.inl (a3 t ht)
    · intro v v1 v2 v3 v4
      omega
  have hC : CInv g 0 g.dicsiz g.dicsiz g.dicsiz
      ⟨hp, hf, b.prevs, tx2, D.drop (g.txtsiz - g.dicsiz), v, g.dicsiz, t, crc16 0 (D.take (g.txtsiz - g.dicsiz))⟩ := by
    refine ⟨Or.inr ⟨rfl, rfl⟩, t3, ?_, ?_, ?_, ?_⟩
    · intro v v1 v2 v3; omega
    · intro t ht hne
      exact absurd (a3 t ht) hne
    · intro v w w1 w2 w3 v1; omega
    · intro v v1 v2 v3; omega
  generalize hs0 : (⟨hp, hf, b.prevs, tx2, D.drop (g.txtsiz - g.dicsiz), v, g.dicsiz, t, crc16 0 (D.take (g.txtsiz - g.dicsiz))⟩ : Lz) = s0 at hL hC ⊢
  have hs0p : s0.pos = g.dicsiz := by rw [← hs0]
  have hs0r : s0.rem = v := by rw [← hs0]
  obtain ⟨s1, i1, i2, i3, i4, i5⟩ := insertHash_ok hg (s := s0) (by rw [hs0p]; exact hL)
  have ic := insertHash_all hg (s := s0) (by rw [hs0p]; exact hL) (by rw [hs0p]; exact hC) i1
  rw [i1, ok_bind]
  generalize hm : (if 2 > v then (⟨v, 0⟩ : Match) else ⟨2, 0⟩) = m
  have hml : m.len < 3 ∧ m.len ≤ v := by
    rw [← hm]; split <;> simp only [] <;> omega
  obtain ⟨s', c', o', ts, r1, r2, r3, r4, r5, r6, r7⟩ := encodeLoop_lazy hg ht hD hI (D.length + 1) s1 m 0 o []
    0 g.dicsiz (by rw [i3]; exact i2) (by rw [i3]; exact ic) (by omega) (by omega) (by omega) (Or.inl hml.1)
    (by rintro l - ⟨-, d, -, h1, h2, -⟩; omega) hIo (by simp) (by simp [expand, expandFrom]) rfl trivial
  rw [r1, ok_bind]
  exact ⟨_, ts, rfl, r2, r3, r4, r5, r6, r7⟩

end Lha
