import Verif.Proof.Steps
import Verif.Proof.Codec
/-!
# C108: the time for the search for matches
-/

namespace Lha

open Spec

theorem encodeN_fst (g : Geo) (tab : Arr) (p : Proc) (size : Nat) (inp : List Nat) :
    (encodeN g tab p size inp).map (Option.map Prod.fst) = encode g tab p size inp := by
  unfold encodeN encode
  generalize allocBufs g p.b p.h = q
  obtain ⟨b, h⟩ := q
  simp only []
  cases encodeStartSt1 g.dicbit ⟨h, ⟨[], 0, size, 0, 0, false⟩⟩ with
  | error e => rfl
  | ok e =>
    rw [ok_bind, ok_bind, ← encodeLzN_fst]
    cases encodeLzN st1Sink g tab b inp e with
    | error e => rfl
    | ok r =>
      cases r with
      | none => rfl
      | some x =>
        obtain ⟨r, t⟩ := x
        show Except.map (Option.map Prod.fst) (encodeEndSt1 r.sink >>= _) = (encodeEndSt1 r.sink >>= _)
        cases encodeEndSt1 r.sink with
        | error e => rfl
        | ok e => rfl

/-- Before the loop. -/
def startBound (g : Geo) : Nat := 32768 + (g.txtsiz + 1) + (g.txtsiz - g.dicsiz)

theorem encodeLzN_steps {σ : Type} {k : Sink σ} {g : Geo} (hg : GeoFit g) {tab : Arr} (ht : CrcTab tab) {D : List Nat}
    (hD : IsBytes D) (b : LzBufs) (o : σ) (hps : b.hpos.size = 32768) (hfs : b.hflag.size = 32768) (prs : b.prevs.size = 65536)
    (txs : g.txtsiz + 1 ≤ b.text.size) {r : LzOut σ} {t : Nat} (hr : encodeLzN k g tab b D o = .ok (some (r, t))) :
    t ≤ startBound g + D.length * byteBound g := by
  obtain ⟨d1, d2, d3⟩ := hg.dic
  have hm4 := hg.mm4
  by_cases hne : D = []
  · subst hne
    unfold encodeLzN at hr
    obtain ⟨_, _, hr⟩ := bind_ok hr
    obtain ⟨_, _, hr⟩ := bind_ok hr
    obtain ⟨_, _, hr⟩ := bind_ok hr
    rw [if_pos rfl] at hr
    cases hr
  by_cases hfirst : D.getD 0 0 &&& 32 = 0
  swap
  · have h1 := encodeLzN_fst k g tab b D o
    rw [hr, encodeLz_panic hg ht hD b o hps hfs txs hne hfirst] at h1
    cases h1
  unfold encodeLzN at hr
  obtain ⟨hp, a1, a2, a3⟩ := fillAll_ok 32768 0 b.hpos (by omega)
  obtain ⟨hf, b1, b2, b3⟩ := fillAll_ok 32768 0 b.hflag (by omega)
  obtain ⟨tx, c1, c2, c3⟩ := fillAll_ok (g.txtsiz + 1) 32 b.text (by omega)
  rw [a1, ok_bind, b1, ok_bind, c1, ok_bind, if_neg hne] at hr
  simp only [] at hr
  obtain ⟨tx2, e1, e2, e3⟩ := freadText_ok ht g.dicsiz (g.txtsiz - g.dicsiz)
    ⟨hp, hf, b.prevs, tx, D, 0, g.dicsiz, 0, 0⟩ hD (by simp only [List.length_take]; omega)
  simp only [] at e1 e2 e3
  rw [e1, ok_bind] at hr
  simp only [] at hr
  have hDl : 0 < D.length := List.length_pos_iff.2 hne
  generalize hv : (D.take (g.txtsiz - g.dicsiz)).length = v at *
  have hv2 : v = min (g.txtsiz - g.dicsiz) D.length := by rw [← hv, List.length_take]
  have htext : ∀ x, x < g.dicsiz + v → tx2.get x = hist g.dicsiz D x := by
    intro x hx
    rw [e3]
    unfold hist
    by_cases hxd : x < g.dicsiz
    · rw [if_neg (by omega), if_pos hxd, c3 _ (by omega)]
    · rw [if_pos ⟨by omega, by omega⟩, if_neg hxd, getD_take _ _ _ (by omega)]
  have hlt : ∀ x, x < g.txtsiz + 1 → tx2.get x < 256 := by
    intro x hx
    rw [e3]
    by_cases hc : g.dicsiz ≤ x ∧ x < g.dicsiz + v
    · rw [if_pos hc, getD_take _ _ _ (by omega)]
      exact getD_isBytes hD _ (by omega)
    · rw [if_neg hc, c3 _ hx]; omega
  have hini : ∃ t, initHash tx2 g.dicsiz = .ok t ∧ t < 32768 := by
    unfold initHash
    rw [rd_ok (by omega), ok_bind, rd_ok (by omega), ok_bind, rd_ok (by omega), ok_bind]
    refine ⟨_, rfl, (initHash_val _ _ _ (hlt _ (by omega)) (hlt _ (by omega)) (hlt _ (by omega))).2 ?_⟩
    rw [htext _ (by omega)]
    unfold hist
    rw [if_neg (by omega), Nat.sub_self]
    exact hfirst
  obtain ⟨t0, t1, t2⟩ := hini
  rw [t1, ok_bind] at hr
  have hL : LInv g D 0 g.dicsiz g.dicsiz
      ⟨hp, hf, b.prevs, tx2, D.drop (g.txtsiz - g.dicsiz), v, g.dicsiz, t0, crc16 0 (D.take (g.txtsiz - g.dicsiz))⟩ := by
    refine ⟨by simp only []; omega, by simp only []; omega, prs, by simp only []; omega, Nat.le_refl _,
      by simp only []; omega, by simp only []; omega, ?_, by simp only []; omega, by simp only []; omega, ?_, ?_, t2, Nat.le_refl _,
      ?_, ?_⟩
    · simp only []
      by_cases hall : v = g.txtsiz - g.dicsiz
      · congr 1; omega
      · rw [List.drop_eq_nil_of_le (by omega), List.drop_eq_nil_of_le (by omega)]
    · intro x hx
      exact htext x hx
    · simp only []
      by_cases hall : v = g.txtsiz - g.dicsiz
      · congr 2; omega
      · rw [List.take_of_length_le (by omega), List.take_of_length_le (by omega)]
    · intro t ht
      exact Or.inl (a3 t ht)
    · intro v v1 v2 v3 v4
      omega
  generalize hs0 : (⟨hp, hf, b.prevs, tx2, D.drop (g.txtsiz - g.dicsiz), v, g.dicsiz, t0, crc16 0 (D.take (g.txtsiz - g.dicsiz))⟩ : Lz) = s0 at hL hr
  have hs0p : s0.pos = g.dicsiz := by rw [← hs0]
  have hs0r : s0.rem = v := by rw [← hs0]
  obtain ⟨s1, i1, i2, i3, i4, i5⟩ := insertHash_ok hg (s := s0) (by rw [hs0p]; exact hL)
  rw [i1, ok_bind] at hr
  generalize hm : (if 2 > v then (⟨v, 0⟩ : Match) else ⟨2, 0⟩) = m at hr
  have hml : m.len < 3 ∧ m.len ≤ v := by
    rw [← hm]; split <;> simp only [] <;> omega
  obtain ⟨q, hq, hr⟩ := bind_ok hr
  have := encodeLoopN_steps hg ht hD _ (base := 0) (F := g.dicsiz) (by rw [i3]; exact i2) (by omega) (by omega) (Or.inl hml.1) hq
  obtain ⟨⟨s', c', o'⟩, tt⟩ := q
  cases hr
  simp only [Nat.sub_zero] at this
  unfold startBound
  omega

/-- **C108.**  The work of `encode` apart from the entropy coder (the rounds of all its loops, bytes moved and read) is at most proportional to the length of the contents, whatever they
are: so many steps for the file and so many for each byte. -/
theorem C108 (m : Nat) (hm : m = 5 ∨ m = 6 ∨ m = 7) (g : Geo) (hg : geoOf m = some g) (tab : Arr) (ht : makeCrcTable = .ok tab) (p : Proc) (hp : ProcOk g p)
    (size : Nat) (D : List Nat) (hD : IsBytes D) :
    (encodeN g tab p size D).map (Option.map Prod.fst) = encode g tab p size D ∧
    ∀ r t, encodeN g tab p size D = .ok (some (r, t)) →
      (m = 5 → t ≤ 57857 + D.length * 4268546) ∧ (m = 6 → t ≤ 131585 + D.length * 16974338) ∧ (m = 7 → t ≤ 229889 + D.length * 33915394) := by
  obtain ⟨tab', ht1, ht2⟩ := makeCrcTable_ok
  rw [ht1] at ht
  cases ht
  refine ⟨encodeN_fst _ _ _ _ _, fun r t hr => ?_⟩
  have hgm := GeoM.of hm hg
  obtain ⟨b, hf, a1, a2, a3, a4⟩ := allocBufs_ok hp
  unfold encodeN at hr
  rw [a1] at hr
  simp only [] at hr
  obtain ⟨e, _, hr⟩ := bind_ok hr
  obtain ⟨x, hx, hr⟩ := bind_ok hr
  cases x with
  | none => cases hr
  | some x =>
    obtain ⟨q, t'⟩ := x
    simp only [] at hr
    obtain ⟨z, _, hr⟩ := bind_ok hr
    cases hr
    have h := encodeLzN_steps hgm.fit ht2 hD b e a2.hpos a2.hflag a2.prevs a2.text hx
    refine ⟨?_, ?_, ?_⟩ <;> intro h5 <;> subst h5 <;> cases hg
    · rw [show startBound ⟨13, 256⟩ = 57857 from rfl, show byteBound ⟨13, 256⟩ = 4268546 from rfl] at h
      exact h
    · rw [show startBound ⟨15, 256⟩ = 131585 from rfl, show byteBound ⟨15, 256⟩ = 16974338 from rfl] at h
      exact h
    · rw [show startBound ⟨16, 256⟩ = 229889 from rfl, show byteBound ⟨16, 256⟩ = 33915394 from rfl] at h
      exact h

/-- The hypotheses are met: the text `ABABAB` in a fresh process is compressed. -/
example : ∃ tab r t, makeCrcTable = .ok tab ∧ encodeN ⟨13, 256⟩ tab Proc.fresh 100 [65, 66, 65, 66, 65, 66] = .ok (some (r, t)) ∧ t ≤ 57857 + 6 * 4268546 := by
  obtain ⟨tab, ht1, ht2⟩ := makeCrcTable_ok
  have hp : ProcOk ⟨13, 256⟩ Proc.fresh := ⟨by constructor <;> rfl, Or.inl rfl⟩
  have hD : IsBytes [65, 66, 65, 66, 65, 66] := by unfold IsBytes; decide
  obtain ⟨r, e1, -⟩ := encode_ok (g := ⟨13, 256⟩) (Or.inl rfl) ht2 hp 100 hD (by decide) (by decide)
  obtain ⟨h1, h2⟩ := C108 5 (Or.inl rfl) ⟨13, 256⟩ rfl tab ht1 Proc.fresh hp 100 _ hD
  rw [e1] at h1
  cases hx : encodeN ⟨13, 256⟩ tab Proc.fresh 100 [65, 66, 65, 66, 65, 66] with
  | error e => rw [hx] at h1; cases h1
  | ok x =>
    cases x with
    | none => rw [hx] at h1; cases h1
    | some y =>
      obtain ⟨r', t⟩ := y
      have h3 := (h2 r' t hx).1 rfl
      simp only [List.length_cons, List.length_nil] at h3
      exact ⟨tab, r', t, ht1, hx, h3⟩

end Lha
