import Verif.Proof.TextSize
import Verif.Proof.RelLz
import Verif.Proof.SizeDec
/-!
# C31: compression does depend on what the process compressed before
-/

namespace Lha

open Spec

/-- **C31 is false**, for all bodies: after any lh5 compression in the process, compressing anything with
lh6 or lh7 panics (the text buffer is allocated once, for the first method used) … -/
theorem C31_false (tab : Arr) (ht : makeCrcTable = .ok tab) (size : Nat) (D : List Nat) (hD : IsBytes D) (hne : D ≠ [])
    (r : EncOut) (hr : encode ⟨13, 256⟩ tab Proc.fresh size D = .ok (some r)) (g : Geo)
    (hg : g = ⟨15, 256⟩ ∨ g = ⟨16, 256⟩) (size' : Nat) (D' : List Nat) :
    encode g tab r.proc size' D' = .error .panic := by
  obtain ⟨tab', ht1, ht2⟩ := makeCrcTable_ok
  rw [ht1] at ht
  cases ht
  have hp : ProcOk ⟨13, 256⟩ Proc.fresh := ⟨by constructor <;> rfl, Or.inl rfl⟩
  by_cases hf : D.getD 0 0 &&& 32 = 0
  · obtain ⟨r', e1, ⟨⟨e2, e3⟩, e4⟩, _⟩ := encode_ok (Or.inl rfl) ht2 hp size hD hne hf
    rw [hr] at e1
    cases e1
    rcases e3 with e3 | ⟨e3, e5⟩
    · omega
    · have hsz := encode_size hr
      have h0 : (allocBufs ⟨13, 256⟩ Proc.fresh.b Proc.fresh.h).1.text.size = 16641 := by
        unfold allocBufs
        rw [if_neg (by simp [Proc.fresh, LzBufs.fresh])]
        simp [Geo.txtsiz, Geo.dicsiz]
      have hgm : GeoM g := by
        rcases hg with h | h
        · exact Or.inr (Or.inl h)
        · exact Or.inr (Or.inr h)
      refine encode_small hgm e2 e5 e3.hpos e3.hflag ?_ size' D'
      rw [hsz, h0]
      rcases hg with rfl | rfl <;> simp [Geo.txtsiz, Geo.dicsiz]
  · rw [encode_panic (Or.inl rfl) ht2 hp size hD hne hf] at hr
    cases hr

/-- … whereas in a fresh process it would have worked: a concrete pair of calls. -/
theorem C31_witness : ∃ tab r, makeCrcTable = .ok tab ∧ encode ⟨13, 256⟩ tab Proc.fresh 1 [65] = .ok (some r) ∧
    encode ⟨16, 256⟩ tab r.proc 1 [65] = .error .panic ∧ ∃ r', encode ⟨16, 256⟩ tab Proc.fresh 1 [65] = .ok (some r') := by
  obtain ⟨tab, ht1, ht2⟩ := makeCrcTable_ok
  have hb : IsBytes [65] := by unfold IsBytes; decide
  obtain ⟨r, e1, _⟩ := encode_ok (g := ⟨13, 256⟩) (Or.inl rfl) ht2 (p := Proc.fresh) ⟨by constructor <;> rfl, Or.inl rfl⟩ 1 hb (by decide) (by decide)
  obtain ⟨r', e2, _⟩ := encode_ok (g := ⟨16, 256⟩) (Or.inr (Or.inr rfl)) ht2 (p := Proc.fresh) ⟨by constructor <;> rfl, Or.inl rfl⟩ 1 hb (by decide) (by decide)
  exact ⟨tab, r, ht1, e1, C31_false tab ht1 1 [65] hb (by decide) r e1 _ (Or.inr rfl) 1 [65], r', e2⟩

/-- The package variables after any sequence of compressions with one method (`g`: lh5, lh6 or lh7) and decompressions with
any methods, in a process that started fresh. -/
inductive After (g : Geo) (tab : Arr) : Proc → Prop
  | fresh : After g tab Proc.fresh
  | pack {p : Proc} {size : Nat} {D : List Nat} {r : EncOut} : After g tab p → IsBytes D →
      encode g tab p size D = .ok (some r) → After g tab r.proc
  | unpack {p : Proc} {dicbit original packed : Nat} {inp : List Nat} {o : DecOut} : After g tab p →
      decodeSt1 dicbit tab p.h original packed inp = .ok o → After g tab ⟨o.h, p.b⟩
  | unpackOther {p : Proc} {m original packed : Nat} {inp : List Nat} {o : DecOut} : After g tab p →
      others tab m p.h original packed inp = .ok o → After g tab ⟨o.h, p.b⟩

theorem encode_nil {g : Geo} (hg : GeoM g) {tab : Arr} {p : Proc} (hp : ProcOk g p) (size : Nat) :
    encode g tab p size [] = .ok none := by
  obtain ⟨np, pbit, hset, h1, h17, hnp, hpb, hpb2⟩ := setNp_ok hg.ok
  obtain ⟨b, hf, a1, a2, a3, a4⟩ := allocBufs_ok hp
  have hps := a2.hpos
  have hfs := a2.hflag
  have txs := a2.text
  unfold encode
  rw [a1]
  simp only []
  obtain ⟨e0, b1, b2, b3⟩ := encodeStart_ok hset h17 hf a3 a4 ⟨[], 0, size, 0, 0, false⟩ rfl rfl rfl
  rw [b1, ok_bind]
  unfold encodeLz
  obtain ⟨_, c1, _, _⟩ := fillAll_ok 32768 0 b.hpos (by omega)
  obtain ⟨_, c2, _, _⟩ := fillAll_ok 32768 0 b.hflag (by omega)
  obtain ⟨_, c3, _, _⟩ := fillAll_ok (g.txtsiz + 1) 32 b.text (by omega)
  rw [c1, ok_bind, c2, ok_bind, c3, ok_bind, if_pos rfl, ok_bind]

theorem After.ok {g : Geo} (hg : GeoM g) {tab : Arr} (ht : CrcTab tab) {p : Proc} (h : After g tab p) : ProcOk g p := by
  induction h with
  | fresh => exact ⟨by constructor <;> rfl, Or.inl rfl⟩
  | @pack p size D r _ hD he ih =>
    by_cases hne : D = []
    · subst hne
      rw [encode_nil hg ih size] at he
      cases he
    · by_cases hf : D.getD 0 0 &&& 32 = 0
      · obtain ⟨r', e1, ⟨e2, _⟩, _⟩ := encode_ok hg ht ih size hD hne hf
        rw [e1] at he
        cases he
        exact e2
      · rw [encode_panic hg ht ih size hD hne hf] at he
        cases he
  | unpack _ ho ih =>
    obtain ⟨a, b⟩ := decodeSt1_siz ho
    refine ⟨a ih.1, ih.2.imp id (fun h => ⟨h.1, ?_⟩)⟩
    simp only [b]
    exact h.2
  | unpackOther _ ho ih =>
    obtain ⟨a, b⟩ := others_siz ho
    refine ⟨a ih.1, ih.2.imp id (fun h => ⟨h.1, ?_⟩)⟩
    simp only [b]
    exact h.2

/-- What a compression shows to its caller: the bytes written, the sizes and the checksum it reports, whether it gave up,
what it left unread. -/
def shown (x : G (Option EncOut)) : G (Option (List Nat × Nat × Nat × Nat × Bool × List Nat)) :=
  x.map (Option.map (fun r => (r.out, r.packed, r.original, r.crc, r.unp, r.rest)))

/-- **C31, the part that holds**: with one compression method per process, the outcome of a compression (its result, its
error or its panic) is that of a fresh process, whatever was compressed with that method and whatever was decompressed with
any method before.  Full statement: the same without "with that method"; `C31_false` refutes it. -/
theorem C31_partial (tab : Arr) (ht : makeCrcTable = .ok tab) (g : Geo) (hg : g = ⟨13, 256⟩ ∨ g = ⟨15, 256⟩ ∨ g = ⟨16, 256⟩)
    (p : Proc) (hp : After g tab p) (size : Nat) (D : List Nat) (hD : IsBytes D) :
    shown (encode g tab p size D) = shown (encode g tab Proc.fresh size D) := by
  obtain ⟨tab', ht1, ht2⟩ := makeCrcTable_ok
  rw [ht1] at ht
  cases ht
  have hok := hp.ok hg ht2
  have hok' := (After.fresh (g := g) (tab := tab)).ok hg ht2
  by_cases hne : D = []
  · subst hne
    rw [encode_nil hg hok, encode_nil hg hok']
  · by_cases hf : D.getD 0 0 &&& 32 = 0
    · obtain ⟨r, r', e1, e2, a1, a2, a3, a4, a5, a6⟩ := encode_both hg ht2 hok hok' size hD hne hf
      rw [e1, e2]
      show Except.ok (some (r.out, r.packed, r.original, r.crc, r.unp, r.rest)) =
        Except.ok (some (r'.out, r'.packed, r'.original, r'.crc, r'.unp, r'.rest))
      rw [a1, a2, a3, a4, a5, a6]
    · rw [encode_panic hg ht2 hok size hD hne hf, encode_panic hg ht2 hok' size hD hne hf]

/-- Not vacuous: a process that has compressed `AAAA` with lh5 is in such a state, and
compresses `AB` successfully. -/
example : ∃ tab p r, makeCrcTable = .ok tab ∧ After ⟨13, 256⟩ tab p ∧ p.b.hpos.size ≠ 0 ∧
    encode ⟨13, 256⟩ tab p 2 [65, 66] = .ok (some r) := by
  obtain ⟨tab, ht1, ht2⟩ := makeCrcTable_ok
  have hb : IsBytes [65, 65, 65, 65] := by unfold IsBytes; decide
  have hb2 : IsBytes [65, 66] := by unfold IsBytes; decide
  have hg : GeoM ⟨13, 256⟩ := Or.inl rfl
  obtain ⟨r, e1, ⟨e2, e3⟩, _⟩ := encode_ok hg ht2 (p := Proc.fresh) ⟨by constructor <;> rfl, Or.inl rfl⟩ 100 hb (by decide) (by decide)
  have a1 : After ⟨13, 256⟩ tab r.proc := .pack .fresh hb e1
  obtain ⟨r2, f1, _⟩ := encode_ok hg ht2 (a1.ok hg ht2) 2 hb2 (by decide) (by decide)
  exact ⟨tab, r.proc, r2, ht1, a1, by omega, f1⟩

end Lha
