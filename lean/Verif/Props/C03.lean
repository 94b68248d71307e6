import Verif.Proof.Lz
/-!
# C03: the LZ stage is lossless
-/

namespace Lha

open Spec

/-- A sink that records the tokens it gets and never stops. -/
def recorder : Sink (List (Nat × Nat)) := ⟨fun c p ts => .ok (ts ++ [(c, p)]), fun _ => false⟩

/-- **C03.** For the geometries of lh1, lh5, lh6, lh7, every non-empty input whose first byte has bit 5
clear, and every stale content of the global buffers: the LZ stage ends normally, and the tokens
it hands over expand (LZ77 over a history of spaces) to exactly the input; distances lie inside the window, lengths
between 3 and `maxmatch`; the checksum and the count it reports are those of the input. -/
theorem C03_lossless (method : Nat) (g : Geo) (hg : geoOf method = some g) (tab : Arr) (ht : makeCrcTable = .ok tab)
    (D : List Nat) (hD : IsBytes D) (hne : D ≠ []) (hfirst : D.getD 0 0 &&& 32 = 0) (b : LzBufs)
    (hps : b.hpos.size = 32768) (hfs : b.hflag.size = 32768) (prs : b.prevs.size = 65536)
    (txs : g.txtsiz + 1 ≤ b.text.size) :
    ∃ r, encodeLz recorder g tab b D [] = .ok (some r) ∧ expand 253 r.sink = D ∧ r.count = D.length ∧
      r.crc = crc16 0 D ∧
      ∀ t ∈ r.sink, (t.1 < 256 ∧ t.2 = 0) ∨
        (3 ≤ t.1 - 253 ∧ t.1 - 253 ≤ g.maxmatch ∧ 256 ≤ t.1 ∧ t.2 + 1 < 2 ^ g.dicbit) := by
  have hfit : GeoFit g := by
    unfold geoOf at hg
    split at hg <;> first | (cases hg; done) | (cases hg; exact ⟨by decide, by decide, by decide, by decide⟩)
  obtain ⟨tab', ht1, ht2⟩ := makeCrcTable_ok
  rw [ht1] at ht
  cases ht
  obtain ⟨r, ts, r1, r2, r3, r4, r5, r6, _⟩ := encodeLz_ok (k := recorder) hfit ht2 hD (I := fun ts o => o = ts)
    (by intro ts o t h _ _; exact ⟨_, rfl, by rw [h]⟩) b [] hps hfs prs txs hne hfirst rfl
  obtain ⟨c1, c2⟩ := r6 rfl
  rw [c1, List.take_length] at r4
  refine ⟨r, r1, by rw [r2]; exact r4, c1, c2, ?_⟩
  intro t htm
  rw [r2] at htm
  rcases r3 t htm with h | ⟨h1, h2, h3⟩
  · exact Or.inl h
  · exact Or.inr ⟨by omega, by omega, h1, h3⟩

/-- Otherwise (bit 5 of the first byte set) nothing is handed over: the stage panics. -/
theorem C03_panic (method : Nat) (g : Geo) (hg : geoOf method = some g) (tab : Arr) (ht : makeCrcTable = .ok tab)
    (D : List Nat) (hD : IsBytes D) (hne : D ≠ []) (hfirst : D.getD 0 0 &&& 32 ≠ 0) (b : LzBufs)
    (hps : b.hpos.size = 32768) (hfs : b.hflag.size = 32768) (txs : g.txtsiz + 1 ≤ b.text.size) :
    encodeLz recorder g tab b D [] = panic := by
  have hfit : GeoFit g := by
    unfold geoOf at hg
    split at hg <;> first | (cases hg; done) | (cases hg; exact ⟨by decide, by decide, by decide, by decide⟩)
  obtain ⟨tab', ht1, ht2⟩ := makeCrcTable_ok
  rw [ht1] at ht
  cases ht
  exact encodeLz_panic hfit ht2 hD b [] hps hfs txs hne hfirst

/-- Non-vacuity: buffers full of garbage, an input with a repetition. -/
example : geoOf 5 = some ⟨13, 256⟩ ∧ IsBytes [72, 101, 72, 101, 72, 101, 72, 101] ∧ [72, 101, 72, 101, 72, 101, 72, 101].getD 0 0 &&& 32 = 0 ∧
    (Geo.txtsiz ⟨13, 256⟩ + 1 ≤ (LzBufs.mk (Arr.mk' 32768 7) (Arr.mk' 32768 1) (Arr.mk' 65536 9) (Arr.mk' 16641 255)).text.size) := by
  refine ⟨rfl, by unfold IsBytes; decide, by decide, ?_⟩
  simp [Geo.txtsiz, Geo.dicsiz]

end Lha
