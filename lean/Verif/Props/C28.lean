import Verif.Proof.Hist
/-!
# C28: the pm2 history is a move-to-front list
-/

namespace Lha

open Spec

/-- After `histInit` and any sequence of byte updates, looking up `n` gives the `n`-th element of the move-to-front list. -/
theorem C28 : ∃ h0, histInit = .ok h0 ∧ ∀ bs, IsBytes bs → ∃ h, histUpdates bs h0 = .ok h ∧
    ∀ n, n < 256 → histLookup h n = .ok ((mtfUses mtfStart bs).getD n 0) := by
  obtain ⟨h0, a1, a2⟩ := histInit_ok
  refine ⟨h0, a1, fun bs hb => ?_⟩
  obtain ⟨h, b1, b2⟩ := histUpdates_list bs a2 hb
  exact ⟨h, b1, fun n hn => histLookup_list b2 n hn⟩

/-- The list holds every byte once, whatever was used: 256 entries, all bytes among them. -/
theorem C28_perm (bs : List Nat) (hb : IsBytes bs) :
    (mtfUses mtfStart bs).length = 256 ∧ ∀ b, b < 256 → b ∈ mtfUses mtfStart bs := by
  obtain ⟨h0, _, a2⟩ := histInit_ok
  obtain ⟨h, _, b2⟩ := histUpdates_list bs a2 hb
  refine ⟨b2.1, fun b hb => ?_⟩
  obtain ⟨i, i1, i2⟩ := b2.2.surj b hb
  rw [List.getD_eq_getElem _ _ (by rw [b2.1]; exact i1)] at i2
  rw [← i2]
  exact List.getElem_mem _

/-- In the decoder: before a token is read, every byte written to the window since the last one is used in turn. -/
theorem C28_decoder (w : Arr) (hw : w.size = 8192) (hwb : ∀ i, w.get i < 256) (k : Nat) : ∀ (s : Pm) (l : List Nat),
    s.lastupdate < 8192 → HistL l s.hist →
    ∃ h', pmAdmin w k s = .ok { s with hist := h', lastupdate := (s.lastupdate + k) % 8192 } ∧
      HistL (mtfUses l ((List.range k).map fun i => w.get ((s.lastupdate + i) % 8192))) h' := by
  induction k with
  | zero =>
    intro s l hl H
    exact ⟨s.hist, by rw [pmAdmin, Nat.add_zero, Nat.mod_eq_of_lt hl], H⟩
  | succ k ih =>
    intro s l hl H
    rw [pmAdmin, rd_ok (by rw [hw]; exact hl), ok_bind]
    obtain ⟨h1, e1, e2⟩ := histUpdate_list H (w.get s.lastupdate) (hwb _)
    rw [e1, ok_bind]
    obtain ⟨h2, e3, e4⟩ := ih { s with hist := h1, lastupdate := (s.lastupdate + 1) % 8192 } _ (Nat.mod_lt _ (by omega)) e2
    refine ⟨h2, ?_, ?_⟩
    · rw [e3]
      simp only []
      rw [show ((s.lastupdate + 1) % 8192 + k) % 8192 = (s.lastupdate + (k + 1)) % 8192 by omega]
    · rw [List.range_succ_eq_map, List.map_cons, Nat.add_zero, Nat.mod_eq_of_lt hl, List.map_map]
      have : (List.range k).map ((fun i => w.get ((s.lastupdate + i) % 8192)) ∘ Nat.succ) =
          (List.range k).map fun i => w.get (((s.lastupdate + 1) % 8192 + i) % 8192) := by
        apply List.map_congr_left
        intro i _
        simp only [Function.comp, Nat.succ_eq_add_one]
        rw [show (s.lastupdate + (i + 1)) % 8192 = ((s.lastupdate + 1) % 8192 + i) % 8192 by omega]
      rw [this]
      exact e4

/-- Non-vacuity: some bytes and what the list then begins with. -/
example : IsBytes [0x41, 0x42, 0x41, 0xFF] ∧
    (mtfUses mtfStart [0x41, 0x42, 0x41, 0xFF]).take 4 = [0xFF, 0x41, 0x42, 0x20] := by
  refine ⟨by unfold IsBytes; decide, by decide +kernel⟩

end Lha
