import Verif.Proof.Copy
/-!
# The encoder counts at least one byte
-/

namespace Lha

open Spec

theorem encodeLoop_count {σ : Type} {k : Sink σ} {g : Geo} {tab : Arr} (f : Nat) : ∀ {s : Lz} {m : Match} {c : Nat} {o : σ}
    {x : Lz × Nat × σ}, encodeLoop k g tab f s m c o = .ok x → c ≤ x.2.1 ∧ (0 < s.rem → k.stop o = false → c < x.2.1) := by
  induction f with
  | zero => intro s m c o x h; cases h
  | succ f ih =>
    intro s m c o x h
    rw [encodeLoop] at h
    split at h
    · obtain ⟨s1, h1, h2⟩ := bind_ok h
      obtain ⟨⟨s2, m2⟩, h3, h4⟩ := bind_ok h2
      obtain ⟨s3, h5, h6⟩ := bind_ok h4
      simp only [] at h6
      split at h6
      · obtain ⟨_, _, h8⟩ := bind_ok h6
        obtain ⟨_, _, h10⟩ := bind_ok h8
        have := (ih h10).1
        exact ⟨by omega, fun _ _ => by omega⟩
      · obtain ⟨_, _, h8⟩ := bind_ok h6
        obtain ⟨s4, h9, h10⟩ := bind_ok h8
        obtain ⟨s5, h11, h12⟩ := bind_ok h10
        obtain ⟨⟨s6, m6⟩, h13, h14⟩ := bind_ok h12
        obtain ⟨s7, h15, h16⟩ := bind_ok h14
        simp only [] at h16
        have := (ih h16).1
        exact ⟨by omega, fun _ _ => by omega⟩
    · rename_i hc
      cases h
      exact ⟨Nat.le_refl _, fun a b => absurd ⟨a, b⟩ hc⟩

theorem encodeLz_count {σ : Type} {k : Sink σ} {g : Geo} (hg : g.dicsiz < g.txtsiz) {tab : Arr} {b : LzBufs} {D : List Nat} {o : σ}
    (ho : k.stop o = false) {r : LzOut σ} (h : encodeLz k g tab b D o = .ok (some r)) : 0 < r.count := by
  unfold encodeLz at h
  obtain ⟨hp, _, h2⟩ := bind_ok h
  obtain ⟨hf, _, h4⟩ := bind_ok h2
  obtain ⟨tx, h5, h6⟩ := bind_ok h4
  split at h6
  · cases h6
  · rename_i hne
    obtain ⟨⟨v, s1⟩, h7, h8⟩ := bind_ok h6
    simp only [] at h8
    have hv : 0 < v := by
      unfold freadText at h7
      obtain ⟨_, _, h7⟩ := bind_ok h7
      obtain ⟨_, _, h7⟩ := bind_ok h7
      have := congrArg Prod.fst (Except.ok.inj h7)
      simp only [List.length_take] at this
      have := List.length_pos_iff.mpr hne
      omega
    obtain ⟨t, _, h10⟩ := bind_ok h8
    obtain ⟨s2, h11, h12⟩ := bind_ok h10
    obtain ⟨⟨s3, c, o2⟩, h13, h14⟩ := bind_ok h12
    have hr : s2.rem = v := by
      unfold insertHash at h11
      obtain ⟨_, _, h11⟩ := bind_ok h11
      obtain ⟨_, _, h11⟩ := bind_ok h11
      obtain ⟨_, _, h11⟩ := bind_ok h11
      cases h11; rfl
    have := (encodeLoop_count _ h13).2 (by omega) ho
    cases h14
    exact this

theorem encode_original_pos {g : Geo} (hg : g.dicsiz < g.txtsiz) {tab : Arr} {p : Proc} {size : Nat} {D : List Nat} {r : EncOut}
    (h : encode g tab p size D = .ok (some r)) : 0 < r.original := by
  unfold encode at h
  simp only [] at h
  obtain ⟨e, h1, h2⟩ := bind_ok h
  have he : e.w.unp = false := by
    unfold encodeStartSt1 at h1
    obtain ⟨_, _, h1⟩ := bind_ok h1
    obtain ⟨_, _, h1⟩ := bind_ok h1
    obtain ⟨_, _, h1⟩ := bind_ok h1
    cases h1; rfl
  obtain ⟨x, h3, h4⟩ := bind_ok h2
  cases x with
  | none => cases h4
  | some y =>
    simp only [] at h4
    obtain ⟨e2, _, h6⟩ := bind_ok h4
    cases h6
    exact encodeLz_count hg (k := st1Sink) he h3

end Lha
