import Verif.Proof.Bound
import Verif.Model.Extract
/-!
# The two models of extraction agree

`extractOne` (`Verif/Model/Archive.lean`) sees the file system through two functions; `extractOneD` (`Verif/Model/Extract.lean`) has the whole state.
-/

namespace Lha

/-- What `extractOne` is told about the state `s`: whether the file is written, and whether a directory of that name is found. -/
def Sys.view (s : Sys) (o : Opts) : Fs where
  can n := (match inquireExtract s o.force n with | .ok (up, _) => up || o.force | .error _ => false) && s.canCreate n
  isDir n := (makeParentPath s n).1

/-- The answers do not matter for creating a file. -/
theorem inquireExtract_can {s s1 : Sys} {force up : Bool} {n : List Nat} (h : inquireExtract s force n = .ok (up, s1)) : s1.canCreate n = s.canCreate n := by
  unfold inquireExtract at h
  split at h
  · cases h; rfl
  · cases h; rfl
  · split at h
    · cases h; rfl
    · obtain ⟨ls, _, h⟩ := bind_ok h
      cases h; rfl
  · cases h; rfl

/-- Whenever the detailed model returns, the coarse one returns the same. -/
theorem extractOneD_coarse {oth : Oth} {tab : Arr} {o : Opts} {s s' : Sys} {hf : Hf} {h : Hdr} {inp : List Nat} {r : Option OneOut}
    (hx : extractOneD oth tab o s hf h inp = .ok (r, s')) : extractOne oth tab o (s.view o) hf h inp = .ok r := by
  unfold extractOneD at hx
  obtain ⟨en, he, hx⟩ := bind_ok hx
  unfold extractOne
  rw [he, ok_bind]
  cases en with
  | none => cases hx; rfl
  | some p =>
    obtain ⟨name, hname⟩ := p
    simp only [] at hx ⊢
    cases hm : methods.findIdx? (· = h.method) with
    | none => rw [hm] at hx; cases hx; rfl
    | some m =>
      rw [hm] at hx
      simp only [] at hx ⊢
      split at hx
      · rename_i hk
        rw [if_pos hk]
        obtain ⟨⟨up, s1⟩, h1, hx⟩ := bind_ok hx
        simp only [] at hx
        have hv : (s.view o).can name = ((up || o.force) && s.canCreate name) := by
          unfold Sys.view
          simp only [h1]
        split at hx
        · rename_i hn
          cases hx
          rw [hv, hn.1, hn.2]
          rfl
        · rename_i hn
          have hup : (up || o.force) = true := by
            cases up <;> cases hF : o.force <;> simp_all
          rw [hv, hup, Bool.true_and, ← inquireExtract_can h1]
          split at hx
          · rename_i hc
            rw [if_pos hc]
            obtain ⟨d, hd, hx⟩ := bind_ok hx
            cases hx
            rw [hd]
            rfl
          · rename_i hc
            cases hx
            rw [if_neg hc]
      · rename_i hk
        rw [if_neg hk]
        split at hx
        · rename_i hd
          rw [if_pos hd]
          split at hx
          · rename_i hi
            cases hx
            rw [if_neg (by simp [hi])]
          · rename_i hi
            have hi : o.ignoreDir = false := by simpa using hi
            split at hx
            · rename_i hl
              rw [if_neg (by simp [hl])]
              obtain ⟨⟨up, s1⟩, h1, hx⟩ := bind_ok hx
              simp only [] at hx
              split at hx
              · cases hx; rfl
              · cases hx; rfl
            · rename_i hl
              cases hz : makeParentPath s name with
              | mk ok s1 =>
                rw [hz] at hx
                simp only [] at hx
                split at hx
                · cases hx
                · rename_i hok
                  cases hx
                  rw [if_neg]
                  intro ⟨_, _, hh⟩
                  unfold Sys.view at hh
                  simp only [hz] at hh
                  exact hok hh
        · rename_i hd
          rw [if_neg hd]
          split at hx
          · rename_i hF
            cases hx
            rw [if_pos hF]
          · rename_i hF
            cases hx
            rw [if_neg hF]

theorem bind_fails {α β : Type} {x : G α} {f : α → G β} {e : Fault} (h : (x >>= f) = .error e) : x = .error e ∨ ∃ a, x = .ok a ∧ f a = .error e := by
  cases x with
  | error e' => left; cases h; rfl
  | ok a => exact Or.inr ⟨a, rfl, h⟩

/-- When the detailed model fails, the coarse one fails alike, or the lines from the terminal have run out. -/
theorem extractOneD_coarse_fails {oth : Oth} {tab : Arr} {o : Opts} {s : Sys} {hf : Hf} {h : Hdr} {inp : List Nat} {e : Fault}
    (hx : extractOneD oth tab o s hf h inp = .error e) :
    extractOne oth tab o (s.view o) hf h inp = .error e ∨ ∃ n, inquireExtract s o.force n = .error e := by
  unfold extractOneD at hx
  unfold extractOne
  rcases bind_fails hx with he | ⟨en, he, hx⟩
  · rw [he]; exact Or.inl rfl
  rw [he, ok_bind]
  cases en with
  | none => cases hx
  | some p =>
    obtain ⟨name, hname⟩ := p
    simp only [] at hx ⊢
    cases hm : methods.findIdx? (· = h.method) with
    | none => rw [hm] at hx; cases hx
    | some m =>
      rw [hm] at hx
      simp only [] at hx ⊢
      split at hx
      · rename_i hk
        rw [if_pos hk]
        rcases bind_fails hx with h1 | ⟨⟨up, s1⟩, h1, hx⟩
        · exact Or.inr ⟨name, h1⟩
        simp only [] at hx
        have hv : (s.view o).can name = ((up || o.force) && s.canCreate name) := by
          unfold Sys.view
          simp only [h1]
        split at hx
        · cases hx
        · rename_i hn
          have hup : (up || o.force) = true := by
            cases up <;> cases hF : o.force <;> simp_all
          rw [hv, hup, Bool.true_and, ← inquireExtract_can h1]
          split at hx
          · rename_i hc
            rw [if_pos hc]
            rcases bind_fails hx with hd | ⟨d, hd, hx⟩
            · rw [hd]; exact Or.inl rfl
            · cases hx
          · cases hx
      · rename_i hk
        rw [if_neg hk]
        split at hx
        · rename_i hd
          rw [if_pos hd]
          split at hx
          · cases hx
          · rename_i hi
            have hi : o.ignoreDir = false := by simpa using hi
            split at hx
            · rcases bind_fails hx with h1 | ⟨⟨up, s1⟩, h1, hx⟩
              · exact Or.inr ⟨name, h1⟩
              simp only [] at hx
              split at hx
              · cases hx
              · cases hx
            · rename_i hl
              cases hz : makeParentPath s name with
              | mk ok s1 =>
                rw [hz] at hx
                simp only [] at hx
                split at hx
                · rename_i hok
                  rw [if_pos]
                  · cases hx; exact Or.inl rfl
                  · refine ⟨hi, hl, ?_⟩
                    unfold Sys.view
                    simp only [hz]
                    exact hok
                · cases hx
        · split at hx
          · cases hx
          · cases hx

end Lha
