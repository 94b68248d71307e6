import Verif.Proof.Coarse
import Verif.Proof.Path
/-!
# C17: extraction stays in the current directory

For every archive file, well-formed or not.
-/

namespace Lha

/-- **C17**: no file `Decompress` creates has a '/' in its name: it is in the current directory. -/
theorem C17_decompress (f : Fmt) (oth : Oth) (tab : Arr) (o : Opts) (fs : Fs) (sfx : Bool) (want : List Nat) (hf : Hf) (arch : Option (List Nat))
    (r : FilesOut) (h : decompress f oth tab o fs sfx want hf arch = .ok r) : ∀ x ∈ r.files, 0x2f ∉ x.1 := by
  unfold decompress at h
  split at h
  · cases h; simp
  · split at h
    · obtain ⟨a, _, h2⟩ := bind_ok h
      exact extractLoop_noslash _ (by simp) h2
    · rw [ok_bind] at h
      exact extractLoop_noslash _ (by simp) h

/-- **C17** for `CommandExtract`. -/
theorem C17_commandExtract (f : Fmt) (oth : Oth) (tab : Arr) (o : Opts) (fs : Fs) (sfx : Bool) (hf : Hf) (arch : Option (List Nat))
    (r : FilesOut) (h : commandExtract f oth tab o fs sfx hf arch = .ok r) : ∀ x ∈ r.files, 0x2f ∉ x.1 := by
  unfold commandExtract at h
  split at h
  · cases h; simp
  · split at h
    · obtain ⟨a, _, h2⟩ := bind_ok h
      exact extractLoop_noslash _ (by simp) h2
    · rw [ok_bind] at h
      exact extractLoop_noslash _ (by simp) h

/-- The name is not the model giving up: an error occurs only because of the check for `..`. -/
theorem C17_refused (o : Opts) (h : Hdr) (hx : entryName o h = .ok none) :
    o.ignoreDir = false ∧ isDirectoryTraversal (h.name.drop (lastSlash h.name)) = true := (entryName_spec hx).1 rfl

/-- The model of `extractOne` these theorems are about and the detailed one (of `Verif/Model/Extract.lean`, which the later theorems on extraction are
about) do the same with an entry: when the detailed one returns, in a state `s`, the other returns the same; when it fails, the other fails alike, or the
lines from the terminal have run out. -/
theorem C17_models (oth : Oth) (tab : Arr) (o : Opts) (s : Sys) (hf : Hf) (h : Hdr) (inp : List Nat) :
    (∀ r s', extractOneD oth tab o s hf h inp = .ok (r, s') → extractOne oth tab o (s.view o) hf h inp = .ok r) ∧
    (∀ e, extractOneD oth tab o s hf h inp = .error e → extractOne oth tab o (s.view o) hf h inp = .error e ∨ ∃ n, inquireExtract s o.force n = .error e) :=
  ⟨fun _ _ h => extractOneD_coarse h, fun _ h => extractOneD_coarse_fails h⟩

/-- Hostile names: `../../x`, `/etc/x` (NUL-terminated, as parsed) are extracted as `x`. -/
example (h : Hdr) (hx : h.extendType = 0) (hn : h.name = [46, 46, 47, 46, 46, 47, 120, 0]) :
    entryName Opts.default h = .ok (some ([120], h.name)) := by
  obtain ⟨_, _, _, _⟩ := h
  simp only at hx hn
  subst hx hn
  rfl

end Lha
