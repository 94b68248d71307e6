import Verif.Proof.RunD
/-!
# C55: extraction touches nothing the user has not agreed to

Without `Force` and `IgnoreDirectory`, for arbitrary bytes in place of the archive.
-/

namespace Lha

open Spec

/-- The user's side of the bargain: `before` and `after` are the directory before and after, `used` are the lines the user has typed. -/
structure Consent (used : List (List Nat)) (before after : Sys) : Prop where
  /-- The lines were read in order. -/
  read : before.answers = used ++ after.answers
  /-- Nothing beyond the current directory was changed, and no link was followed. -/
  outside : after.outside = before.outside
  /-- What has changed is a file now; its name is a plain name; and it is either new or was a file before, and then 'Y' was typed. -/
  node : ∀ n, after.node n ≠ before.node n →
    0x2f ∉ n ∧ IsFile (after.node n) ∧ (before.node n = none ∨ IsFile (before.node n) ∧ ∃ a ∈ used, a.head? = some 0x59)

theorem Careful.consent {u : List (List Nat)} {s s' : Sys} (h : Careful false u s s') : Consent u s s' := by
  refine ⟨h.answers, ?_, fun n hn => ?_⟩
  · obtain ⟨x, h1, h2⟩ := h.outside
    cases x with
    | nil => rw [h1, List.append_nil]
    | cons y ys => exact absurd (h2 y List.mem_cons_self).1 (by simp)
  · rcases h.node n with (h1 | ⟨h1, _⟩) | h1
    · exact absurd h1 hn
    · cases h1
    · exact h1

theorem seek_bytes {a b : List Nat} (ha : IsBytes a) (h : seekLhaHeader a = .ok b) : IsBytes b := by
  unfold seekLhaHeader at h
  obtain ⟨x, _, h⟩ := bind_ok h
  cases h
  exact isBytes_drop ha _

theorem commandExtractD_careful {f : Fmt} {tab : Arr} {o : Opts} (hF : o.force = false) {sfx : Bool} {hf hf' : Hf} {s s' : Sys} {arch : List Nat}
    (ha : IsBytes arch) {e : Bool} (h : commandExtractD f (others tab) tab o sfx hf s (some arch) = .ok (e, s', hf')) :
    ∃ u, Careful o.ignoreDir u s s' := by
  unfold commandExtractD at h
  simp only [] at h
  split at h
  · obtain ⟨b, hb, h⟩ := bind_ok h
    exact extractLoopD_careful hF _ (seek_bytes ha hb) RealOk.new h
  · rw [ok_bind] at h
    exact extractLoopD_careful hF _ ha RealOk.new h

theorem decompressD_careful {f : Fmt} {tab : Arr} {o : Opts} (hF : o.force = false) {sfx : Bool} {want : List Nat} {hf hf' : Hf} {s s' : Sys}
    {arch : List Nat} (ha : IsBytes arch) {e : Bool} (h : decompressD f (others tab) tab o sfx want hf s (some arch) = .ok (e, s', hf')) :
    ∃ u, Careful o.ignoreDir u s s' := by
  unfold decompressD at h
  simp only [] at h
  split at h
  · obtain ⟨b, hb, h⟩ := bind_ok h
    exact extractLoopD_careful hF _ (seek_bytes ha hb) RealOk.new h
  · rw [ok_bind] at h
    exact extractLoopD_careful hF _ ha RealOk.new h

/-- **C55.**  When `CommandExtract` returns, with or without an error, whatever the archive: see `Consent`. -/
theorem C55 (f : Fmt) (tab : Arr) (o : Opts) (hF : o.force = false) (hI : o.ignoreDir = false) (sfx : Bool) (hf : Hf) (s : Sys) (arch : List Nat)
    (ha : IsBytes arch) (e : Bool) (s' : Sys) (hf' : Hf) (h : commandExtractD f (others tab) tab o sfx hf s (some arch) = .ok (e, s', hf')) :
    ∃ used, Consent used s s' := by
  obtain ⟨u, hu⟩ := commandExtractD_careful hF ha h
  rw [hI] at hu
  exact ⟨u, hu.consent⟩

/-- The same of `Decompress(header)`. -/
theorem C55_decompress (f : Fmt) (tab : Arr) (o : Opts) (hF : o.force = false) (hI : o.ignoreDir = false) (sfx : Bool) (want : List Nat) (hf : Hf)
    (s : Sys) (arch : List Nat) (ha : IsBytes arch) (e : Bool) (s' : Sys) (hf' : Hf)
    (h : decompressD f (others tab) tab o sfx want hf s (some arch) = .ok (e, s', hf')) : ∃ used, Consent used s s' := by
  obtain ⟨u, hu⟩ := decompressD_careful hF ha h
  rw [hI] at hu
  exact ⟨u, hu.consent⟩

/-- If nothing is typed, existing files, directories and links stay as they are. -/
theorem C55_silent (f : Fmt) (tab : Arr) (o : Opts) (hF : o.force = false) (hI : o.ignoreDir = false) (sfx : Bool) (hf : Hf) (s : Sys)
    (hs : ∀ a ∈ s.answers, a.head? ≠ some 0x59) (arch : List Nat) (ha : IsBytes arch) (e : Bool) (s' : Sys) (hf' : Hf)
    (h : commandExtractD f (others tab) tab o sfx hf s (some arch) = .ok (e, s', hf')) (n : List Nat) (hn : s.node n ≠ none) :
    s'.node n = s.node n := by
  obtain ⟨u, hu⟩ := C55 f tab o hF hI sfx hf s arch ha e s' hf' h
  by_cases hc : s'.node n = s.node n
  · exact hc
  · rcases (hu.node n hc).2.2 with h1 | ⟨_, a, h2, h3⟩
    · exact absurd h1 hn
    · exact absurd h3 (hs a (by rw [hu.read]; exact List.mem_append_left _ h2))

/-- A directory for the examples: a file `b` (content: 1, 2), a directory `d`, a link `l` to a directory. -/
def Sys.sample : Sys where
  node n := if n = [98] then some (.file [1, 2] ⟨0o600, 7, 1, 1⟩) else if n = [100] then some (.dir ⟨0o700, 8, 1, 1⟩) else
    if n = [108] then some (.link [47, 116] true) else none
  answers := []
  outside := []
  may _ := true
  fresh := ⟨0o644, 9, 1, 1⟩
  root := false

/-- An archive of `e/a` is extracted in the sample directory: the call returns, so `C55` speaks about it. -/
example (f : Fmt) (hg : f.generic = false) (tab : Arr) (ht : makeCrcTable = .ok tab) (hf : Hf) (hok : GOk hf) :
    ∃ hf', commandExtractD f (others tab) tab Opts.default false hf Sys.sample
      (some (archive [sampleEntry [45, 108, 122, 115, 45] [101, 47, 97] [0xa0, 0x80] [65]] [0])) =
        .ok (false, Sys.sample.set [97] (.file [65] Sys.sample.fresh), hf') ∧
      IsBytes (archive [sampleEntry [45, 108, 122, 115, 45] [101, 47, 97] [0xa0, 0x80] [65]] [0]) := by
  have hs := sample_sound [101, 47, 97] (by decide) (by decide) (by decide)
  have h1 := hs.step_new ht (needFile Opts.default) (by simp [needFile, Opts.default]) (s := Sys.sample)
    (⟨by decide, by decide, rfl⟩) rfl
  obtain ⟨hf', _, h⟩ := (RunD.cons h1 (RunD.nil _)).extract f hg (t := [0]) (Or.inr ⟨[], rfl⟩) (by simpa using hs.ok)
    ⟨by decide, trivial⟩ hf hok
  exact ⟨hf', h, by unfold IsBytes; decide⟩

end Lha
