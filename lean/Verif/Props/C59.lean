import Verif.Props.C58
/-!
# C59: extracted files are those of the archive: content, time stamp, permissions
-/

namespace Lha

open Spec

/-- **C59 is false** of time stamps and permissions: a new file has those of any newly created file, whatever the entry says.  (The code that would
set them comes after a `return`.) -/
theorem C59_false (f : Fmt) (hg : f.generic = false) (tab : Arr) (ht : makeCrcTable = .ok tab) (e : Entry) (he : Sound e) (s : Sys)
    (hc : s.Creatable (lastName e.name)) (hn : s.node (lastName e.name) = none) (t : List Nat) (htl : Tail t) (hf : Hf) (hok : GOk hf) :
    ∃ hf', commandExtractD f (others tab) tab Opts.default false hf s (some (archive [e] t)) =
      .ok (false, s.set (lastName e.name) (.file e.content s.fresh), hf') := by
  have h1 := he.step_new ht (needFile Opts.default) (by simp [needFile, Opts.default]) hc hn
  obtain ⟨hf', _, h⟩ := (RunD.cons h1 (RunD.nil _)).extract f hg htl (by simpa using he.ok) ⟨by have := he.ok.name; omega, trivial⟩ hf hok
  exact ⟨hf', h⟩

/-- **C59 (partial).**  Full statement: after `CommandExtract` every entry is a file with the content, time stamp and permissions of the entry.  Proved
of the contents, for archives as in C42 whose last name components are different, in a directory in which they are new.  Everything else
in the directory is as it was. -/
theorem C59_partial (f : Fmt) (hg : f.generic = false) (tab : Arr) (ht : makeCrcTable = .ok tab) (t : List Nat) (htl : Tail t) (hf : Hf)
    (hok : GOk hf) (s : Sys) (es : List Entry) (hes : ∀ e ∈ es, Sound e) (hinc : NonInc 1024 es)
    (hcan : ∀ e ∈ es, s.Creatable (lastName e.name)) (hnew : ∀ e ∈ es, s.node (lastName e.name) = none)
    (hdist : es.Pairwise fun a b => lastName a.name ≠ lastName b.name) :
    ∃ hf' s', GOk hf' ∧ commandExtractD f (others tab) tab Opts.default false hf s (some (archive es t)) = .ok (false, s', hf') ∧
      (∀ e ∈ es, ∃ m, s'.node (lastName e.name) = some (.file e.content m)) ∧
      (∀ n, (∀ e ∈ es, lastName e.name ≠ n) → s'.node n = s.node n) ∧ s'.outside = s.outside ∧ s'.answers = s.answers := by
  obtain ⟨hf', s', h1, h2, h3, h4, h5⟩ := C58_partial f hg tab ht t htl hf hok s es (fun e he => Or.inl (hes e he)) hinc hcan hnew hdist
  exact ⟨hf', s', h1, h2, fun e he => ⟨_, h3 e he (hes e he)⟩, fun n hn => h4 n (fun e he _ => hn e he), h5⟩

/-- The hypotheses are met by the entries `x/e` and `x/a` and the sample directory; the attributes of the entry differ from those of a new file. -/
example : Sound (sampleEntry [45, 108, 122, 115, 45] [120, 47, 101] [0xa0, 0x80] [65]) ∧
    Sound (sampleEntry [45, 108, 122, 115, 45] [120, 47, 97] [0xa0, 0x80] [65]) ∧
    NonInc 1024 [sampleEntry [45, 108, 122, 115, 45] [120, 47, 101] [0xa0, 0x80] [65],
      sampleEntry [45, 108, 122, 115, 45] [120, 47, 97] [0xa0, 0x80] [65]] ∧
    Sys.sample.Creatable (lastName [120, 47, 101]) ∧ Sys.sample.node (lastName [120, 47, 101]) = none ∧
    Sys.sample.fresh.mtime ≠ (sampleEntry [45, 108, 122, 115, 45] [120, 47, 101] [0xa0, 0x80] [65]).unixTime :=
  ⟨sample_sound _ (by decide) (by decide) (by decide), sample_sound _ (by decide) (by decide) (by decide), ⟨by decide, by decide, trivial⟩,
    ⟨by decide, by decide, rfl⟩, rfl, by decide⟩

end Lha
