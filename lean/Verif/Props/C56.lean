import Verif.Props.C55
/-!
# C56: extracting without directories touches nothing the user has not agreed to

The statement of C55 with `IgnoreDirectory` set.
-/

namespace Lha

open Spec

/-- **C56 (partial).**  Full statement: `C55` with `IgnoreDirectory` set.  Proved of the contents: whatever the archive, what is changed beyond
attributes is a plain name that is a file now, and was not there before or was a file for which 'Y' was typed; and nothing outside the current
directory is written. -/
theorem C56_partial (f : Fmt) (tab : Arr) (o : Opts) (hF : o.force = false) (sfx : Bool) (hf : Hf) (s : Sys) (arch : List Nat) (ha : IsBytes arch)
    (e : Bool) (s' : Sys) (hf' : Hf) (h : commandExtractD f (others tab) tab o sfx hf s (some arch) = .ok (e, s', hf')) :
    ∃ used, s.answers = used ++ s'.answers ∧ (∀ y ∈ s'.outside, y ∈ s.outside ∨ ∃ n, y = .attr n) ∧
      ∀ n, ¬ SameContent (s.node n) (s'.node n) →
        0x2f ∉ n ∧ IsFile (s'.node n) ∧ (s.node n = none ∨ IsFile (s.node n) ∧ ∃ a ∈ used, a.head? = some 0x59) := by
  obtain ⟨u, hu⟩ := commandExtractD_careful hF ha h
  refine ⟨u, hu.answers, fun y hy => ?_, fun n hn => ?_⟩
  · obtain ⟨x, h1, h2⟩ := hu.outside
    rw [h1] at hy
    rcases List.mem_append.mp hy with hy | hy
    · exact Or.inl hy
    · exact Or.inr (h2 y hy).2
  · rcases hu.node n with (h1 | ⟨_, h1⟩) | h1
    · exact absurd (by rw [h1]; exact .refl _) hn
    · exact absurd h1 hn
    · exact h1

/-- An entry that claims to be packed by `-lhd-` (the method of directories) but has the mode of a file. -/
structure FalseDir (e : Entry) : Prop where
  ok : e.Ok
  method : e.method = [45, 108, 104, 100, 45]
  kind : e.kind = 0o100000
  slash : 0x2f ∈ e.name

theorem FalseDir.one {e : Entry} (h : FalseDir e) {g : Hdr} (P : Parsed e g) (oth : Oth) (tab : Arr) (s : Sys) (hf : Hf) (inp : List Nat) :
    extractOneD oth tab Opts.flat s hf g inp = .ok (some ⟨0, inp, hf, g.name, none⟩, adjustInfo s (lastName e.name) g) := by
  have hd : fileType g.mode = 0o100000 := (P.fileType h.ok).trans h.kind
  have hidx : methods.findIdx? (· = g.method) = some 11 := by rw [P.method, h.method]; exact lhd_idx
  unfold extractOneD
  rw [P.entryName_flat (Or.inl h.slash), ok_bind, if_pos h.slash]
  simp only [hidx]
  rw [if_neg (fun hc => hc.2 rfl), if_pos (Or.inr (Or.inr trivial)), if_pos (show Opts.flat.ignoreDir = true from rfl), if_neg (by rw [hd]; decide)]

theorem FalseDir.adjust {e : Entry} (h : FalseDir e) {g : Hdr} (P : Parsed e g) {s : Sys} (hc : s.Creatable (lastName e.name)) {c : List Nat}
    {m : Meta} (hn : s.node (lastName e.name) = some (.file c m)) (hr : s.root = false) :
    adjustInfo s (lastName e.name) g = s.set (lastName e.name) (.file c { m with mtime := e.unixTime % 2 ^ 32, mode := e.perm % 512 }) := by
  have hd : fileType g.mode = 0o100000 := (P.fileType h.ok).trans h.kind
  have hm : g.mode % 512 = e.perm % 512 := by rw [P.mode, h.kind]; omega
  unfold adjustInfo
  simp only []
  rw [lstat_of hc, hn]
  simp only [hd, P.ext, P.time, hm, hr, Bool.false_eq_true, if_false, ne_eq, Nat.reduceEqDiff, not_false_eq_true, if_true, true_or]

theorem FalseDir.step {tab : Arr} {e : Entry} (h : FalseDir e) (need : List Nat → Bool) (hneed : need (e.name ++ [0]) = true) {s : Sys}
    (hc : s.Creatable (lastName e.name)) {c : List Nat} {m : Meta} (hn : s.node (lastName e.name) = some (.file c m)) (hr : s.root = false) :
    StepD tab Opts.flat need s e (s.set (lastName e.name) (.file c { m with mtime := e.unixTime % 2 ^ 32, mode := e.perm % 512 })) := by
  intro g hf T hok P
  refine Or.inr ⟨by rw [P.name]; exact hneed, ⟨0, e.packed ++ T, hf, g.name, none⟩, hok, ?_, rfl, Or.inr ⟨rfl, rfl⟩⟩
  rw [h.one P, h.adjust P hc hn hr]

/-- **C56 is false** of attributes: an entry `x/b` that is called a directory by its method and a file by its mode sets the time stamp and the
permissions of an existing file `b` to those of the entry, without a question; the call reports success. -/
theorem C56_false (f : Fmt) (hg : f.generic = false) (tab : Arr) (e : Entry) (h : FalseDir e) (s : Sys) (hc : s.Creatable (lastName e.name))
    (c : List Nat) (m : Meta) (hn : s.node (lastName e.name) = some (.file c m)) (hr : s.root = false) (t : List Nat) (ht : Tail t) (hf : Hf)
    (hok : GOk hf) :
    ∃ hf', commandExtractD f (others tab) tab Opts.flat false hf s (some (archive [e] t)) =
      .ok (false, s.set (lastName e.name) (.file c { m with mtime := e.unixTime % 2 ^ 32, mode := e.perm % 512 }), hf') := by
  obtain ⟨hf', _, h1⟩ := (RunD.cons (h.step (tab := tab) (needFile Opts.flat) (by simp [needFile, Opts.flat, Opts.default]) hc hn hr)
    (RunD.nil _)).extract f hg ht (by simpa using h.ok) ⟨by have := h.ok.name; omega, trivial⟩ hf hok
  exact ⟨hf', h1⟩

/-- If `b` is a symbolic link, the attributes of what it points to are changed, wherever that is. -/
theorem C56_false_link (f : Fmt) (hg : f.generic = false) (tab : Arr) (e : Entry) (h : FalseDir e) (s : Sys) (hc : s.Creatable (lastName e.name))
    (target : List Nat) (d : Bool) (hn : s.node (lastName e.name) = some (.link target d)) (t : List Nat) (ht : Tail t) (hf : Hf) (hok : GOk hf) :
    ∃ hf', commandExtractD f (others tab) tab Opts.flat false hf s (some (archive [e] t)) =
      .ok (false, { s with outside := s.outside ++ [.attr (lastName e.name)] }, hf') := by
  have hstep : StepD tab Opts.flat (needFile Opts.flat) s e { s with outside := s.outside ++ [.attr (lastName e.name)] } := by
    intro g hf T hok P
    refine Or.inr ⟨by simp [needFile, Opts.flat, Opts.default], ⟨0, e.packed ++ T, hf, g.name, none⟩, hok, ?_, rfl, Or.inr ⟨rfl, rfl⟩⟩
    rw [h.one P]
    unfold adjustInfo
    simp only []
    rw [lstat_of hc, hn]
  obtain ⟨hf', _, h1⟩ := (RunD.cons hstep (RunD.nil _)).extract f hg ht (by simpa using h.ok) ⟨by have := h.ok.name; omega, trivial⟩ hf hok
  exact ⟨hf', h1⟩

/-- The hypotheses are met by an entry `x/b` with no data, and the sample directory, in which `b` is a file. -/
example : FalseDir (sampleEntry [45, 108, 104, 100, 45] [120, 47, 98] [] []) ∧
    Sys.sample.Creatable (lastName (sampleEntry [45, 108, 104, 100, 45] [120, 47, 98] [] []).name) ∧
    Sys.sample.node (lastName (sampleEntry [45, 108, 104, 100, 45] [120, 47, 98] [] []).name) = some (.file [1, 2] ⟨0o600, 7, 1, 1⟩) :=
  ⟨⟨⟨rfl, by decide, by decide, by decide, by decide, by decide, by decide, by decide, Or.inl rfl⟩, rfl, rfl, by decide⟩,
    ⟨by decide, by decide, rfl⟩, rfl⟩

end Lha
