import Verif.Props.C55
/-!
# C58: directories and symbolic links are recreated
-/

namespace Lha

open Spec

/-- **C58 is false**: no archive at all makes `CommandExtract` create a directory or a symbolic link. -/
theorem C58_false (f : Fmt) (tab : Arr) (o : Opts) (hF : o.force = false) (sfx : Bool) (hf : Hf) (s : Sys) (arch : List Nat) (ha : IsBytes arch)
    (e : Bool) (s' : Sys) (hf' : Hf) (h : commandExtractD f (others tab) tab o sfx hf s (some arch) = .ok (e, s', hf')) (n : List Nat)
    (hn : s.node n = none) : (∀ m, s'.node n ≠ some (.dir m)) ∧ ∀ x d, s'.node n ≠ some (.link x d) := by
  obtain ⟨u, hu⟩ := commandExtractD_careful hF ha h
  have key : s'.node n = none ∨ IsFile (s'.node n) := by
    rcases hu.node n with (h1 | ⟨_, h1⟩) | ⟨_, h1, _⟩
    · left; rw [h1, hn]
    · rw [hn] at h1
      generalize s'.node n = x at h1 ⊢
      cases h1
      left; rfl
    · exact Or.inr h1
  rcases key with h1 | ⟨c, m, h1⟩ <;> rw [h1] <;> exact ⟨fun _ h => (by cases h), fun _ _ h => (by cases h)⟩

/-- If the directory is there already, the program crashes, and the entries behind it are not extracted. -/
theorem C58_false_panic (f : Fmt) (hg : f.generic = false) (tab : Arr) (e : Entry) (he : DirEntry e) (es : List Entry) (t : List Nat) (s : Sys)
    (hc : s.Creatable (lastName e.name)) (m : Meta) (hn : s.node (lastName e.name) = some (.dir m)) (hf : Hf) :
    commandExtractD f (others tab) tab Opts.default false hf s (some (archive (e :: es) t)) = panic := by
  obtain ⟨g, e1, P⟩ := entry_parse f hg tab e he.ok newHdr newHdr_method (by rw [newHdr_name]; have := he.ok.name; omega) (archive es t)
  unfold commandExtractD
  simp only [Bool.false_eq_true, if_false]
  rw [ok_bind]
  unfold extractLoopD
  rw [archive_cons, e1, ok_bind]
  simp only []
  rw [if_pos (by simp [needFile, Opts.default]), he.one P, if_pos (by unfold makeParentPath; rw [lstat_of hc, hn])]
  rfl

/-- New files and directories, whose last name components are different. -/
theorem files_run {tab : Arr} (ht : makeCrcTable = .ok tab) : ∀ (es : List Entry) (s : Sys), (∀ e ∈ es, Sound e ∨ DirEntry e) → (∀ e ∈ es, s.Creatable (lastName e.name)) →
    (∀ e ∈ es, s.node (lastName e.name) = none) → (es.Pairwise fun a b => lastName a.name ≠ lastName b.name) →
    ∃ s', RunD tab Opts.default (needFile Opts.default) s es s' ∧
      (∀ e ∈ es, Sound e → s'.node (lastName e.name) = some (.file e.content s.fresh)) ∧
      (∀ n, (∀ e ∈ es, Sound e → lastName e.name ≠ n) → s'.node n = s.node n) ∧ s'.outside = s.outside ∧ s'.answers = s.answers := by
  intro es
  induction es with
  | nil => intro s _ _ _ _; exact ⟨s, .nil s, by simp, fun _ _ => rfl, rfl, rfl⟩
  | cons e es ih =>
    intro s h1 h2 h3 h4
    rw [List.pairwise_cons] at h4
    have excl : ¬ (Sound e ∧ DirEntry e) := fun ⟨a, b⟩ => by
      have := a.kind.symm.trans b.kind
      cases this
    rcases h1 e List.mem_cons_self with hs | hd
    · have hst := hs.step_new ht (needFile Opts.default) (by simp [needFile, Opts.default]) (h2 e List.mem_cons_self) (h3 e List.mem_cons_self)
      obtain ⟨s', r1, r2, r3, r4, r5⟩ := ih (s.set (lastName e.name) (.file e.content s.fresh))
        (fun e' he' => h1 e' (List.mem_cons_of_mem _ he')) (fun e' he' => h2 e' (List.mem_cons_of_mem _ he'))
        (fun e' he' => by
          show (if lastName e'.name = lastName e.name then _ else s.node (lastName e'.name)) = none
          rw [if_neg (fun hc => h4.1 e' he' hc.symm)]
          exact h3 e' (List.mem_cons_of_mem _ he')) h4.2
      refine ⟨s', .cons hst r1, ?_, ?_, r4, r5⟩
      · intro e' he' hs'
        rcases List.mem_cons.mp he' with rfl | he'
        · rw [r3 _ (fun e'' he'' _ hc => h4.1 e'' he'' hc.symm)]
          show (if lastName e'.name = lastName e'.name then some (Node.file e'.content s.fresh) else _) = _
          rw [if_pos rfl]
        · exact r2 e' he' hs'
      · intro n hn
        rw [r3 n (fun e' he' hs' => hn e' (List.mem_cons_of_mem _ he') hs')]
        show (if n = lastName e.name then _ else s.node n) = s.node n
        rw [if_neg (fun hc => hn e List.mem_cons_self hs hc.symm)]
    · have hst := hd.step (tab := tab) (needFile Opts.default) (by simp [needFile, Opts.default]) (s := s) (by
        unfold makeParentPath
        rw [lstat_of (h2 e List.mem_cons_self), h3 e List.mem_cons_self])
      obtain ⟨s', r1, r2, r3, r4, r5⟩ := ih s (fun e' he' => h1 e' (List.mem_cons_of_mem _ he')) (fun e' he' => h2 e' (List.mem_cons_of_mem _ he'))
        (fun e' he' => h3 e' (List.mem_cons_of_mem _ he')) h4.2
      refine ⟨s', .cons hst r1, ?_, ?_, r4, r5⟩
      · intro e' he' hs'
        rcases List.mem_cons.mp he' with rfl | he'
        · exact absurd ⟨hs', hd⟩ excl
        · exact r2 e' he' hs'
      · intro n hn
        exact r3 n (fun e' he' hs' => hn e' (List.mem_cons_of_mem _ he') hs')

/-- **C58 (partial).**  Full statement: extracting an archive creates its directories and links, and files in them.  Proved: directory entries for
which there is nothing yet do no harm: the files of the archive (new ones, with different last name components) are extracted as if the
directories were not there. -/
theorem C58_partial (f : Fmt) (hg : f.generic = false) (tab : Arr) (ht : makeCrcTable = .ok tab) (t : List Nat) (htl : Tail t) (hf : Hf)
    (hok : GOk hf) (s : Sys) (es : List Entry) (hes : ∀ e ∈ es, Sound e ∨ DirEntry e) (hinc : NonInc 1024 es)
    (hcan : ∀ e ∈ es, s.Creatable (lastName e.name)) (hnew : ∀ e ∈ es, s.node (lastName e.name) = none)
    (hdist : es.Pairwise fun a b => lastName a.name ≠ lastName b.name) :
    ∃ hf' s', GOk hf' ∧ commandExtractD f (others tab) tab Opts.default false hf s (some (archive es t)) = .ok (false, s', hf') ∧
      (∀ e ∈ es, Sound e → s'.node (lastName e.name) = some (.file e.content s.fresh)) ∧
      (∀ n, (∀ e ∈ es, Sound e → lastName e.name ≠ n) → s'.node n = s.node n) ∧ s'.outside = s.outside ∧ s'.answers = s.answers := by
  obtain ⟨s', r1, r2, r3, r4, r5⟩ := files_run ht es s hes hcan hnew hdist
  obtain ⟨hf', ok', h⟩ := r1.extract f hg htl (fun e he => (hes e he).elim (·.ok) (·.ok)) hinc hf hok
  exact ⟨hf', s', ok', h, r2, r3, r4, r5⟩

/-- The hypotheses are met by the entries `x/e` (a directory), `x/a` (a file) and the sample directory; those of `C58_false_panic` by a
directory `x/d`. -/
example : DirEntry { sampleEntry [45, 108, 104, 100, 45] [120, 47, 101] [] [] with kind := 0o040000 } ∧
    Sound (sampleEntry [45, 108, 122, 115, 45] [120, 47, 97] [0xa0, 0x80] [65]) ∧
    NonInc 1024 [{ sampleEntry [45, 108, 104, 100, 45] [120, 47, 101] [] [] with kind := 0o040000 },
      sampleEntry [45, 108, 122, 115, 45] [120, 47, 97] [0xa0, 0x80] [65]] ∧
    Sys.sample.node (lastName [120, 47, 101]) = none ∧ Sys.sample.node (lastName [120, 47, 97]) = none ∧
    lastName [120, 47, 101] ≠ lastName [120, 47, 97] ∧ (∃ m, Sys.sample.node (lastName [120, 47, 100]) = some (.dir m)) :=
  ⟨⟨⟨rfl, by decide, by decide, by decide, by decide, by decide, by decide, by decide, Or.inr rfl⟩, rfl, rfl⟩,
    sample_sound _ (by decide) (by decide) (by decide), ⟨by decide, by decide, trivial⟩, rfl, rfl, by decide, _, rfl⟩

end Lha
