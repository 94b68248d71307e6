import Verif.Props.C58
/-!
# C68: a file that cannot be written is reported
-/

namespace Lha

open Spec

/-- Nothing of that name is there and it may not be created. -/
theorem Sound.step_denied {tab : Arr} {e : Entry} (h : Sound e) (need : List Nat → Bool) (hneed : need (e.name ++ [0]) = true)
    {s : Sys} (hm : s.may (lastName e.name) = false) (hn : s.node (lastName e.name) = none) (h0 : 0 ∉ lastName e.name) :
    StepD tab Opts.default need s e s := by
  intro g hf T hok P
  obtain ⟨ho, hk, m, hidx, hp⟩ := h
  refine Or.inr ⟨by rw [P.name]; exact hneed, ⟨0, e.packed ++ T, hf, g.name, none⟩, hok, ?_, rfl, Or.inr ⟨rfl, rfl⟩⟩
  have hl : s.lstat (lastName e.name) = .missing := by
    unfold Sys.lstat
    split
    · rfl
    · simp only [h0, if_false, hn]
  have hq : inquireExtract s Opts.default.force (lastName e.name) = .ok (true, s) := by unfold inquireExtract; rw [hl]
  unfold extractOneD
  rw [P.entryName, ok_bind]
  simp only [P.method, hidx]
  rw [if_pos ⟨(P.fileType ho).trans hk, hp.ndir⟩, hq, ok_bind]
  simp only [Bool.true_eq_false, false_and, if_false]
  rw [if_neg (by unfold Sys.canCreate; rw [hm]; simp)]

theorem files_run_may {tab : Arr} (ht : makeCrcTable = .ok tab) : ∀ (es : List Entry) (s : Sys), (∀ e ∈ es, Sound e) →
    (∀ e ∈ es, lastName e.name ≠ [] ∧ 0 ∉ lastName e.name) →
    (∀ e ∈ es, s.node (lastName e.name) = none) → (es.Pairwise fun a b => lastName a.name ≠ lastName b.name) →
    ∃ s', RunD tab Opts.default (needFile Opts.default) s es s' ∧
      (∀ e ∈ es, s.may (lastName e.name) = true → s'.node (lastName e.name) = some (.file e.content s.fresh)) ∧
      (∀ n, (∀ e ∈ es, s.may (lastName e.name) = true → lastName e.name ≠ n) → s'.node n = s.node n) ∧ s'.outside = s.outside ∧ s'.answers = s.answers := by
  intro es
  induction es with
  | nil => intro s _ _ _ _; exact ⟨s, .nil s, by simp, fun _ _ => rfl, rfl, rfl⟩
  | cons e es ih =>
    intro s h1 h2 h3 h4
    rw [List.pairwise_cons] at h4
    have hs := h1 e List.mem_cons_self
    have hz := h2 e List.mem_cons_self
    have hn := h3 e List.mem_cons_self
    by_cases hm : s.may (lastName e.name) = true
    · have hst := hs.step_new ht (needFile Opts.default) (by simp [needFile, Opts.default]) ⟨hz.1, hz.2, hm⟩ hn
      obtain ⟨s', r1, r2, r3, r4, r5⟩ := ih (s.set (lastName e.name) (.file e.content s.fresh))
        (fun e' he' => h1 e' (List.mem_cons_of_mem _ he')) (fun e' he' => h2 e' (List.mem_cons_of_mem _ he'))
        (fun e' he' => by
          show (if lastName e'.name = lastName e.name then _ else s.node (lastName e'.name)) = none
          rw [if_neg (fun hc => h4.1 e' he' hc.symm)]
          exact h3 e' (List.mem_cons_of_mem _ he')) h4.2
      refine ⟨s', .cons hst r1, ?_, ?_, r4, r5⟩
      · intro e' he' hm'
        rcases List.mem_cons.mp he' with rfl | he'
        · rw [r3 _ (fun e'' he'' _ => fun hc => h4.1 e'' he'' hc.symm)]
          show (if _ then _ else _) = _
          rw [if_pos rfl]
        · exact r2 e' he' hm'
      · intro n hn
        rw [r3 n (fun e' he' hm' => hn e' (List.mem_cons_of_mem _ he') hm')]
        show (if n = lastName e.name then _ else s.node n) = _
        rw [if_neg (fun hc => hn e List.mem_cons_self hm hc.symm)]
    · have hm : s.may (lastName e.name) = false := by simpa using hm
      have hst := hs.step_denied (tab := tab) (needFile Opts.default) (by simp [needFile, Opts.default]) hm hn hz.2
      obtain ⟨s', r1, r2, r3, r4, r5⟩ := ih s
        (fun e' he' => h1 e' (List.mem_cons_of_mem _ he')) (fun e' he' => h2 e' (List.mem_cons_of_mem _ he'))
        (fun e' he' => h3 e' (List.mem_cons_of_mem _ he')) h4.2
      refine ⟨s', .cons hst r1, ?_, ?_, r4, r5⟩
      · intro e' he' hm'
        rcases List.mem_cons.mp he' with rfl | he'
        · rw [hm] at hm'; cases hm'
        · exact r2 e' he' hm'
      · intro n hn
        exact r3 n (fun e' he' hm' => hn e' (List.mem_cons_of_mem _ he') hm')

/-- **C68 is false.**  An entry whose file may not be created is left out and no error is returned.  The other files are there with their contents,
and nothing else has changed.  (For archives as in C59.) -/
theorem C68_false (f : Fmt) (hg : f.generic = false) (tab : Arr) (ht : makeCrcTable = .ok tab) (t : List Nat) (htl : Tail t) (hf : Hf)
    (hok : GOk hf) (s : Sys) (es : List Entry) (hes : ∀ e ∈ es, Sound e) (hinc : NonInc 1024 es)
    (hname : ∀ e ∈ es, lastName e.name ≠ [] ∧ 0 ∉ lastName e.name) (hnew : ∀ e ∈ es, s.node (lastName e.name) = none)
    (hdist : es.Pairwise fun a b => lastName a.name ≠ lastName b.name) (e : Entry) (he : e ∈ es) (hmay : s.may (lastName e.name) = false) :
    ∃ hf' s', GOk hf' ∧ commandExtractD f (others tab) tab Opts.default false hf s (some (archive es t)) = .ok (false, s', hf') ∧
      s'.node (lastName e.name) = none := by
  obtain ⟨s', r1, r2, r3, r4, r5⟩ := files_run_may ht es s hes hname hnew hdist
  obtain ⟨hf', ok', h⟩ := r1.extract f hg htl (fun e he => (hes e he).ok) hinc hf hok
  refine ⟨hf', s', ok', h, ?_⟩
  rw [r3 _ (fun e' _ hm hc => by rw [hc, hmay] at hm; cases hm)]
  exact hnew e he

/-- **C68 (partial).**  Full statement: if a file of the archive cannot be written, `CommandExtract` says so.  Proved instead: the files that can be written are,
with their contents, whatever happens to the others, and nothing else is changed. -/
theorem C68_partial (f : Fmt) (hg : f.generic = false) (tab : Arr) (ht : makeCrcTable = .ok tab) (t : List Nat) (htl : Tail t) (hf : Hf)
    (hok : GOk hf) (s : Sys) (es : List Entry) (hes : ∀ e ∈ es, Sound e) (hinc : NonInc 1024 es)
    (hname : ∀ e ∈ es, lastName e.name ≠ [] ∧ 0 ∉ lastName e.name) (hnew : ∀ e ∈ es, s.node (lastName e.name) = none)
    (hdist : es.Pairwise fun a b => lastName a.name ≠ lastName b.name) :
    ∃ hf' s' err, GOk hf' ∧ commandExtractD f (others tab) tab Opts.default false hf s (some (archive es t)) = .ok (err, s', hf') ∧
      (∀ e ∈ es, s.may (lastName e.name) = true → s'.node (lastName e.name) = some (.file e.content s.fresh)) ∧
      (∀ n, (∀ e ∈ es, s.may (lastName e.name) = true → lastName e.name ≠ n) → s'.node n = s.node n) ∧ s'.outside = s.outside ∧
      s'.answers = s.answers := by
  obtain ⟨s', r1, r2, r3, r4, r5⟩ := files_run_may ht es s hes hname hnew hdist
  obtain ⟨hf', ok', h⟩ := r1.extract f hg htl (fun e he => (hes e he).ok) hinc hf hok
  exact ⟨hf', s', _, ok', h, r2, r3, r4, r5⟩

/-- The hypotheses are met by the entries `x/e` and `x/a` and the sample directory, in which only `a` may be created. -/
example : Sound (sampleEntry [45, 108, 122, 115, 45] [120, 47, 101] [0xa0, 0x80] [65]) ∧
    Sound (sampleEntry [45, 108, 122, 115, 45] [120, 47, 97] [0xa0, 0x80] [65]) ∧
    NonInc 1024 [sampleEntry [45, 108, 122, 115, 45] [120, 47, 101] [0xa0, 0x80] [65],
      sampleEntry [45, 108, 122, 115, 45] [120, 47, 97] [0xa0, 0x80] [65]] ∧
    (lastName [120, 47, 101] ≠ [] ∧ 0 ∉ lastName [120, 47, 101]) ∧ ({ Sys.sample with may := (· = [97]) } : Sys).node (lastName [120, 47, 101]) = none ∧
    ({ Sys.sample with may := (· = [97]) } : Sys).may (lastName [120, 47, 101]) = false ∧
    ({ Sys.sample with may := (· = [97]) } : Sys).may (lastName [120, 47, 97]) = true :=
  ⟨sample_sound _ (by decide) (by decide) (by decide), sample_sound _ (by decide) (by decide) (by decide), ⟨by decide, by decide, trivial⟩,
    ⟨by decide, by decide⟩, rfl, by decide, by decide⟩

end Lha
