import Verif.Props.C54
import Verif.Props.C57
/-!
# C92: files of the same name in different directories of the archive are all extracted
-/

namespace Lha

open Spec

/-- Extracting with `Force` set. -/
def Opts.forced : Opts := { Opts.default with force := true }

theorem Parsed.entryName_forced {e : Entry} {g : Hdr} (h : Parsed e g) : Lha.entryName Opts.forced g = .ok (some (lastName e.name, g.name)) := by
  rw [h.entryName_plain Opts.forced rfl, makeName_plain _ rfl _ (lastName_noslash _)]
  rfl

/-- With `Force` a file of that name is replaced without a question. -/
theorem Sound.step_force {tab : Arr} (ht : makeCrcTable = .ok tab) {e : Entry} (h : Sound e) (need : List Nat → Bool) (hneed : need (e.name ++ [0]) = true)
    {s : Sys} (hc : s.Creatable (lastName e.name)) (hn : s.node (lastName e.name) = none ∨ IsFile (s.node (lastName e.name))) :
    StepD tab Opts.forced need s e (s.write (lastName e.name) e.content) := by
  intro g hf T hok P
  obtain ⟨ho, hk, m, hidx, hp⟩ := h
  obtain ⟨hf1, ok1, hdec⟩ := hp.decodes ht hf hok T
  refine Or.inr ⟨by rw [P.name]; exact hneed, ⟨e.packed.length, T, hf1, g.name, some (lastName e.name, e.content)⟩, ok1, ?_, rfl, Or.inl ⟨rfl, rfl⟩⟩
  have hq : inquireExtract s true (lastName e.name) = .ok (true, s) := by
    unfold inquireExtract
    rw [lstat_of hc]
    rcases hn with hn | ⟨c, m, hn⟩
    · rw [hn]
    · rw [hn]; rfl
  unfold extractOneD
  rw [P.entryName_forced, ok_bind]
  simp only [P.method, hidx]
  rw [if_pos ⟨(P.fileType ho).trans hk, hp.ndir⟩]
  rw [show Opts.forced.force = true from rfl, hq, ok_bind]
  simp only [Bool.true_eq_false, false_and, if_false]
  rw [if_pos (canCreate_of hc hn), P.original, P.packed, hdec, ok_bind]

/-- The content of the last entry of the archive whose name ends in `n`. -/
def Spec.lastOfName (n : List Nat) (es : List Entry) : Option (List Nat) := ((es.filter fun e => lastName e.name = n).getLast?).map (·.content)

theorem lastOfName_cons (n : List Nat) (e : Entry) (es : List Entry) :
    lastOfName n (e :: es) = (lastOfName n es).or (if lastName e.name = n then some e.content else none) := by
  unfold lastOfName
  by_cases h : lastName e.name = n
  · rw [List.filter_cons_of_pos (by simpa using h), if_pos h, List.getLast?_cons]
    cases (es.filter fun e => decide (lastName e.name = n)).getLast? <;> rfl
  · rw [List.filter_cons_of_neg (by simpa using h), if_neg h, Option.or_none]

theorem Sys.write_creatable {s : Sys} {n c a : List Nat} (hn : s.node n = none ∨ IsFile (s.node n)) (h : s.Creatable a) : (s.write n c).Creatable a := by
  rcases hn with hn | ⟨d, m, hn⟩ <;> unfold Sys.write <;> rw [hn] <;> exact h

theorem Sys.write_node {s : Sys} {n c : List Nat} (hn : s.node n = none ∨ IsFile (s.node n)) (a : List Nat) :
    if n = a then ∃ m, (s.write n c).node a = some (.file c m) else (s.write n c).node a = s.node a := by
  by_cases h : n = a
  · rw [if_pos h]
    subst h
    rcases hn with hn | ⟨d, m, hn⟩ <;> unfold Sys.write <;> rw [hn]
    · exact ⟨s.fresh, if_pos rfl⟩
    · exact ⟨m, if_pos rfl⟩
  · rw [if_neg h]
    rcases hn with hn | ⟨d, m, hn⟩ <;> unfold Sys.write <;> rw [hn] <;> exact if_neg (fun hc => h hc.symm)

theorem Sys.write_rest {s : Sys} {n c : List Nat} (hn : s.node n = none ∨ IsFile (s.node n)) :
    (s.write n c).outside = s.outside ∧ (s.write n c).answers = s.answers := by
  rcases hn with hn | ⟨d, m, hn⟩ <;> unfold Sys.write <;> rw [hn] <;> exact ⟨rfl, rfl⟩

theorem force_run {tab : Arr} (ht : makeCrcTable = .ok tab) : ∀ (es : List Entry) (s : Sys), (∀ e ∈ es, Sound e) →
    (∀ e ∈ es, s.Creatable (lastName e.name)) → (∀ e ∈ es, s.node (lastName e.name) = none ∨ IsFile (s.node (lastName e.name))) →
    ∃ s', RunD tab Opts.forced (needFile Opts.forced) s es s' ∧
      (∀ n, match lastOfName n es with | some c => ∃ m, s'.node n = some (.file c m) | none => s'.node n = s.node n) ∧
      s'.outside = s.outside ∧ s'.answers = s.answers := by
  intro es
  induction es with
  | nil => intro s _ _ _; exact ⟨s, .nil s, fun _ => rfl, rfl, rfl⟩
  | cons e es ih =>
    intro s h1 h2 h3
    have hn := h3 e List.mem_cons_self
    have hst := (h1 e List.mem_cons_self).step_force ht (needFile Opts.forced) (by simp [needFile, Opts.forced, Opts.default]) (h2 e List.mem_cons_self) hn
    obtain ⟨s', r1, r2, r3, r4⟩ := ih (s.write (lastName e.name) e.content) (fun x hx => h1 x (List.mem_cons_of_mem _ hx))
      (fun x hx => Sys.write_creatable hn (h2 x (List.mem_cons_of_mem _ hx))) (fun x hx => by
        have := Sys.write_node (c := e.content) hn (lastName x.name)
        split at this
        · obtain ⟨m, hm⟩ := this; right; exact ⟨_, m, hm⟩
        · rw [this]; exact h3 x (List.mem_cons_of_mem _ hx))
    obtain ⟨w1, w2⟩ := Sys.write_rest (c := e.content) hn
    refine ⟨s', .cons hst r1, ?_, r3.trans w1, r4.trans w2⟩
    intro n
    have a := r2 n
    have b := Sys.write_node (c := e.content) hn n
    rw [lastOfName_cons]
    cases hl : lastOfName n es with
    | some c => rw [hl] at a; exact a
    | none =>
      rw [hl] at a
      simp only [Option.none_or] at a ⊢
      split at b
      · rename_i hh
        obtain ⟨m, hm⟩ := b
        rw [if_pos hh]
        exact ⟨m, a.trans hm⟩
      · rename_i hh
        rw [if_neg hh]
        exact a.trans b

/-- **C92 (partial).**  Full statement: every file of the archive is extracted, also when files in different directories have the same last name
component.  Proved, with `Force` set: for any list of entries as in C42, in any directory in which their last name components are free or files, no
error is returned, and every name holds the content of the *last* entry whose name ends in it; all other names are unchanged. -/
theorem C92_partial (f : Fmt) (hg : f.generic = false) (tab : Arr) (ht : makeCrcTable = .ok tab) (t : List Nat) (htl : Tail t) (hf : Hf)
    (hok : GOk hf) (s : Sys) (es : List Entry) (hes : ∀ e ∈ es, Sound e) (hinc : NonInc 1024 es)
    (hcan : ∀ e ∈ es, s.Creatable (lastName e.name)) (hnew : ∀ e ∈ es, s.node (lastName e.name) = none ∨ IsFile (s.node (lastName e.name))) :
    ∃ hf' s', GOk hf' ∧ commandExtractD f (others tab) tab Opts.forced false hf s (some (archive es t)) = .ok (false, s', hf') ∧
      (∀ n, match lastOfName n es with | some c => ∃ m, s'.node n = some (.file c m) | none => s'.node n = s.node n) ∧
      s'.outside = s.outside ∧ s'.answers = s.answers := by
  obtain ⟨s', r1, r2, r3, r4⟩ := force_run ht es s hes hcan hnew
  obtain ⟨hf', ok', h⟩ := r1.extract f hg htl (fun e he => (hes e he).ok) hinc hf hok
  exact ⟨hf', s', ok', h, r2, r3, r4⟩

/-- **C92 is false**, with `Force` set: of two files with the same last name component and different contents the first is lost, and success is
reported: after the call no name holds its content (unless it held it before). -/
theorem C92_false (f : Fmt) (hg : f.generic = false) (tab : Arr) (ht : makeCrcTable = .ok tab) (t : List Nat) (htl : Tail t) (hf : Hf)
    (hok : GOk hf) (s : Sys) (e1 e2 : Entry) (h1 : Sound e1) (h2 : Sound e2) (hinc : NonInc 1024 [e1, e2])
    (hcan : s.Creatable (lastName e1.name)) (hnew : s.node (lastName e1.name) = none) (hsame : lastName e1.name = lastName e2.name)
    (hdiff : e1.content ≠ e2.content) :
    ∃ hf' s', commandExtractD f (others tab) tab Opts.forced false hf s (some (archive [e1, e2] t)) = .ok (false, s', hf') ∧
      ∀ n m, s'.node n = some (.file e1.content m) → s.node n = some (.file e1.content m) := by
  obtain ⟨hf', s', _, h, hl, _⟩ := C92_partial f hg tab ht t htl hf hok s [e1, e2] (by simp [h1, h2]) hinc (by simp [hcan, ← hsame])
    (by simp [hnew, ← hsame])
  refine ⟨hf', s', h, fun n m hn => ?_⟩
  have := hl n
  rw [lastOfName_cons, lastOfName_cons, ← hsame] at this
  by_cases hc : lastName e1.name = n
  · rw [if_pos hc, if_pos hc] at this
    obtain ⟨m', hm⟩ := this
    rw [hm] at hn
    have hn := Option.some.inj hn
    have : e2.content = e1.content := (Node.file.inj hn).1
    exact absurd this.symm hdiff
  · rw [if_neg hc, if_neg hc] at this
    exact this.symm.trans hn

/-- With the default options the second file makes the program ask about the first, which it has just written, and crash unless a line beginning
with 'Y' is typed. -/
theorem C92_false_default (f : Fmt) (hg : f.generic = false) (tab : Arr) (ht : makeCrcTable = .ok tab) (t : List Nat) (hf : Hf)
    (hok : GOk hf) (s : Sys) (e1 e2 : Entry) (h1 : Sound e1) (h2 : Sound e2) (es : List Entry) (hinc : NonInc 1024 [e1, e2])
    (hcan : s.Creatable (lastName e1.name)) (hnew : s.node (lastName e1.name) = none) (hsame : lastName e1.name = lastName e2.name)
    (ha : ∀ a ∈ s.answers, a.head? ≠ some 0x59) :
    commandExtractD f (others tab) tab Opts.default false hf s (some (archive (e1 :: e2 :: es) t)) = panic := by
  have hst := h1.step_new ht (needFile Opts.default) (by simp [needFile, Opts.default]) hcan hnew
  obtain ⟨k, h', hf', k1, k2, k4, k5, k3⟩ := (RunD.cons hst (RunD.nil _)).prefix f hg (archive (e2 :: es) t)
    ((archive (e1 :: e2 :: es) t).length + 1) newHdr hf (by rw [List.length_singleton]; have := archive_length (e1 :: e2 :: es) t; rw [List.length_cons] at this; omega) (by simpa using h1.ok) hok
    newHdr_method (by rw [newHdr_name]; exact ⟨hinc.1, trivial⟩)
  have ea : archive (e1 :: e2 :: es) t = archive [e1] (archive (e2 :: es) t) := by simp [archive]
  have hn2 := (k5 [e2] (by rw [newHdr_name]; exact hinc)).1
  obtain ⟨k, rfl⟩ : ∃ j, k = j + 1 := ⟨k - 1, by omega⟩
  obtain ⟨ho, hk, m, hidx, hp⟩ := h2
  obtain ⟨g, p1, P⟩ := entry_parse f hg tab e2 ho h' k4 hn2 (archive es t)
  unfold commandExtractD
  simp only [Bool.false_eq_true, if_false]
  rw [ok_bind]
  rw [show archive (e1 :: e2 :: es) t = archive [e1] (archive (e2 :: es) t) from ea] at k3 ⊢
  rw [k3]
  unfold extractLoopD
  rw [archive_cons, p1, ok_bind]
  simp only []
  rw [if_pos (by simp [needFile, Opts.default])]
  unfold extractOneD
  rw [P.entryName, ok_bind]
  simp only [P.method, hidx]
  rw [if_pos ⟨(P.fileType ho).trans hk, hp.ndir⟩, show Opts.default.force = false from rfl]
  unfold inquireExtract
  have hc2 : (s.set (lastName e1.name) (.file e1.content s.fresh)).Creatable (lastName e2.name) := by rw [← hsame]; exact hcan
  have hn3 : (s.set (lastName e1.name) (.file e1.content s.fresh)).node (lastName e2.name) = some (.file e1.content s.fresh) := by
    rw [← hsame]; exact if_pos rfl
  rw [lstat_of hc2, hn3]
  simp only [Bool.false_eq_true, if_false]
  rw [show (s.set (lastName e1.name) (.file e1.content s.fresh)).answers = s.answers from rfl, inquire_never ha]
  rfl

theorem sample_sound_b (name : List Nat) (h1 : name.length ≤ 221) (h2 : 0 ∉ name) (h3 : 0x5c ∉ name) :
    Sound (sampleEntry [45, 108, 122, 115, 45] name [0xa1, 0x00] [66]) := by
  have hc : crc16 0 [66] < 2 ^ 16 := by decide +kernel
  refine ⟨⟨rfl, h1, h2, h3, (by decide : 2 < 2 ^ 32), (by decide : 1 < 2 ^ 32), hc, (by decide : 0o644 < 2 ^ 12), Or.inl rfl⟩, rfl, 8,
    (by decide : methods.findIdx? (· = [45, 108, 122, 115, 45]) = some 8), ?_⟩
  have : (Ring.run 2048 lzsRing [.lit 66]).out = [66] := by decide
  show Packed 8 [0xa1, 0x00] [66]
  rw [← this]
  refine .lzs (S := List.replicate 7 false) ?_ (by unfold IsBytes; decide) (by decide) (by decide)
  intro t ht
  simp only [List.mem_cons, List.not_mem_nil, or_false] at ht
  subst ht
  exact (by decide : 66 < 256)

/-- The hypotheses are met by the entries `x/e` and `y/e` with different contents, and the sample directory. -/
example : Sound (sampleEntry [45, 108, 122, 115, 45] [120, 47, 101] [0xa0, 0x80] [65]) ∧
    Sound (sampleEntry [45, 108, 122, 115, 45] [121, 47, 101] [0xa1, 0x00] [66]) ∧
    NonInc 1024 [sampleEntry [45, 108, 122, 115, 45] [120, 47, 101] [0xa0, 0x80] [65],
      sampleEntry [45, 108, 122, 115, 45] [121, 47, 101] [0xa1, 0x00] [66]] ∧
    Sys.sample.Creatable (lastName [120, 47, 101]) ∧ Sys.sample.node (lastName [120, 47, 101]) = none ∧
    lastName [120, 47, 101] = lastName [121, 47, 101] ∧ [65] ≠ [66] :=
  ⟨sample_sound _ (by decide) (by decide) (by decide), sample_sound_b _ (by decide) (by decide) (by decide), ⟨by decide, by decide, trivial⟩,
    ⟨by decide, by decide, rfl⟩, rfl, by decide, by decide⟩

end Lha
