import Verif.Proof.Careful
import Verif.Proof.Multi
import Verif.Props.C54
/-!
# Extracting archives of valid entries into a directory
-/

namespace Lha

open Spec

/-- Extracting `e` takes the directory from `s` to `s'`. -/
def StepD (tab : Arr) (o : Opts) (need : List Nat → Bool) (s : Sys) (e : Entry) (s' : Sys) : Prop :=
  ∀ (g : Hdr) (hf : Hf) (T : List Nat), GOk hf → Parsed e g → (need g.name = false ∧ s' = s) ∨ (need g.name = true ∧
    ∃ d, GOk d.hf ∧ extractOneD (others tab) tab o s hf g (e.packed ++ T) = .ok (some d, s') ∧ d.name = g.name ∧
      (d.readSize = e.packed.length ∧ d.rest = T ∨ d.readSize = 0 ∧ d.rest = e.packed ++ T))

/-- Extracting a list of entries takes the directory from `s` to `s'`. -/
inductive RunD (tab : Arr) (o : Opts) (need : List Nat → Bool) : Sys → List Entry → Sys → Prop
  | nil (s : Sys) : RunD tab o need s [] s
  | cons {s s1 s2 : Sys} {e : Entry} {es : List Entry} (h : StepD tab o need s e s1) (hr : RunD tab o need s1 es s2) : RunD tab o need s (e :: es) s2

theorem skip_some (P T : List Nat) (hP : P ≠ []) : skipTo P.length (P ++ T) = some T := by
  unfold skipTo readF
  rw [if_neg (by simp [hP])]
  simp

/-- What follows the entries is looked at in some state. -/
theorem RunD.prefix (f : Fmt) (hg : f.generic = false) {tab : Arr} {o : Opts} {need : List Nat → Bool} (t : List Nat)
    {s s' : Sys} {es : List Entry} (hrun : RunD tab o need s es s') :
    ∀ (n : Nat) (h : Hdr) (hf : Hf), es.length < n → (∀ e ∈ es, e.Ok) → GOk hf → h.method.length = 5 → NonInc h.name.length es →
      ∃ k h' hf', 0 < k ∧ GOk hf' ∧ h'.method.length = 5 ∧ (∀ fs, NonInc h.name.length (es ++ fs) → NonInc h'.name.length fs) ∧
        extractLoopD f (others tab) tab o need n h hf s (archive es t) = extractLoopD f (others tab) tab o need k h' hf' s' t := by
  induction hrun with
  | nil s =>
    intro n h hf hn _ hok hm _
    exact ⟨n, h, hf, by simp at hn; omega, hok, hm, fun _ hfs => hfs, rfl⟩
  | @cons s s1 s2 e es hstep hr ih =>
    intro n h hf hn hoks hok hm hinc
    obtain ⟨n, rfl⟩ : ∃ k, n = k + 1 := ⟨n - 1, by simp at hn; omega⟩
    have ho := hoks e List.mem_cons_self
    obtain ⟨g, e1, P⟩ := entry_parse f hg tab e ho h hm hinc.1 (archive es t)
    have hn' : es.length < n := by simp at hn; omega
    have hoks' := fun e' he' => hoks e' (List.mem_cons_of_mem e he')
    have hm' : g.method.length = 5 := by rw [P.method]; exact ho.method
    have hinc' : NonInc g.name.length es := by rw [P.name, List.length_append]; exact hinc.2
    have back : ∀ fs, NonInc h.name.length (e :: es ++ fs) → NonInc g.name.length (es ++ fs) := by
      intro fs hfs
      rw [P.name, List.length_append]; exact hfs.2
    have fin : ∀ {hf0 X}, (∃ k h' hf', 0 < k ∧ GOk hf' ∧ h'.method.length = 5 ∧ (∀ fs, NonInc g.name.length (es ++ fs) → NonInc h'.name.length fs) ∧
        extractLoopD f (others tab) tab o need n g hf0 s1 X = extractLoopD f (others tab) tab o need k h' hf' s2 t) →
        ∃ k h' hf', 0 < k ∧ GOk hf' ∧ h'.method.length = 5 ∧ (∀ fs, NonInc h.name.length (e :: es ++ fs) → NonInc h'.name.length fs) ∧
        extractLoopD f (others tab) tab o need n g hf0 s1 X = extractLoopD f (others tab) tab o need k h' hf' s2 t := by
      rintro _ _ ⟨k, h', hf', a1, a2, a3, a4, a5⟩
      exact ⟨k, h', hf', a1, a2, a3, fun fs hfs => a4 fs (back fs hfs), a5⟩
    conv in extractLoopD _ _ _ _ _ (n + 1) _ _ _ _ => unfold extractLoopD
    rw [archive_cons, e1, ok_bind]
    simp only []
    rcases hstep g hf (archive es t) hok P with ⟨hno, rfl⟩ | ⟨hyes, d, ok1, hv, hdn, hd⟩
    · rw [if_neg (by rw [hno]; simp), P.packed, skip_packed]
      exact fin (ih n g hf hn' hoks' hok hm' hinc')
    · rw [if_pos hyes, hv, ok_bind]
      simp only [hdn]
      rcases hd with ⟨d1, d2⟩ | ⟨d1, d2⟩
      · rw [if_neg (by rw [P.packed, d1]; simp), d2]
        exact fin (ih n { g with name := g.name } d.hf hn' hoks' ok1 hm' hinc')
      · by_cases hp : e.packed = []
        · rw [if_neg (by rw [P.packed, d1, hp]; simp), d2, hp, List.nil_append]
          exact fin (ih n { g with name := g.name } d.hf hn' hoks' ok1 hm' hinc')
        · have : skipTo g.packedSize d.rest = some (archive es t) := by rw [P.packed, d2, skip_some _ _ hp]
          rw [if_pos (by rw [P.packed, d1]; intro hc; exact hp (List.length_eq_zero_iff.mp hc.symm)), this]
          exact fin (ih n { g with name := g.name } d.hf hn' hoks' ok1 hm' hinc')

theorem RunD.loop (f : Fmt) (hg : f.generic = false) {tab : Arr} {o : Opts} {need : List Nat → Bool} {t : List Nat} (htl : Tail t)
    {s s' : Sys} {es : List Entry} (hrun : RunD tab o need s es s') (n : Nat) (h : Hdr) (hf : Hf) (hn : es.length < n) (hes : ∀ e ∈ es, e.Ok)
    (hok : GOk hf) (hm : h.method.length = 5) (hinc : NonInc h.name.length es) :
    ∃ hf', GOk hf' ∧ extractLoopD f (others tab) tab o need n h hf s (archive es t) = .ok (false, s', hf') := by
  obtain ⟨k, h', hf', k1, k2, _, _, k3⟩ := hrun.prefix f hg t n h hf hn hes hok hm hinc
  obtain ⟨k, rfl⟩ : ∃ j, k = j + 1 := ⟨k - 1, by omega⟩
  refine ⟨hf', k2, ?_⟩
  rw [k3]
  unfold extractLoopD
  rcases tail_end f tab h' htl with e | e
  · rw [e, ok_bind]
  · rw [e, ok_bind]

/-- `CommandExtract` of a list of entries. -/
theorem RunD.extract (f : Fmt) (hg : f.generic = false) {tab : Arr} {o : Opts} {t : List Nat} (htl : Tail t)
    {s s' : Sys} {es : List Entry} (hrun : RunD tab o (needFile o) s es s') (hes : ∀ e ∈ es, e.Ok) (hinc : NonInc 1024 es) (hf : Hf) (hok : GOk hf) :
    ∃ hf', GOk hf' ∧ commandExtractD f (others tab) tab o false hf s (some (archive es t)) = .ok (false, s', hf') := by
  obtain ⟨hf', ok', h⟩ := hrun.loop f hg htl ((archive es t).length + 1) newHdr hf (by have := archive_length es t; omega) hes hok newHdr_method
    (by rw [newHdr_name]; exact hinc)
  refine ⟨hf', ok', ?_⟩
  unfold commandExtractD
  simp only [Bool.false_eq_true, if_false]
  rw [ok_bind, h]

/-- A name under which a file can be created. -/
def Sys.Creatable (s : Sys) (n : List Nat) : Prop := n ≠ [] ∧ 0 ∉ n ∧ s.may n = true

theorem lstat_of {s : Sys} {n : List Nat} (h : s.Creatable n) : s.lstat n = match s.node n with | none => .missing | some x => .is x := by
  unfold Sys.lstat
  rw [if_neg h.1, if_neg h.2.1]
  rfl

theorem canCreate_of {s : Sys} {n : List Nat} (h : s.Creatable n) (hn : s.node n = none ∨ IsFile (s.node n)) : s.canCreate n = true := by
  unfold Sys.canCreate
  rcases hn with hn | ⟨c, m, hn⟩ <;> simp [h.1, h.2.1, h.2.2, hn]

theorem lastName_sub (l : List Nat) : ∀ x ∈ lastName l, x ∈ l := by
  intro x hx
  unfold lastName at hx
  have := List.takeWhile_sublist (fun b => decide (b ≠ 0x2f)) (l := l.reverse)
  have := this.subset (by simpa using hx)
  simpa using this

/-- Extracting a sound entry for which the question is answered (or not put). -/
theorem Sound.stepD {tab : Arr} (ht : makeCrcTable = .ok tab) {e : Entry} (h : Sound e) (need : List Nat → Bool) (hneed : need (e.name ++ [0]) = true)
    {s s1 : Sys} (hq : inquireExtract s false (lastName e.name) = .ok (true, s1)) (hc : s1.canCreate (lastName e.name) = true) :
    StepD tab Opts.default need s e (s1.write (lastName e.name) e.content) := by
  intro g hf T hok P
  obtain ⟨ho, hk, m, hidx, hp⟩ := h
  obtain ⟨hf1, ok1, hdec⟩ := hp.decodes ht hf hok T
  refine Or.inr ⟨by rw [P.name]; exact hneed, ⟨e.packed.length, T, hf1, g.name, some (lastName e.name, e.content)⟩, ok1, ?_, rfl, Or.inl ⟨rfl, rfl⟩⟩
  unfold extractOneD
  rw [P.entryName, ok_bind]
  simp only [P.method, hidx]
  rw [if_pos ⟨(P.fileType ho).trans hk, hp.ndir⟩]
  rw [show Opts.default.force = false from rfl, hq, ok_bind]
  simp only [Bool.true_eq_false, false_and, if_false]
  rw [if_pos hc, P.original, P.packed, hdec, ok_bind]

/-- Nothing of that name is there. -/
theorem Sound.step_new {tab : Arr} (ht : makeCrcTable = .ok tab) {e : Entry} (h : Sound e) (need : List Nat → Bool) (hneed : need (e.name ++ [0]) = true)
    {s : Sys} (hc : s.Creatable (lastName e.name)) (hn : s.node (lastName e.name) = none) :
    StepD tab Opts.default need s e (s.set (lastName e.name) (.file e.content s.fresh)) := by
  have := h.stepD ht need hneed (s := s) (s1 := s) (by unfold inquireExtract; rw [lstat_of hc, hn]) (canCreate_of hc (Or.inl hn))
  unfold Sys.write at this
  rwa [hn] at this

/-- A file is there, and 'Y' is answered after some other lines. -/
theorem Sound.step_yes {tab : Arr} (ht : makeCrcTable = .ok tab) {e : Entry} (h : Sound e) (need : List Nat → Bool) (hneed : need (e.name ++ [0]) = true)
    {s : Sys} (hc : s.Creatable (lastName e.name)) {c : List Nat} {m : Meta} (hn : s.node (lastName e.name) = some (.file c m)) {ls : List (List Nat)}
    (ha : inquire s.answers = .ok ls) :
    StepD tab Opts.default need s e (({ s with answers := ls } : Sys).set (lastName e.name) (.file e.content m)) := by
  have := h.stepD ht need hneed (s := s) (s1 := { s with answers := ls }) (by
    unfold inquireExtract
    rw [lstat_of hc, hn]
    simp only [Bool.false_eq_true, if_false]
    rw [ha, ok_bind]) (canCreate_of (s := { s with answers := ls }) hc (Or.inr ⟨c, m, hn⟩))
  unfold Sys.write at this
  simp only [hn] at this
  exact this

/-- A directory entry. -/
structure DirEntry (e : Entry) : Prop where
  ok : e.Ok
  method : e.method = [45, 108, 104, 100, 45]
  kind : e.kind = 0o040000

theorem lhd_idx : methods.findIdx? (· = [45, 108, 104, 100, 45]) = some 11 := by decide

theorem DirEntry.one {e : Entry} (h : DirEntry e) {g : Hdr} (P : Parsed e g) (oth : Oth) (tab : Arr) (s : Sys) (hf : Hf) (inp : List Nat) :
    extractOneD oth tab Opts.default s hf g inp =
      if (makeParentPath s (lastName e.name)).1 then panic else .ok (some ⟨0, inp, hf, g.name, none⟩, s) := by
  have hd : fileType g.mode = 0o040000 := (P.fileType h.ok).trans h.kind
  unfold extractOneD
  rw [P.entryName, ok_bind]
  simp only [P.method, h.method, lhd_idx]
  rw [if_neg (by simp), if_pos (Or.inl hd)]
  rw [if_neg (by simp [Opts.default]), if_neg (by rw [hd]; decide)]
  have hp := makeParentPath_state s (lastName e.name)
  generalize makeParentPath s (lastName e.name) = z at hp ⊢
  obtain ⟨ok, s1⟩ := z
  simp only [] at hp ⊢
  rw [hp]

/-- Nothing of that name is there, or something that is not a directory. -/
theorem DirEntry.step {tab : Arr} {e : Entry} (h : DirEntry e) (need : List Nat → Bool) (hneed : need (e.name ++ [0]) = true) {s : Sys}
    (hn : (makeParentPath s (lastName e.name)).1 = false) : StepD tab Opts.default need s e s := by
  intro g hf T hok P
  refine Or.inr ⟨by rw [P.name]; exact hneed, ⟨0, e.packed ++ T, hf, g.name, none⟩, hok, ?_, rfl, Or.inr ⟨rfl, rfl⟩⟩
  rw [h.one P, if_neg (by rw [hn]; simp)]

end Lha
