import Verif.Props.C102
import Verif.Props.C58
/-!
# C103: archives made under other systems are extracted
-/

namespace Lha

open Spec

/-- A valid header; for OS-9, no directories in the name (see `C103_false_os9`). -/
def Item.Plain (f : Fmt) (i : Item) : Prop :=
  i.Valid ∧ match i with
    | .inl _ => True
    | .inr a => a.Osk → 0x2f ∉ a.shown f.convertCase

/-- A file packed by a known method. -/
def Item.AFile : Item → Prop
  | .inl e => Sound e
  | .inr a => ∃ m, methods.findIdx? (· = a.method) = some m ∧ Packed m a.packed a.content

/-- A directory. -/
def Item.ADir : Item → Prop
  | .inl e => DirEntry e
  | .inr a => a.method = [45, 108, 104, 100, 45]

theorem Known.entryName {f : Fmt} {i : Item} {g : Hdr} (h : Known f i g) (hp : i.Plain f) :
    entryName Opts.default g = .ok (some (lastName (i.name f), g.name)) := by
  have hl := h.listed
  have hs := h.system
  cases i with
  | inl e => exact Parsed.entryName hl
  | inr a =>
    refine Seen.entryName hl ?_ hp.2
    cases ho : a.os with
    | nil => right; refine ⟨rfl, ?_⟩; rw [hs]; show a.os.head?.getD 0 = 0; rw [ho]; rfl
    | cons x xs => left; rw [hs]; show some x = some (a.os.head?.getD 0); rw [ho]; rfl

theorem Known.file {f : Fmt} {i : Item} {g : Hdr} (h : Known f i g) (hf : i.AFile) :
    ∃ m, methods.findIdx? (· = g.method) = some m ∧ Packed m i.packed i.content ∧ fileType g.mode = 0o100000 := by
  have hl := h.listed
  have hm := h.method
  cases i with
  | inl e =>
    have hl : Parsed e g := hl
    obtain ⟨ho, hk, m, hidx, hp⟩ := hf
    exact ⟨m, by rw [hm]; exact hidx, hp, (hl.fileType ho).trans hk⟩
  | inr a =>
    have hl : Seen f a g := hl
    obtain ⟨m, hidx, hp⟩ := hf
    exact ⟨m, by rw [hm]; exact hidx, hp, by rw [hl.mode]; decide⟩

theorem Known.dir {f : Fmt} {i : Item} {g : Hdr} (h : Known f i g) (hd : i.ADir) :
    methods.findIdx? (· = g.method) = some 11 ∧ fileType g.mode ≠ 0o120000 := by
  have hl := h.listed
  have hm := h.method
  cases i with
  | inl e =>
    have hl : Parsed e g := hl
    obtain ⟨ho, hmeth, hk⟩ := hd
    refine ⟨?_, by rw [hl.fileType ho, hk]; decide⟩
    rw [hm]
    show methods.findIdx? (· = e.method) = some 11
    rw [hmeth]
    exact lhd_idx
  | inr a =>
    have hl : Seen f a g := hl
    have hd : a.method = [45, 108, 104, 100, 45] := hd
    refine ⟨?_, by rw [hl.mode]; decide⟩
    rw [hm]
    show methods.findIdx? (· = a.method) = some 11
    rw [hd]
    exact lhd_idx

/-- Extracting `i` takes the directory from `s` to `s'`. -/
def StepI (f : Fmt) (tab : Arr) (need : List Nat → Bool) (s : Sys) (i : Item) (s' : Sys) : Prop :=
  ∀ (g : Hdr) (hf : Hf) (T : List Nat), GOk hf → Known f i g → (need g.name = false ∧ s' = s) ∨ (need g.name = true ∧
    ∃ d, GOk d.hf ∧ extractOneD (others tab) tab Opts.default s hf g (i.packed ++ T) = .ok (some d, s') ∧ d.name = g.name ∧
      (d.readSize = i.packed.length ∧ d.rest = T ∨ d.readSize = 0 ∧ d.rest = i.packed ++ T))

inductive RunI (f : Fmt) (tab : Arr) (need : List Nat → Bool) : Sys → List Item → Sys → Prop
  | nil (s : Sys) : RunI f tab need s [] s
  | cons {s s1 s2 : Sys} {i : Item} {l : List Item} (h : StepI f tab need s i s1) (hr : RunI f tab need s1 l s2) : RunI f tab need s (i :: l) s2

/-- What follows the items is looked at in some state. -/
theorem RunI.prefix (f : Fmt) (hg : f.generic = false) {tab : Arr} {need : List Nat → Bool} (t : List Nat)
    {s s' : Sys} {l : List Item} (hrun : RunI f tab need s l s') :
    ∀ (n : Nat) (h : Hdr) (hf : Hf), l.length < n → (∀ i ∈ l, i.Valid) → GOk hf → h.method.length = 5 → FitsI f h.extendType h.name.length l →
      ∃ k h' hf', 0 < k ∧ GOk hf' ∧ h'.method.length = 5 ∧ (∀ fs, FitsI f h.extendType h.name.length (l ++ fs) → FitsI f h'.extendType h'.name.length fs) ∧
        extractLoopD f (others tab) tab Opts.default need n h hf s (l.flatMap Item.bytes ++ t) = extractLoopD f (others tab) tab Opts.default need k h' hf' s' t := by
  induction hrun with
  | nil s =>
    intro n h hf hn _ hok hm _
    exact ⟨n, h, hf, by simp at hn; omega, hok, hm, fun _ hfs => hfs, rfl⟩
  | @cons s s1 s2 i l hstep hr ih =>
    intro n h hf hn hvs hok hm hinc
    obtain ⟨n, rfl⟩ : ∃ k, n = k + 1 := ⟨n - 1, by simp at hn; omega⟩
    have hv := hvs i List.mem_cons_self
    obtain ⟨g, e1, K⟩ := i.parse f hg tab hv h hm hinc.1 hinc.2.1 (l.flatMap Item.bytes ++ t)
    have hn' : l.length < n := by simp at hn; omega
    have hvs' := fun e' he' => hvs e' (List.mem_cons_of_mem i he')
    have hm' : g.method.length = 5 := by rw [K.method]; exact hv.method
    have hinc' := K.fits hinc.2.2
    have fin : ∀ {hf0 X}, (∃ k h' hf', 0 < k ∧ GOk hf' ∧ h'.method.length = 5 ∧
          (∀ fs, FitsI f g.extendType g.name.length (l ++ fs) → FitsI f h'.extendType h'.name.length fs) ∧
          extractLoopD f (others tab) tab Opts.default need n g hf0 s1 X = extractLoopD f (others tab) tab Opts.default need k h' hf' s2 t) →
        ∃ k h' hf', 0 < k ∧ GOk hf' ∧ h'.method.length = 5 ∧
          (∀ fs, FitsI f h.extendType h.name.length (i :: l ++ fs) → FitsI f h'.extendType h'.name.length fs) ∧
          extractLoopD f (others tab) tab Opts.default need n g hf0 s1 X = extractLoopD f (others tab) tab Opts.default need k h' hf' s2 t := by
      rintro _ _ ⟨k, h', hf', a1, a2, a3, a4, a5⟩
      exact ⟨k, h', hf', a1, a2, a3, fun fs hfs => a4 fs (K.fits hfs.2.2), a5⟩
    conv in extractLoopD _ _ _ _ _ (n + 1) _ _ _ _ => unfold extractLoopD
    rw [List.flatMap_cons, List.append_assoc, e1, ok_bind]
    simp only []
    rcases hstep g hf (l.flatMap Item.bytes ++ t) hok K with ⟨hno, rfl⟩ | ⟨hyes, d, ok1, hv, hdn, hd⟩
    · rw [if_neg (by rw [hno]; simp), K.packed, skip_packed]
      exact fin (ih n g hf hn' hvs' hok hm' hinc')
    · rw [if_pos hyes, hv, ok_bind]
      simp only [hdn]
      rcases hd with ⟨d1, d2⟩ | ⟨d1, d2⟩
      · rw [if_neg (by rw [K.packed, d1]; simp), d2]
        exact fin (ih n { g with name := g.name } d.hf hn' hvs' ok1 hm' hinc')
      · by_cases hp : i.packed = []
        · rw [if_neg (by rw [K.packed, d1, hp]; simp), d2, hp, List.nil_append]
          exact fin (ih n { g with name := g.name } d.hf hn' hvs' ok1 hm' hinc')
        · have : skipTo g.packedSize d.rest = some (l.flatMap Item.bytes ++ t) := by rw [K.packed, d2, skip_some _ _ hp]
          rw [if_pos (by rw [K.packed, d1]; intro hc; exact hp (List.length_eq_zero_iff.mp hc.symm)), this]
          exact fin (ih n { g with name := g.name } d.hf hn' hvs' ok1 hm' hinc')

/-- `CommandExtract` of a list of items. -/
theorem RunI.extract (f : Fmt) (hg : f.generic = false) {tab : Arr} {t : List Nat} (htl : Tail t)
    {s s' : Sys} {l : List Item} (hrun : RunI f tab (needFile Opts.default) s l s') (hl : ∀ i ∈ l, i.Valid) (hinc : FitsI f 0 1024 l) (hf : Hf) (hok : GOk hf) :
    ∃ hf', GOk hf' ∧ commandExtractD f (others tab) tab Opts.default false hf s (some (l.flatMap Item.bytes ++ t)) = .ok (false, s', hf') := by
  obtain ⟨k, h', hf', k1, k2, _, _, k3⟩ := hrun.prefix f hg t ((l.flatMap Item.bytes ++ t).length + 1) newHdr hf (by have := items_length l t; omega) hl hok
    newHdr_method (by rw [newHdr_name]; exact hinc)
  obtain ⟨k, rfl⟩ : ∃ j, k = j + 1 := ⟨k - 1, by omega⟩
  refine ⟨hf', k2, ?_⟩
  unfold commandExtractD
  simp only [Bool.false_eq_true, if_false]
  rw [ok_bind, k3]
  unfold extractLoopD
  rcases tail_end f tab h' htl with e | e
  · rw [e, ok_bind]
  · rw [e, ok_bind]

/-- A new file. -/
theorem Item.AFile.step {f : Fmt} {tab : Arr} (ht : makeCrcTable = .ok tab) {i : Item} (hp : i.Plain f) (h : i.AFile) {s : Sys}
    (hc : s.Creatable (lastName (i.name f))) (hn : s.node (lastName (i.name f)) = none) :
    StepI f tab (needFile Opts.default) s i (s.set (lastName (i.name f)) (.file i.content s.fresh)) := by
  intro g hf T hok K
  obtain ⟨m, hidx, hpk, hk⟩ := K.file h
  obtain ⟨hf1, ok1, hdec⟩ := hpk.decodes ht hf hok T
  refine Or.inr ⟨by simp [needFile, Opts.default], ⟨i.packed.length, T, hf1, g.name, some (lastName (i.name f), i.content)⟩, ok1, ?_, rfl, Or.inl ⟨rfl, rfl⟩⟩
  unfold extractOneD
  rw [K.entryName hp, ok_bind]
  simp only [hidx]
  rw [if_pos ⟨hk, hpk.ndir⟩]
  rw [show Opts.default.force = false from rfl, show inquireExtract s false (lastName (i.name f)) = .ok (true, s) by
    unfold inquireExtract; rw [lstat_of hc, hn], ok_bind]
  simp only [Bool.true_eq_false, false_and, if_false]
  rw [if_pos (canCreate_of hc (Or.inl hn)), K.original, K.packed, hdec, ok_bind]
  simp only []
  unfold Sys.write
  rw [hn]

/-- A directory that is not there. -/
theorem Item.ADir.step {f : Fmt} {tab : Arr} {i : Item} (hp : i.Plain f) (h : i.ADir) {s : Sys}
    (hn : (makeParentPath s (lastName (i.name f))).1 = false) : StepI f tab (needFile Opts.default) s i s := by
  intro g hf T hok K
  obtain ⟨hidx, hk⟩ := K.dir h
  refine Or.inr ⟨by simp [needFile, Opts.default], ⟨0, i.packed ++ T, hf, g.name, none⟩, hok, ?_, rfl, Or.inr ⟨rfl, rfl⟩⟩
  unfold extractOneD
  rw [K.entryName hp, ok_bind]
  simp only [hidx]
  rw [if_neg (by simp), if_pos (Or.inr (Or.inr trivial)), if_neg (by simp [Opts.default]), if_neg hk]
  have hp := makeParentPath_state s (lastName (i.name f))
  generalize makeParentPath s (lastName (i.name f)) = z at hp hn ⊢
  obtain ⟨ok, s1⟩ := z
  simp only [] at hp hn ⊢
  rw [hp, hn]
  rfl

/-- A directory for which there is nothing yet, or whose name ends with a separator. -/
def NoDir (s : Sys) (n : List Nat) : Prop := n = [] ∨ s.Creatable n ∧ s.node n = none

theorem NoDir.parent {s : Sys} {n : List Nat} (h : NoDir s n) : (makeParentPath s n).1 = false := by
  unfold makeParentPath
  rcases h with rfl | ⟨h1, h2⟩
  · simp [Sys.lstat]
  · rw [lstat_of h1, h2]

/-- New files, and directories, whose last name components are different. -/
theorem items_run {f : Fmt} {tab : Arr} (ht : makeCrcTable = .ok tab) : ∀ (l : List Item) (s : Sys), (∀ i ∈ l, i.Plain f ∧ (i.AFile ∨ i.ADir)) →
    (∀ i ∈ l, i.AFile → s.Creatable (lastName (i.name f)) ∧ s.node (lastName (i.name f)) = none) →
    (∀ i ∈ l, i.ADir → NoDir s (lastName (i.name f))) →
    (l.Pairwise fun a b => lastName (a.name f) = lastName (b.name f) → lastName (a.name f) = []) →
    ∃ s', RunI f tab (needFile Opts.default) s l s' ∧
      (∀ i ∈ l, i.AFile → s'.node (lastName (i.name f)) = some (.file i.content s.fresh)) ∧
      (∀ n, (∀ i ∈ l, i.AFile → lastName (i.name f) ≠ n) → s'.node n = s.node n) ∧ s'.outside = s.outside ∧ s'.answers = s.answers := by
  intro l
  induction l with
  | nil => intro s _ _ _ _; exact ⟨s, .nil s, by simp, fun _ _ => rfl, rfl, rfl⟩
  | cons i l ih =>
    intro s h1 h2 h3 h4
    rw [List.pairwise_cons] at h4
    obtain ⟨hp, hk⟩ := h1 i List.mem_cons_self
    by_cases hs : i.AFile
    · obtain ⟨hc, hn⟩ := h2 i List.mem_cons_self hs
      have hne : ∀ j ∈ l, lastName (j.name f) ≠ lastName (i.name f) := fun j hj he => hc.1 (h4.1 j hj he.symm)
      have hst := hs.step ht hp hc hn
      have hnode : ∀ j ∈ l, (s.set (lastName (i.name f)) (.file i.content s.fresh)).node (lastName (j.name f)) = s.node (lastName (j.name f)) := by
        intro j hj
        show (if lastName (j.name f) = lastName (i.name f) then _ else s.node (lastName (j.name f))) = _
        rw [if_neg (hne j hj)]
      obtain ⟨s', r1, r2, r3, r4, r5⟩ := ih (s.set (lastName (i.name f)) (.file i.content s.fresh))
        (fun j hj => h1 j (List.mem_cons_of_mem _ hj))
        (fun j hj hjf => ⟨(h2 j (List.mem_cons_of_mem _ hj) hjf).1, by rw [hnode j hj]; exact (h2 j (List.mem_cons_of_mem _ hj) hjf).2⟩)
        (fun j hj hjd => (h3 j (List.mem_cons_of_mem _ hj) hjd).imp id (fun h => ⟨h.1, by rw [hnode j hj]; exact h.2⟩)) h4.2
      refine ⟨s', .cons hst r1, ?_, ?_, r4, r5⟩
      · intro j hj hjf
        rcases List.mem_cons.mp hj with rfl | hj
        · rw [r3 _ (fun k hk _ hc => hne k hk hc)]
          show (if lastName (j.name f) = lastName (j.name f) then some (Node.file j.content s.fresh) else _) = _
          rw [if_pos rfl]
        · exact r2 j hj hjf
      · intro n hn
        rw [r3 n (fun j hj hjf => hn j (List.mem_cons_of_mem _ hj) hjf)]
        show (if n = lastName (i.name f) then _ else s.node n) = s.node n
        rw [if_neg (fun hc => hn i List.mem_cons_self hs hc.symm)]
    · have hd : i.ADir := hk.resolve_left hs
      have hst := hd.step (tab := tab) hp (h3 i List.mem_cons_self hd).parent
      obtain ⟨s', r1, r2, r3, r4, r5⟩ := ih s (fun j hj => h1 j (List.mem_cons_of_mem _ hj)) (fun j hj => h2 j (List.mem_cons_of_mem _ hj))
        (fun j hj => h3 j (List.mem_cons_of_mem _ hj)) h4.2
      refine ⟨s', .cons hst r1, ?_, ?_, r4, r5⟩
      · intro j hj hjf
        rcases List.mem_cons.mp hj with rfl | hj
        · exact absurd hjf hs
        · exact r2 j hj hjf
      · intro n hn
        exact r3 n (fun j hj hjf => hn j (List.mem_cons_of_mem _ hj) hjf)

/-- **C103 (partial).**  Full statement: `CommandExtract` extracts the files of every archive with entries made under other systems, with their contents, under the names they
are listed by.  Proved for level 0, the methods of C42, if the last components of the names are different and new (only the last component is used: C92), names do not get
longer (C30), OS-9 names have no directories (`C103_false_os9`) and entries that do not record the system are not behind others (`C103_false_case`).  Entries for directories do
nothing if there is no such directory (otherwise the program crashes: C58). -/
theorem C103_partial (f : Fmt) (hg : f.generic = false) (tab : Arr) (ht : makeCrcTable = .ok tab) (t : List Nat) (htl : Tail t) (hf : Hf)
    (hok : GOk hf) (s : Sys) (l : List Item) (hl : ∀ i ∈ l, i.Plain f ∧ (i.AFile ∨ i.ADir)) (hinc : FitsI f 0 1024 l)
    (hfile : ∀ i ∈ l, i.AFile → s.Creatable (lastName (i.name f)) ∧ s.node (lastName (i.name f)) = none)
    (hdir : ∀ i ∈ l, i.ADir → NoDir s (lastName (i.name f)))
    (hdist : l.Pairwise fun a b => lastName (a.name f) = lastName (b.name f) → lastName (a.name f) = []) :
    ∃ hf' s', GOk hf' ∧ commandExtractD f (others tab) tab Opts.default false hf s (some (l.flatMap Item.bytes ++ t)) = .ok (false, s', hf') ∧
      (∀ i ∈ l, i.AFile → s'.node (lastName (i.name f)) = some (.file i.content s.fresh)) ∧
      (∀ n, (∀ i ∈ l, i.AFile → lastName (i.name f) ≠ n) → s'.node n = s.node n) ∧ s'.outside = s.outside ∧ s'.answers = s.answers := by
  obtain ⟨s', r1, r2, r3, r4, r5⟩ := items_run ht l s hl hfile hdir hdist
  obtain ⟨hf', ok', h⟩ := r1.extract f hg htl (fun i hi => (hl i hi).1.1) hinc hf hok
  exact ⟨hf', s', ok', h, r2, r3, r4, r5⟩

/-- **C103 is false of OS-9**: an entry of a directory makes `CommandExtract` crash, wherever in the archive it is, whatever its contents. -/
theorem C103_false_os9 (f : Fmt) (hg : f.generic = false) (tab : Arr) (ht : makeCrcTable = .ok tab) (hf : Hf)
    (hok : GOk hf) (s : Sys) (l : List Item) (hl : ∀ i ∈ l, i.Plain f ∧ (i.AFile ∨ i.ADir))
    (hfile : ∀ i ∈ l, i.AFile → s.Creatable (lastName (i.name f)) ∧ s.node (lastName (i.name f)) = none)
    (hdir : ∀ i ∈ l, i.ADir → NoDir s (lastName (i.name f)))
    (hdist : l.Pairwise fun a b => lastName (a.name f) = lastName (b.name f) → lastName (a.name f) = [])
    (a : Alien) (ha : a.Ok) (hff : 0xff ∉ a.name) (hosk : a.Osk) (hd : 0x2f ∈ a.shown f.convertCase) (hinc : FitsI f 0 1024 (l ++ [.inr a])) (R : List Nat) :
    commandExtractD f (others tab) tab Opts.default false hf s (some (l.flatMap Item.bytes ++ (a.bytes ++ R))) = panic := by
  obtain ⟨s', r1, -⟩ := items_run ht l s hl hfile hdir hdist
  have hfit : FitsI f newHdr.extendType newHdr.name.length (l ++ [.inr a]) := by rw [newHdr_name]; exact hinc
  have hpre : ∀ (l : List Item) (x n : Nat), FitsI f x n (l ++ [.inr a]) → FitsI f x n l := by
    intro l
    induction l with
    | nil => intro _ _ _; trivial
    | cons i l ih => intro x n h; exact ⟨h.1, h.2.1, ih _ _ h.2.2⟩
  obtain ⟨k, h', hf', k1, k2, k3, k4, k5⟩ := r1.prefix f hg (a.bytes ++ R) ((l.flatMap Item.bytes ++ (a.bytes ++ R)).length + 1) newHdr hf
    (by have := items_length l (a.bytes ++ R); omega) (fun i hi => (hl i hi).1.1) hok newHdr_method (hpre l _ _ hfit)
  obtain ⟨k, rfl⟩ : ∃ j, k = j + 1 := ⟨k - 1, by omega⟩
  have hfa := k4 [.inr a] hfit
  obtain ⟨g, e1, K⟩ := Item.parse f hg tab (.inr a) ⟨ha, hff⟩ h' k3 hfa.1 hfa.2.1 R
  have hge : g.extendType = 0x4b ∨ g.extendType = 0x58 := by
    rw [K.system]
    show a.os.head?.getD 0 = _ ∨ a.os.head?.getD 0 = _
    rcases hosk with h | h <;> rw [h] <;> simp
  have hn := entryName_osk g _ K.name hd hge
  unfold commandExtractD
  simp only [Bool.false_eq_true, if_false]
  rw [ok_bind, k5]
  unfold extractLoopD
  rw [show a.bytes = Item.bytes (.inr a) from rfl, e1, ok_bind]
  simp only []
  rw [if_pos (by simp [needFile, Opts.default])]
  unfold extractOneD
  rw [hn]
  rfl

/-- One step of the extraction of `mixed`. -/
theorem mixed_step (tab : Arr) (ht : makeCrcTable = .ok tab) (g : Hdr) (n : List Nat) (hn : entryName Opts.default g = .ok (some (n, g.name)))
    (hm : g.method = [45, 108, 122, 115, 45]) (hk : fileType g.mode = 0o100000) (ho : g.originalSize = 1) (hp : g.packedSize = 2) (T : List Nat) (hf : Hf) (hok : GOk hf) (s : Sys)
    (hc : s.Creatable n) (hnew : s.node n = none) :
    ∃ hf', GOk hf' ∧ extractOneD (others tab) tab Opts.default s hf g ([0xa0, 0x80] ++ T) =
      .ok (some ⟨2, T, hf', g.name, some (n, [65])⟩, s.set n (.file [65] s.fresh)) := by
  obtain ⟨_, _, m, hidx, hpk⟩ := sample_sound [97, 98] (by decide) (by decide) (by decide)
  obtain ⟨hf1, ok1, hdec⟩ := hpk.decodes ht hf hok T
  have hidx : methods.findIdx? (· = g.method) = some m := by rw [hm]; exact hidx
  refine ⟨hf1, ok1, ?_⟩
  unfold extractOneD
  rw [hn, ok_bind]
  simp only [hidx]
  rw [if_pos ⟨hk, hpk.ndir⟩]
  rw [show Opts.default.force = false from rfl, show inquireExtract s false n = .ok (true, s) by unfold inquireExtract; rw [lstat_of hc, hnew], ok_bind]
  simp only [Bool.true_eq_false, false_and, if_false]
  have hdec : decodeLzhuf (others tab) tab m hf 1 2 ([0xa0, 0x80] ++ T) = _ := hdec
  rw [if_pos (canCreate_of hc (Or.inl hnew)), ho, hp, hdec, ok_bind]
  simp only []
  unfold Sys.write
  rw [hnew]
  rfl

/-- **C103 is false of entries without a record of the system**: of the archive of `C102_false`, which is listed as `ab`, `a`, the files `ab` and `A` are extracted. -/
theorem C103_false_case (tab : Arr) (ht : makeCrcTable = .ok tab) (hf : Hf) (hok : GOk hf) (s : Sys) (hc1 : s.Creatable [97, 98]) (hc2 : s.Creatable [65])
    (hn1 : s.node [97, 98] = none) (hn2 : s.node [65] = none) :
    ∃ hf', commandExtractD ⟨false, true⟩ (others tab) tab Opts.default false hf s (some mixed) =
      .ok (false, (s.set [97, 98] (.file [65] s.fresh)).set [65] (.file [65] s.fresh), hf') := by
  have e1 : getHeader ⟨false, true⟩ tab newHdr mixed = .ok (.got (gotHdr (getHeader ⟨false, true⟩ (Arr.mk' 256 0) newHdr mixed)).1
      (gotHdr (getHeader ⟨false, true⟩ (Arr.mk' 256 0) newHdr mixed)).2) := by
    rw [getHeader_tab _ tab (Arr.mk' 256 0) newHdr mixed (by decide +kernel)]
    decide +kernel
  have r1 : (gotHdr (getHeader ⟨false, true⟩ (Arr.mk' 256 0) newHdr mixed)).2 =
      [0xa0, 0x80] ++ (gotHdr (getHeader ⟨false, true⟩ (Arr.mk' 256 0) newHdr mixed)).2.drop 2 := by decide +kernel
  generalize hq : gotHdr (getHeader ⟨false, true⟩ (Arr.mk' 256 0) newHdr mixed) = q at e1 r1
  have e2 : getHeader ⟨false, true⟩ tab q.1 (q.2.drop 2) = .ok (.got (gotHdr (getHeader ⟨false, true⟩ (Arr.mk' 256 0) q.1 (q.2.drop 2))).1
      (gotHdr (getHeader ⟨false, true⟩ (Arr.mk' 256 0) q.1 (q.2.drop 2))).2) := by
    rw [← hq, getHeader_tab _ tab (Arr.mk' 256 0) _ _ (by decide +kernel)]
    decide +kernel
  have r2 : (gotHdr (getHeader ⟨false, true⟩ (Arr.mk' 256 0) q.1 (q.2.drop 2))).2 = [0xa0, 0x80] ++ [] := by rw [← hq]; decide +kernel
  generalize hr : gotHdr (getHeader ⟨false, true⟩ (Arr.mk' 256 0) q.1 (q.2.drop 2)) = r at e2 r2
  obtain ⟨hf1, ok1, x1⟩ := mixed_step tab ht q.1 [97, 98] (by rw [← hq]; decide +kernel) (by rw [← hq]; decide +kernel) (by rw [← hq]; decide +kernel)
    (by rw [← hq]; decide +kernel) (by rw [← hq]; decide +kernel) (q.2.drop 2) hf hok s hc1 hn1
  obtain ⟨hf2, ok2, x2⟩ := mixed_step tab ht r.1 [65] (by rw [← hr, ← hq]; decide +kernel) (by rw [← hr, ← hq]; decide +kernel) (by rw [← hr, ← hq]; decide +kernel)
    (by rw [← hr, ← hq]; decide +kernel) (by rw [← hr, ← hq]; decide +kernel) [] hf1 ok1 (s.set [97, 98] (.file [65] s.fresh)) hc2
    (by show (if [65] = [97, 98] then some (Node.file [65] s.fresh) else s.node [65]) = none; rw [if_neg (by decide), hn2])
  refine ⟨hf2, ?_⟩
  have hlen : mixed.length + 1 = 2 + 1 + 1 + (mixed.length - 3) := by decide +kernel
  unfold commandExtractD
  simp only [Bool.false_eq_true, if_false]
  rw [ok_bind, hlen]
  generalize mixed.length - 3 = k
  rw [show 2 + 1 + 1 + k = k + 1 + 1 + 1 + 1 by omega]
  unfold extractLoopD
  rw [e1, ok_bind]
  simp only []
  rw [if_pos (by simp [needFile, Opts.default]), r1, x1, ok_bind]
  simp only []
  rw [if_neg (by rw [← hq]; decide +kernel), show ({ q.1 with name := q.1.name } : Hdr) = q.1 from rfl]
  unfold extractLoopD
  rw [e2, ok_bind]
  simp only []
  rw [if_pos (by simp [needFile, Opts.default]), r2, x2, ok_bind]
  simp only []
  rw [if_neg (by rw [← hr, ← hq]; decide +kernel)]
  unfold extractLoopD
  rfl

/-- The hypotheses are met by a Unix file `x/e`, an MS-DOS file `Q\F` (extracted as `f`) and a Macintosh directory `a:`, in the sample directory. -/
example (tab : Arr) (ht : makeCrcTable = .ok tab) (hf : Hf) (hok : GOk hf) : ∃ hf' s', GOk hf' ∧ commandExtractD ⟨false, true⟩ (others tab) tab Opts.default false hf Sys.sample
    (some (([.inl (sampleEntry [45, 108, 122, 115, 45] [120, 47, 101] [0xa0, 0x80] [65]), .inr { alien1 with name := [81, 0x5c, 70] }, .inr alien2] : List Item).flatMap Item.bytes ++ [0])) =
      .ok (false, s', hf') ∧ s'.node [102] = some (.file [65] Sys.sample.fresh) := by
  have hcrc : crc16 0 [65] < 2 ^ 16 := by decide +kernel
  have h1 := sample_sound [120, 47, 101] (by decide) (by decide) (by decide)
  have hp := h1.packed
  obtain ⟨hf', s', a1, a2, a3, _⟩ := C103_partial ⟨false, true⟩ rfl tab ht [0] (Or.inr ⟨[], rfl⟩) hf hok Sys.sample
    [.inl (sampleEntry [45, 108, 122, 115, 45] [120, 47, 101] [0xa0, 0x80] [65]), .inr { alien1 with name := [81, 0x5c, 70] }, .inr alien2]
    (by
      intro i hi
      simp only [List.mem_cons, List.not_mem_nil, or_false] at hi
      rcases hi with rfl | rfl | rfl
      · exact ⟨⟨h1.ok, trivial⟩, Or.inl h1⟩
      · exact ⟨⟨⟨⟨by decide, by decide, by decide, by decide, by decide, hcrc, by decide⟩, by decide⟩, by simp [Alien.Osk, alien1]⟩, Or.inl hp⟩
      · exact ⟨⟨⟨⟨by decide, by decide, by decide, by decide, by decide, by decide, by decide⟩, by decide⟩, by simp [Alien.Osk, alien2]⟩, Or.inr rfl⟩)
    ⟨by decide, False.elim, by decide, (fun h => by cases h), by decide, (fun h => by cases h), trivial⟩
    (by
      intro i hi hfile
      simp only [List.mem_cons, List.not_mem_nil, or_false] at hi
      rcases hi with rfl | rfl | rfl
      · exact ⟨⟨by decide, by decide, rfl⟩, rfl⟩
      · exact ⟨⟨by decide, by decide, rfl⟩, rfl⟩
      · obtain ⟨m, hm, hpk⟩ := hfile
        have : some m = some 11 := hm.symm.trans lhd_idx
        cases this
        exact absurd rfl hpk.ndir)
    (by
      intro i hi hdir
      simp only [List.mem_cons, List.not_mem_nil, or_false] at hi
      rcases hi with rfl | rfl | rfl
      · exact absurd (hdir : DirEntry _).method (by decide)
      · exact absurd hdir (by unfold Item.ADir; decide)
      · exact Or.inl (by decide))
    (by decide)
  exact ⟨hf', s', a1, a2, a3 (.inr { alien1 with name := [81, 0x5c, 70] }) (by simp) hp⟩

/-- The hypotheses of `C103_false_os9` and `C103_false_case` are met: `d/f` of OS-9, alone; the sample directory. -/
example (tab : Arr) (ht : makeCrcTable = .ok tab) (hf : Hf) (hok : GOk hf) : commandExtractD ⟨false, true⟩ (others tab) tab Opts.default false hf Sys.sample
    (some (([] : List Item).flatMap Item.bytes ++ (alien3.bytes ++ [0]))) = panic :=
  C103_false_os9 ⟨false, true⟩ rfl tab ht hf hok Sys.sample [] (by simp) (by simp) (by simp) List.Pairwise.nil alien3
    ⟨by decide, by decide, by decide, by decide, by decide, by show crc16 0 [65] < 2 ^ 16; decide +kernel, by decide⟩
    (by decide) (Or.inl rfl) (by decide) ⟨by decide, (fun h => by cases h), trivial⟩ [0]

example : Sys.sample.Creatable [97, 98] ∧ Sys.sample.Creatable [65] ∧ Sys.sample.node [97, 98] = none ∧ Sys.sample.node [65] = none :=
  ⟨⟨by decide, by decide, rfl⟩, ⟨by decide, by decide, rfl⟩, rfl, rfl⟩

end Lha
