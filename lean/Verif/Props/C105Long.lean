import Verif.Props.C105Extra
import Verif.Props.C114
/-!
# C105: level-1 entries with extended areas are read, tested and extracted
-/

namespace Lha

open Spec

/-- A level-1 entry and its extended area. -/
structure PadEntry where
  entry : Entry1
  more : List Nat

def PadEntry.bytes (x : PadEntry) : List Nat := x.entry.padded x.more

/-- The name it is known by: without the last byte (C52). -/
def PadEntry.name (f : Fmt) (x : PadEntry) : List Nat := Entry1.cut f x.entry

def PadEntry.content (x : PadEntry) : List Nat := x.entry.content

def PadEntry.packed (x : PadEntry) : List Nat := x.entry.packed

/-- As in `C105_extra_partial`. -/
def PadEntry.Good (f : Fmt) (x : PadEntry) : Prop := Kept1 f x.entry ∧ x.entry.name.length + x.more.length ≤ 230

theorem pads_length (l : List PadEntry) (t : List Nat) : l.length ≤ (l.flatMap PadEntry.bytes ++ t).length := by
  induction l with
  | nil => simp
  | cons x l ih =>
    rw [List.flatMap_cons, List.append_assoc, List.length_append, List.length_cons]
    have : 0 < x.bytes.length := by simp [PadEntry.bytes, Entry1.padded]
    omega

/-- The names do not get longer (see C30). -/
def FitsPad (f : Fmt) : Nat → List PadEntry → Prop
  | _, [] => True
  | n, x :: l => (x.name f).length < n ∧ FitsPad f ((x.name f).length + 1) l

/-- What a header says about an entry with an extended area. -/
structure PadTells (f : Fmt) (x : PadEntry) (g : Hdr) : Prop where
  method : g.method.length = 5
  packed : g.packedSize = x.packed.length
  original : g.originalSize = x.content.length
  name : g.name = x.name f ++ [0]
  crc : ¬ (g.hasCrc = true ∧ crc16 0 x.content ≠ g.crc)
  mode : fileType g.mode = 0o100000
  entry : entryName Opts.default g = .ok (some (lastName (x.name f), g.name))
  known : ∃ m, methods.findIdx? (· = g.method) = some m ∧ Packed m x.packed x.content

theorem PadEntry.parse (f : Fmt) (tab : Arr) (x : PadEntry) (hx : x.Good f) (h : Hdr) (hm : h.method.length = 5) (hn : (x.name f).length < h.name.length) (R : List Nat) :
    ∃ g, getHeader f tab h (x.bytes ++ R) = .ok (.got g (x.packed ++ R)) ∧ PadTells f x g := by
  obtain ⟨hk, hX⟩ := hx
  have hl : (x.name f).length = x.entry.name.length - 1 := Entry1.cut_length f x.entry
  obtain ⟨g, e1, S⟩ := padded_parse f tab x.entry hk.bare x.more hX h hm (by omega) R
  obtain ⟨m, hidx, hp⟩ := hk.packed
  exact ⟨g, e1, by rw [S.method]; exact hk.bare.ok.method, S.packed, S.original, S.name, by rw [S.crc, hk.crc]; simp [PadEntry.content], by rw [S.mode]; decide,
    S.entryName hk.osk, m, by rw [S.method]; exact hidx, hp⟩

theorem PadTells.stream {f : Fmt} {tab : Arr} (ht : makeCrcTable = .ok tab) {x : PadEntry} {g : Hdr} (S : PadTells f x g) (hf : Hf) (hok : GOk hf) (T : List Nat) :
    ∃ hf1, GOk hf1 ∧ extractOneStream (others tab) tab hf g (x.packed ++ T) = .ok (.ok ⟨x.content, crc16 0 x.content, x.packed.length, T, hf1⟩) := by
  obtain ⟨m, hidx, hp⟩ := S.known
  obtain ⟨hf1, ok1, hdec⟩ := hp.decodes ht hf hok T
  refine ⟨hf1, ok1, ?_⟩
  unfold extractOneStream
  simp only [hidx]
  rw [if_pos ⟨S.mode, hp.ndir⟩, S.original, S.packed, hdec, ok_bind]
  simp only []
  rw [if_neg S.crc]

theorem PadTells.verify {f : Fmt} {tab : Arr} (ht : makeCrcTable = .ok tab) {x : PadEntry} {g : Hdr} (S : PadTells f x g) (hf : Hf) (hok : GOk hf) (T : List Nat) :
    ∃ hf1, GOk hf1 ∧ verifyOne (others tab) tab Opts.default hf g (x.packed ++ T) = .ok (.ok ⟨x.packed.length, T, hf1, g.name, none⟩) := by
  obtain ⟨m, hidx, hp⟩ := S.known
  obtain ⟨hf1, ok1, hdec⟩ := hp.decodes ht hf hok T
  refine ⟨hf1, ok1, ?_⟩
  unfold verifyOne
  rw [S.entry, ok_bind]
  simp only [hidx]
  rw [if_pos ⟨S.mode, hp.ndir⟩, S.original, S.packed, hdec, ok_bind]
  simp only []
  rw [if_neg S.crc]

theorem testLoop_pads (f : Fmt) {tab : Arr} (ht : makeCrcTable = .ok tab) {t : List Nat} (htl : Tail t) (l : List PadEntry) :
    ∀ (n : Nat) (h : Hdr) (hf : Hf), l.length < n → (∀ x ∈ l, x.Good f) → GOk hf → h.method.length = 5 → FitsPad f h.name.length l →
      ∃ hf', GOk hf' ∧ testLoop f (others tab) tab Opts.default n h hf (l.flatMap PadEntry.bytes ++ t) = .ok (false, hf') := by
  induction l with
  | nil =>
    intro n h hf hn _ hok _ _
    obtain ⟨n, rfl⟩ : ∃ k, n = k + 1 := ⟨n - 1, by simp at hn; omega⟩
    refine ⟨hf, hok, ?_⟩
    unfold testLoop
    show (getHeader f tab h t >>= _) = _
    rcases tail_end f tab h htl with e | e
    · rw [e, ok_bind]
    · rw [e, ok_bind]
  | cons x l ih =>
    intro n h hf hn hl hok hm hfit
    obtain ⟨n, rfl⟩ : ∃ k, n = k + 1 := ⟨n - 1, by simp at hn; omega⟩
    obtain ⟨g, e1, S⟩ := x.parse f tab (hl x List.mem_cons_self) h hm hfit.1 (l.flatMap PadEntry.bytes ++ t)
    obtain ⟨hf1, ok1, hv⟩ := S.verify ht hf hok (l.flatMap PadEntry.bytes ++ t)
    obtain ⟨hf2, ok2, hr⟩ := ih n g hf1 (by simp at hn; omega) (fun y hy => hl y (List.mem_cons_of_mem _ hy)) ok1 S.method
      (by rw [S.name, List.length_append]; exact hfit.2)
    refine ⟨hf2, ok2, ?_⟩
    unfold testLoop
    rw [List.flatMap_cons, List.append_assoc, e1, ok_bind]
    simp only []
    rw [if_pos (by simp [needFile, Opts.default]), hv, ok_bind]
    simp only []
    rw [if_neg (by rw [S.packed]; simp)]
    exact hr

/-- **C105 (partial), testing with extended areas.**  Full statement: as for `C105_partial`, with extended areas, with the call that tests an archive.  Proved without extended headers, for names that lose their last byte,
with names that do not get longer. -/
theorem C105_extra_test_partial (f : Fmt) (tab : Arr) (ht : makeCrcTable = .ok tab) (l : List PadEntry) (hl : ∀ x ∈ l, x.Good f) (hfit : FitsPad f 1024 l)
    (t : List Nat) (htl : Tail t) (hf : Hf) (hok : GOk hf) :
    ∃ hf', GOk hf' ∧ commandTest f (others tab) tab Opts.default false hf (some (l.flatMap PadEntry.bytes ++ t)) = .ok (false, hf') := by
  obtain ⟨hf', ok', h⟩ := testLoop_pads f ht htl l ((l.flatMap PadEntry.bytes ++ t).length + 1) newHdr hf (by have := pads_length l t; omega) hl hok newHdr_method
    (by rw [newHdr_name]; exact hfit)
  refine ⟨hf', ok', ?_⟩
  unfold commandTest
  simp only [Bool.false_eq_true, if_false]
  rw [ok_bind, h]

theorem extractLoop_pads (f : Fmt) {tab : Arr} (ht : makeCrcTable = .ok tab) {t : List Nat} (htl : Tail t) (l : List PadEntry) :
    ∀ (n : Nat) (h : Hdr) (hf : Hf) (s : Sys), l.length < n → (∀ x ∈ l, x.Good f) → GOk hf → h.method.length = 5 → FitsPad f h.name.length l →
      (∀ x ∈ l, s.Creatable (lastName (x.name f)) ∧ s.node (lastName (x.name f)) = none) →
      (l.Pairwise fun a b => lastName (a.name f) ≠ lastName (b.name f)) →
      ∃ hf' s', GOk hf' ∧ extractLoopD f (others tab) tab Opts.default (needFile Opts.default) n h hf s (l.flatMap PadEntry.bytes ++ t) = .ok (false, s', hf') ∧
        (∀ x ∈ l, s'.node (lastName (x.name f)) = some (.file x.content s.fresh)) ∧
        (∀ n, (∀ x ∈ l, lastName (x.name f) ≠ n) → s'.node n = s.node n) ∧ s'.outside = s.outside ∧ s'.answers = s.answers := by
  induction l with
  | nil =>
    intro n h hf s hn _ hok _ _ _ _
    obtain ⟨n, rfl⟩ : ∃ k, n = k + 1 := ⟨n - 1, by simp at hn; omega⟩
    refine ⟨hf, s, hok, ?_, by simp, fun _ _ => rfl, rfl, rfl⟩
    unfold extractLoopD
    show (getHeader f tab h t >>= _) = _
    rcases tail_end f tab h htl with e | e
    · rw [e, ok_bind]
    · rw [e, ok_bind]
  | cons i l ih =>
    intro n h hf s hn hgood hok hm hinc hnew hdist
    obtain ⟨n, rfl⟩ : ∃ k, n = k + 1 := ⟨n - 1, by simp at hn; omega⟩
    rw [List.pairwise_cons] at hdist
    obtain ⟨hc, hnn⟩ := hnew i List.mem_cons_self
    obtain ⟨g, e1, K⟩ := i.parse f tab (hgood i List.mem_cons_self) h hm hinc.1 (l.flatMap PadEntry.bytes ++ t)
    have hinc' : FitsPad f g.name.length l := by rw [K.name, List.length_append]; exact hinc.2
    obtain ⟨m, hidx, hpk⟩ := K.known
    obtain ⟨hf1, ok1, hdec⟩ := hpk.decodes ht hf hok (l.flatMap PadEntry.bytes ++ t)
    have hx : extractOneD (others tab) tab Opts.default s hf g (i.packed ++ (l.flatMap PadEntry.bytes ++ t)) =
        .ok (some ⟨i.packed.length, l.flatMap PadEntry.bytes ++ t, hf1, g.name, some (lastName (i.name f), i.content)⟩,
          s.set (lastName (i.name f)) (.file i.content s.fresh)) := by
      unfold extractOneD
      rw [K.entry, ok_bind]
      simp only [hidx]
      rw [if_pos ⟨K.mode, hpk.ndir⟩]
      rw [show Opts.default.force = false from rfl, show inquireExtract s false (lastName (i.name f)) = .ok (true, s) by
        unfold inquireExtract; rw [lstat_of hc, hnn], ok_bind]
      simp only [Bool.true_eq_false, false_and, if_false]
      rw [if_pos (canCreate_of hc (Or.inl hnn)), K.original, K.packed, hdec, ok_bind]
      simp only []
      unfold Sys.write
      rw [hnn]
    have hnode : ∀ j ∈ l, (s.set (lastName (i.name f)) (.file i.content s.fresh)).node (lastName (j.name f)) = s.node (lastName (j.name f)) := by
      intro j hj
      show (if lastName (j.name f) = lastName (i.name f) then _ else s.node (lastName (j.name f))) = _
      rw [if_neg (fun h => hdist.1 j hj h.symm)]
    obtain ⟨hf', s', ok', r1, r2, r3, r4, r5⟩ := ih n { g with name := g.name } hf1 (s.set (lastName (i.name f)) (.file i.content s.fresh))
      (by simp at hn; omega) (fun j hj => hgood j (List.mem_cons_of_mem _ hj)) ok1 K.method hinc'
      (fun j hj => ⟨(hnew j (List.mem_cons_of_mem _ hj)).1, by rw [hnode j hj]; exact (hnew j (List.mem_cons_of_mem _ hj)).2⟩) hdist.2
    refine ⟨hf', s', ok', ?_, ?_, ?_, r4, r5⟩
    · conv in extractLoopD _ _ _ _ _ (n + 1) _ _ _ _ => unfold extractLoopD
      rw [List.flatMap_cons, List.append_assoc, e1, ok_bind]
      simp only []
      rw [if_pos (by simp [needFile, Opts.default]), hx, ok_bind]
      simp only []
      rw [if_neg (by rw [K.packed]; simp)]
      exact r1
    · intro j hj
      rcases List.mem_cons.mp hj with rfl | hj
      · rw [r3 _ (fun k hk hc => hdist.1 k hk hc.symm)]
        show (if lastName (j.name f) = lastName (j.name f) then some (Node.file j.content s.fresh) else _) = _
        rw [if_pos rfl]
      · exact r2 j hj
    · intro x hx
      rw [r3 x (fun j hj => hx j (List.mem_cons_of_mem _ hj))]
      show (if x = lastName (i.name f) then _ else s.node x) = s.node x
      rw [if_neg (fun hc => hx i List.mem_cons_self hc.symm)]

/-- The content of the last entry of that name; `d` if there is none. -/
def lastPad (f : Fmt) (want d : List Nat) (l : List PadEntry) : List Nat := l.foldl (fun d x => if x.name f = want then x.content else d) d

theorem extractBytesLoop_pads (f : Fmt) {tab : Arr} (ht : makeCrcTable = .ok tab) (want : List Nat) {t : List Nat} (htl : Tail t) (l : List PadEntry) :
    ∀ (n : Nat) (h : Hdr) (hf : Hf) (data : List Nat), l.length < n → (∀ x ∈ l, x.Good f) → GOk hf → h.method.length = 5 → FitsPad f h.name.length l →
      ∃ hf', GOk hf' ∧ extractBytesLoop f (others tab) tab (want ++ [0]) n h hf data (l.flatMap PadEntry.bytes ++ t) = .ok ⟨false, lastPad f want data l, hf'⟩ := by
  induction l with
  | nil =>
    intro n h hf data hn _ hok _ _
    obtain ⟨n, rfl⟩ : ∃ k, n = k + 1 := ⟨n - 1, by simp at hn; omega⟩
    refine ⟨hf, hok, ?_⟩
    unfold extractBytesLoop
    show (getHeader f tab h t >>= _) = _
    rcases tail_end f tab h htl with e | e
    · rw [e, ok_bind]; rfl
    · rw [e, ok_bind]; rfl
  | cons x l ih =>
    intro n h hf data hn hgood hok hm hinc
    obtain ⟨n, rfl⟩ : ∃ k, n = k + 1 := ⟨n - 1, by simp at hn; omega⟩
    obtain ⟨g, e1, S⟩ := x.parse f tab (hgood x List.mem_cons_self) h hm hinc.1 (l.flatMap PadEntry.bytes ++ t)
    obtain ⟨hf1, ok1, hx⟩ := S.stream ht hf hok (l.flatMap PadEntry.bytes ++ t)
    have p1 := S.packed
    have p2 := S.name
    have p3 := S.method
    have hgood' := fun y hy => hgood y (List.mem_cons_of_mem x hy)
    have hn' : l.length < n := by simp at hn; omega
    have hinc' : FitsPad f g.name.length l := by rw [p2, List.length_append]; exact hinc.2
    by_cases hwant : x.name f = want
    · obtain ⟨hf2, ok2, hr⟩ := ih n g hf1 x.content hn' hgood' ok1 p3 hinc'
      refine ⟨hf2, ok2, ?_⟩
      unfold extractBytesLoop
      rw [List.flatMap_cons, List.append_assoc, e1, ok_bind]
      simp only []
      rw [if_pos (by rw [p2, hwant]), hx, ok_bind]
      simp only []
      rw [if_neg (by rw [p1]; simp), hr]
      unfold lastPad
      rw [List.foldl_cons, if_pos hwant]
    · obtain ⟨hf2, ok2, hr⟩ := ih n g hf data hn' hgood' hok p3 hinc'
      refine ⟨hf2, ok2, ?_⟩
      unfold extractBytesLoop
      rw [List.flatMap_cons, List.append_assoc, e1, ok_bind]
      simp only []
      rw [if_neg (by rw [p2]; intro hc; exact hwant (List.append_cancel_right hc)), p1, skip_packed, hr]
      unfold lastPad
      rw [List.foldl_cons, if_neg hwant]

theorem lastPad_none (f : Fmt) (want : List Nat) (l : List PadEntry) : ∀ d, (∀ x ∈ l, x.name f ≠ want) → lastPad f want d l = d := by
  induction l with
  | nil => intro d _; rfl
  | cons x l ih =>
    intro d hx
    unfold lastPad
    rw [List.foldl_cons, if_neg (hx x List.mem_cons_self)]
    exact ih d (fun y hy => hx y (List.mem_cons_of_mem _ hy))

/-- **C105 (partial), reading with extended areas.**  Full statement: as for `C105_partial`, with extended areas, with `DecompresBytes` and each of the names listed.  Proved for files
of the methods of C42 with names that do not get longer (C30), for the last file of its name (C97). -/
theorem C105_extra_read_partial (f : Fmt) (tab : Arr) (ht : makeCrcTable = .ok tab) (l1 l2 : List PadEntry) (x : PadEntry)
    (hv : ∀ y ∈ l1 ++ x :: l2, y.Good f) (hlast : ∀ y ∈ l2, y.name f ≠ x.name f) (hinc : FitsPad f 1024 (l1 ++ x :: l2)) (t : List Nat) (htl : Tail t) (hf : Hf) (hok : GOk hf) :
    ∃ hf', GOk hf' ∧ decompresBytes f (others tab) tab false (x.name f ++ [0]) hf (some ((l1 ++ x :: l2).flatMap PadEntry.bytes ++ t)) = .ok ⟨false, x.content, hf'⟩ := by
  obtain ⟨hf', ok', h⟩ := extractBytesLoop_pads f ht (x.name f) htl (l1 ++ x :: l2)
    (((l1 ++ x :: l2).flatMap PadEntry.bytes ++ t).length + 1) newHdr hf [] (by have := pads_length (l1 ++ x :: l2) t; omega)
    hv hok newHdr_method (by rw [newHdr_name]; exact hinc)
  refine ⟨hf', ok', ?_⟩
  unfold decompresBytes
  simp only [Bool.false_eq_true, if_false]
  rw [ok_bind, h]
  have : lastPad f (x.name f) [] (l1 ++ x :: l2) = x.content := by
    unfold lastPad
    rw [List.foldl_append, List.foldl_cons, if_pos rfl]
    exact lastPad_none f _ l2 _ hlast
  rw [this]

/-- **C105 (partial), extraction with extended areas.**  Full statement: `CommandExtract` extracts all the files, whatever is in their extended areas.  Proved for files as in
`C105_extra_read_partial` whose last names are new and differ. -/
theorem C105_extra_extract_partial (f : Fmt) (tab : Arr) (ht : makeCrcTable = .ok tab) (t : List Nat) (htl : Tail t) (l : List PadEntry) (hl : ∀ x ∈ l, x.Good f)
    (hf : Hf) (hok : GOk hf) (s : Sys) (hfit : FitsPad f 1024 l) (hnew : ∀ x ∈ l, s.Creatable (lastName (x.name f)) ∧ s.node (lastName (x.name f)) = none)
    (hdist : l.Pairwise fun a b => lastName (a.name f) ≠ lastName (b.name f)) :
    ∃ hf' s', GOk hf' ∧ commandExtractD f (others tab) tab Opts.default false hf s (some (l.flatMap PadEntry.bytes ++ t)) = .ok (false, s', hf') ∧
      (∀ x ∈ l, s'.node (lastName (x.name f)) = some (.file x.content s.fresh)) ∧
      (∀ n, (∀ x ∈ l, lastName (x.name f) ≠ n) → s'.node n = s.node n) ∧ s'.outside = s.outside ∧ s'.answers = s.answers := by
  obtain ⟨hf', s', ok', h, r⟩ := extractLoop_pads f ht htl l ((l.flatMap PadEntry.bytes ++ t).length + 1) newHdr hf s (by have := pads_length l t; omega) hl hok newHdr_method
    (by rw [newHdr_name]; exact hfit) hnew hdist
  refine ⟨hf', s', ok', ?_, r⟩
  unfold commandExtractD
  simp only [Bool.false_eq_true, if_false]
  rw [ok_bind, h]

/-- Cases covered: `x/fb` with two bytes in the extended area, then `Qc` with none. -/
def padPair : List PadEntry := [⟨full1 [120, 47, 102, 98], [5, 6]⟩, ⟨void1 [81, 99], []⟩]

theorem padPair_good : ∀ x ∈ padPair, x.Good ⟨false, true⟩ := by
  intro x hx
  simp only [padPair, List.mem_cons, List.not_mem_nil, or_false] at hx
  rcases hx with rfl | rfl
  · exact ⟨full1_kept _ _ (by decide) (by decide) (by decide) (by decide), by decide⟩
  · exact ⟨void1_kept _ _ (by decide) (by decide) (by decide) (by decide), by decide⟩

example (tab : Arr) (ht : makeCrcTable = .ok tab) (hf : Hf) (hok : GOk hf) : ∃ hf', GOk hf' ∧ commandTest ⟨false, true⟩ (others tab) tab Opts.default false hf
    (some (padPair.flatMap PadEntry.bytes ++ [0])) = .ok (false, hf') :=
  C105_extra_test_partial ⟨false, true⟩ tab ht _ padPair_good ⟨by decide, by decide, trivial⟩ [0] (Or.inr ⟨[], rfl⟩) hf hok

example (tab : Arr) (ht : makeCrcTable = .ok tab) (hf : Hf) (hok : GOk hf) : ∃ hf' s', GOk hf' ∧ commandExtractD ⟨false, true⟩ (others tab) tab Opts.default false hf Sys.sample
    (some (padPair.flatMap PadEntry.bytes ++ [0])) = .ok (false, s', hf') ∧ s'.node [102] = some (.file [65] Sys.sample.fresh) := by
  obtain ⟨hf', s', a1, a2, a3, _⟩ := C105_extra_extract_partial ⟨false, true⟩ tab ht [0] (Or.inr ⟨[], rfl⟩) _ padPair_good hf hok Sys.sample ⟨by decide, by decide, trivial⟩
    (by
      intro x hx
      simp only [padPair, List.mem_cons, List.not_mem_nil, or_false] at hx
      rcases hx with rfl | rfl
      · exact ⟨⟨by decide, by decide, rfl⟩, rfl⟩
      · exact ⟨⟨by decide, by decide, rfl⟩, rfl⟩)
    (by decide)
  exact ⟨hf', s', a1, a2, a3 ⟨full1 [120, 47, 102, 98], [5, 6]⟩ (by simp [padPair])⟩

example (tab : Arr) (ht : makeCrcTable = .ok tab) (hf : Hf) (hok : GOk hf) : ∃ hf', GOk hf' ∧ decompresBytes ⟨false, true⟩ (others tab) tab false [120, 47, 102, 0] hf
    (some (padPair.flatMap PadEntry.bytes ++ [0])) = .ok ⟨false, [65], hf'⟩ :=
  C105_extra_read_partial ⟨false, true⟩ tab ht [] [⟨void1 [81, 99], []⟩] ⟨full1 [120, 47, 102, 98], [5, 6]⟩ padPair_good
    (by intro y hy; simp only [List.mem_cons, List.not_mem_nil, or_false] at hy; subst hy; decide) ⟨by decide, by decide, trivial⟩ [0] (Or.inr ⟨[], rfl⟩) hf hok

end Lha
