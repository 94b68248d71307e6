import Verif.Props.C100Unix
import Verif.Props.C120Disk
/-!
# C100: Unix entries with longer headers are read, tested and extracted
-/

namespace Lha

open Spec

/-- A Unix entry and what its header ends with. -/
structure LongEntry where
  entry : Entry
  more : List Nat

def LongEntry.bytes (x : LongEntry) : List Nat := x.entry.longer x.more

/-- The name; it does not depend on the options. -/
def LongEntry.name (_ : Fmt) (x : LongEntry) : List Nat := x.entry.name

def LongEntry.content (x : LongEntry) : List Nat := x.entry.content

def LongEntry.packed (x : LongEntry) : List Nat := x.entry.packed

/-- A file of a known method whose packed data and checksum are right. -/
def LongEntry.Good (x : LongEntry) : Prop := (Sound x.entry ∧ x.entry.crc = crc16 0 x.entry.content) ∧ x.entry.name.length + x.more.length ≤ 221

theorem longs_length (l : List LongEntry) (t : List Nat) : l.length ≤ (l.flatMap LongEntry.bytes ++ t).length := by
  induction l with
  | nil => simp
  | cons x l ih =>
    rw [List.flatMap_cons, List.append_assoc, List.length_append, List.length_cons]
    have : 0 < x.bytes.length := by simp [LongEntry.bytes, Entry.longer]
    omega

/-- The names do not get longer (see C30). -/
def FitsLong (f : Fmt) : Nat → List LongEntry → Prop
  | _, [] => True
  | n, x :: l => (x.name f).length < n ∧ FitsLong f ((x.name f).length + 1) l

/-- What a header says about an entry with a longer header. -/
structure LongTells (f : Fmt) (x : LongEntry) (g : Hdr) : Prop where
  method : g.method.length = 5
  packed : g.packedSize = x.packed.length
  original : g.originalSize = x.content.length
  name : g.name = x.name f ++ [0]
  crc : ¬ (g.hasCrc = true ∧ crc16 0 x.content ≠ g.crc)
  mode : fileType g.mode = 0o100000
  entry : entryName Opts.default g = .ok (some (lastName (x.name f), g.name))
  known : ∃ m, methods.findIdx? (· = g.method) = some m ∧ Packed m x.packed x.content

theorem LongEntry.parse (f : Fmt) (_ : f.generic = false) (tab : Arr) (x : LongEntry) (hx : x.Good) (h : Hdr) (hm : h.method.length = 5) (hn : (x.name f).length < h.name.length) (R : List Nat) :
    ∃ g, getHeader f tab h (x.bytes ++ R) = .ok (.got g (x.packed ++ R)) ∧ LongTells f x g := by
  obtain ⟨⟨⟨ho, hk, m, hidx, hp⟩, hcrc⟩, hX⟩ := hx
  obtain ⟨g, e1, P⟩ := longer_parse f tab x.entry ho x.more hX h hm hn R
  exact ⟨g, e1, by rw [P.method]; exact ho.method, P.packed, P.original, P.name, by rw [P.crc, hcrc]; simp [LongEntry.content], (P.fileType ho).trans hk, P.entryName,
    m, by rw [P.method]; exact hidx, hp⟩

theorem LongTells.stream {f : Fmt} {tab : Arr} (ht : makeCrcTable = .ok tab) {x : LongEntry} {g : Hdr} (S : LongTells f x g) (hf : Hf) (hok : GOk hf) (T : List Nat) :
    ∃ hf1, GOk hf1 ∧ extractOneStream (others tab) tab hf g (x.packed ++ T) = .ok (.ok ⟨x.content, crc16 0 x.content, x.packed.length, T, hf1⟩) := by
  obtain ⟨m, hidx, hp⟩ := S.known
  obtain ⟨hf1, ok1, hdec⟩ := hp.decodes ht hf hok T
  refine ⟨hf1, ok1, ?_⟩
  unfold extractOneStream
  simp only [hidx]
  rw [if_pos ⟨S.mode, hp.ndir⟩, S.original, S.packed, hdec, ok_bind]
  simp only []
  rw [if_neg S.crc]

theorem LongTells.verify {f : Fmt} {tab : Arr} (ht : makeCrcTable = .ok tab) {x : LongEntry} {g : Hdr} (S : LongTells f x g) (hf : Hf) (hok : GOk hf) (T : List Nat) :
    ∃ hf1, GOk hf1 ∧ verifyOne (others tab) tab Opts.default hf g (x.packed ++ T) = .ok (.ok ⟨x.packed.length, T, hf1, g.name, none⟩) := by
  obtain ⟨m, hidx, hp⟩ := S.known
  obtain ⟨hf1, ok1, hdec⟩ := hp.decodes ht hf hok T
  refine ⟨hf1, ok1, ?_⟩
  unfold verifyOne
  rw [S.entry, ok_bind]
  simp only [hidx]
  rw [if_pos ⟨S.mode, hp.ndir⟩, S.original, S.packed, hdec, ok_bind]
  simp only []
  rw [if_neg S.crc]

theorem testLoop_longs (f : Fmt) (hg : f.generic = false) {tab : Arr} (ht : makeCrcTable = .ok tab) {t : List Nat} (htl : Tail t) (l : List LongEntry) :
    ∀ (n : Nat) (h : Hdr) (hf : Hf), l.length < n → (∀ x ∈ l, x.Good) → GOk hf → h.method.length = 5 → FitsLong f h.name.length l →
      ∃ hf', GOk hf' ∧ testLoop f (others tab) tab Opts.default n h hf (l.flatMap LongEntry.bytes ++ t) = .ok (false, hf') := by
  induction l with
  | nil =>
    intro n h hf hn _ hok _ _
    obtain ⟨n, rfl⟩ : ∃ k, n = k + 1 := ⟨n - 1, by simp at hn; omega⟩
    refine ⟨hf, hok, ?_⟩
    unfold testLoop
    show (getHeader f tab h t >>= _) = _
    rcases tail_end f tab h htl with e | e
    · rw [e, ok_bind]
    · rw [e, ok_bind]
  | cons x l ih =>
    intro n h hf hn hl hok hm hfit
    obtain ⟨n, rfl⟩ : ∃ k, n = k + 1 := ⟨n - 1, by simp at hn; omega⟩
    obtain ⟨g, e1, S⟩ := x.parse f hg tab (hl x List.mem_cons_self) h hm hfit.1 (l.flatMap LongEntry.bytes ++ t)
    obtain ⟨hf1, ok1, hv⟩ := S.verify ht hf hok (l.flatMap LongEntry.bytes ++ t)
    obtain ⟨hf2, ok2, hr⟩ := ih n g hf1 (by simp at hn; omega) (fun y hy => hl y (List.mem_cons_of_mem _ hy)) ok1 S.method
      (by rw [S.name, List.length_append]; exact hfit.2)
    refine ⟨hf2, ok2, ?_⟩
    unfold testLoop
    rw [List.flatMap_cons, List.append_assoc, e1, ok_bind]
    simp only []
    rw [if_pos (by simp [needFile, Opts.default]), hv, ok_bind]
    simp only []
    rw [if_neg (by rw [S.packed]; simp)]
    exact hr

/-- **C100 (partial), testing archives with longer headers.**  Full statement: as for `C100_unix_partial`, with the call that tests an archive.  Proved for files of the methods of C42
with names that do not get longer. -/
theorem C100_longer_test_partial (f : Fmt) (hg : f.generic = false) (tab : Arr) (ht : makeCrcTable = .ok tab) (l : List LongEntry) (hl : ∀ x ∈ l, x.Good) (hfit : FitsLong f 1024 l)
    (t : List Nat) (htl : Tail t) (hf : Hf) (hok : GOk hf) :
    ∃ hf', GOk hf' ∧ commandTest f (others tab) tab Opts.default false hf (some (l.flatMap LongEntry.bytes ++ t)) = .ok (false, hf') := by
  obtain ⟨hf', ok', h⟩ := testLoop_longs f hg ht htl l ((l.flatMap LongEntry.bytes ++ t).length + 1) newHdr hf (by have := longs_length l t; omega) hl hok newHdr_method
    (by rw [newHdr_name]; exact hfit)
  refine ⟨hf', ok', ?_⟩
  unfold commandTest
  simp only [Bool.false_eq_true, if_false]
  rw [ok_bind, h]

theorem extractLoop_longs (f : Fmt) (hg : f.generic = false) {tab : Arr} (ht : makeCrcTable = .ok tab) {t : List Nat} (htl : Tail t) (l : List LongEntry) :
    ∀ (n : Nat) (h : Hdr) (hf : Hf) (s : Sys), l.length < n → (∀ x ∈ l, x.Good) → GOk hf → h.method.length = 5 → FitsLong f h.name.length l →
      (∀ x ∈ l, s.Creatable (lastName (x.name f)) ∧ s.node (lastName (x.name f)) = none) →
      (l.Pairwise fun a b => lastName (a.name f) ≠ lastName (b.name f)) →
      ∃ hf' s', GOk hf' ∧ extractLoopD f (others tab) tab Opts.default (needFile Opts.default) n h hf s (l.flatMap LongEntry.bytes ++ t) = .ok (false, s', hf') ∧
        (∀ x ∈ l, s'.node (lastName (x.name f)) = some (.file x.content s.fresh)) ∧
        (∀ n, (∀ x ∈ l, lastName (x.name f) ≠ n) → s'.node n = s.node n) ∧ s'.outside = s.outside ∧ s'.answers = s.answers := by
  induction l with
  | nil =>
    intro n h hf s hn _ hok _ _ _ _
    obtain ⟨n, rfl⟩ : ∃ k, n = k + 1 := ⟨n - 1, by simp at hn; omega⟩
    refine ⟨hf, s, hok, ?_, by simp, fun _ _ => rfl, rfl, rfl⟩
    unfold extractLoopD
    show (getHeader f tab h t >>= _) = _
    rcases tail_end f tab h htl with e | e
    · rw [e, ok_bind]
    · rw [e, ok_bind]
  | cons i l ih =>
    intro n h hf s hn hgood hok hm hinc hnew hdist
    obtain ⟨n, rfl⟩ : ∃ k, n = k + 1 := ⟨n - 1, by simp at hn; omega⟩
    rw [List.pairwise_cons] at hdist
    obtain ⟨hc, hnn⟩ := hnew i List.mem_cons_self
    obtain ⟨g, e1, K⟩ := i.parse f hg tab (hgood i List.mem_cons_self) h hm hinc.1 (l.flatMap LongEntry.bytes ++ t)
    have hinc' : FitsLong f g.name.length l := by rw [K.name, List.length_append]; exact hinc.2
    obtain ⟨m, hidx, hpk⟩ := K.known
    obtain ⟨hf1, ok1, hdec⟩ := hpk.decodes ht hf hok (l.flatMap LongEntry.bytes ++ t)
    have hx : extractOneD (others tab) tab Opts.default s hf g (i.packed ++ (l.flatMap LongEntry.bytes ++ t)) =
        .ok (some ⟨i.packed.length, l.flatMap LongEntry.bytes ++ t, hf1, g.name, some (lastName (i.name f), i.content)⟩,
          s.set (lastName (i.name f)) (.file i.content s.fresh)) := by
      unfold extractOneD
      rw [K.entry, ok_bind]
      simp only [hidx]
      rw [if_pos ⟨K.mode, hpk.ndir⟩]
      rw [show Opts.default.force = false from rfl, show inquireExtract s false (lastName (i.name f)) = .ok (true, s) by
        unfold inquireExtract; rw [lstat_of hc, hnn], ok_bind]
      simp only [Bool.true_eq_false, false_and, if_false]
      rw [if_pos (canCreate_of hc (Or.inl hnn)), K.original, K.packed, hdec, ok_bind]
      simp only []
      unfold Sys.write
      rw [hnn]
    have hnode : ∀ j ∈ l, (s.set (lastName (i.name f)) (.file i.content s.fresh)).node (lastName (j.name f)) = s.node (lastName (j.name f)) := by
      intro j hj
      show (if lastName (j.name f) = lastName (i.name f) then _ else s.node (lastName (j.name f))) = _
      rw [if_neg (fun h => hdist.1 j hj h.symm)]
    obtain ⟨hf', s', ok', r1, r2, r3, r4, r5⟩ := ih n { g with name := g.name } hf1 (s.set (lastName (i.name f)) (.file i.content s.fresh))
      (by simp at hn; omega) (fun j hj => hgood j (List.mem_cons_of_mem _ hj)) ok1 K.method hinc'
      (fun j hj => ⟨(hnew j (List.mem_cons_of_mem _ hj)).1, by rw [hnode j hj]; exact (hnew j (List.mem_cons_of_mem _ hj)).2⟩) hdist.2
    refine ⟨hf', s', ok', ?_, ?_, ?_, r4, r5⟩
    · conv in extractLoopD _ _ _ _ _ (n + 1) _ _ _ _ => unfold extractLoopD
      rw [List.flatMap_cons, List.append_assoc, e1, ok_bind]
      simp only []
      rw [if_pos (by simp [needFile, Opts.default]), hx, ok_bind]
      simp only []
      rw [if_neg (by rw [K.packed]; simp)]
      exact r1
    · intro j hj
      rcases List.mem_cons.mp hj with rfl | hj
      · rw [r3 _ (fun k hk hc => hdist.1 k hk hc.symm)]
        show (if lastName (j.name f) = lastName (j.name f) then some (Node.file j.content s.fresh) else _) = _
        rw [if_pos rfl]
      · exact r2 j hj
    · intro x hx
      rw [r3 x (fun j hj => hx j (List.mem_cons_of_mem _ hj))]
      show (if x = lastName (i.name f) then _ else s.node x) = s.node x
      rw [if_neg (fun hc => hx i List.mem_cons_self hc.symm)]

/-- The content of the last entry of that name; `d` if there is none. -/
def lastLong (f : Fmt) (want d : List Nat) (l : List LongEntry) : List Nat := l.foldl (fun d x => if x.name f = want then x.content else d) d

theorem extractBytesLoop_longs (f : Fmt) (hg : f.generic = false) {tab : Arr} (ht : makeCrcTable = .ok tab) (want : List Nat) {t : List Nat} (htl : Tail t) (l : List LongEntry) :
    ∀ (n : Nat) (h : Hdr) (hf : Hf) (data : List Nat), l.length < n → (∀ x ∈ l, x.Good) → GOk hf → h.method.length = 5 → FitsLong f h.name.length l →
      ∃ hf', GOk hf' ∧ extractBytesLoop f (others tab) tab (want ++ [0]) n h hf data (l.flatMap LongEntry.bytes ++ t) = .ok ⟨false, lastLong f want data l, hf'⟩ := by
  induction l with
  | nil =>
    intro n h hf data hn _ hok _ _
    obtain ⟨n, rfl⟩ : ∃ k, n = k + 1 := ⟨n - 1, by simp at hn; omega⟩
    refine ⟨hf, hok, ?_⟩
    unfold extractBytesLoop
    show (getHeader f tab h t >>= _) = _
    rcases tail_end f tab h htl with e | e
    · rw [e, ok_bind]; rfl
    · rw [e, ok_bind]; rfl
  | cons x l ih =>
    intro n h hf data hn hgood hok hm hinc
    obtain ⟨n, rfl⟩ : ∃ k, n = k + 1 := ⟨n - 1, by simp at hn; omega⟩
    obtain ⟨g, e1, S⟩ := x.parse f hg tab (hgood x List.mem_cons_self) h hm hinc.1 (l.flatMap LongEntry.bytes ++ t)
    obtain ⟨hf1, ok1, hx⟩ := S.stream ht hf hok (l.flatMap LongEntry.bytes ++ t)
    have p1 := S.packed
    have p2 := S.name
    have p3 := S.method
    have hgood' := fun y hy => hgood y (List.mem_cons_of_mem x hy)
    have hn' : l.length < n := by simp at hn; omega
    have hinc' : FitsLong f g.name.length l := by rw [p2, List.length_append]; exact hinc.2
    by_cases hwant : x.name f = want
    · obtain ⟨hf2, ok2, hr⟩ := ih n g hf1 x.content hn' hgood' ok1 p3 hinc'
      refine ⟨hf2, ok2, ?_⟩
      unfold extractBytesLoop
      rw [List.flatMap_cons, List.append_assoc, e1, ok_bind]
      simp only []
      rw [if_pos (by rw [p2, hwant]), hx, ok_bind]
      simp only []
      rw [if_neg (by rw [p1]; simp), hr]
      unfold lastLong
      rw [List.foldl_cons, if_pos hwant]
    · obtain ⟨hf2, ok2, hr⟩ := ih n g hf data hn' hgood' hok p3 hinc'
      refine ⟨hf2, ok2, ?_⟩
      unfold extractBytesLoop
      rw [List.flatMap_cons, List.append_assoc, e1, ok_bind]
      simp only []
      rw [if_neg (by rw [p2]; intro hc; exact hwant (List.append_cancel_right hc)), p1, skip_packed, hr]
      unfold lastLong
      rw [List.foldl_cons, if_neg hwant]

theorem lastLong_none (f : Fmt) (want : List Nat) (l : List LongEntry) : ∀ d, (∀ x ∈ l, x.name f ≠ want) → lastLong f want d l = d := by
  induction l with
  | nil => intro d _; rfl
  | cons x l ih =>
    intro d hx
    unfold lastLong
    rw [List.foldl_cons, if_neg (hx x List.mem_cons_self)]
    exact ih d (fun y hy => hx y (List.mem_cons_of_mem _ hy))

/-- **C100 (partial), reading from archives with longer headers.**  Full statement: as for `C100_unix_partial`, with `DecompresBytes` and each of the names listed.  Proved for files
of the methods of C42 with names that do not get longer (C30), for the last file of its name (C97). -/
theorem C100_longer_read_partial (f : Fmt) (hg : f.generic = false) (tab : Arr) (ht : makeCrcTable = .ok tab) (l1 l2 : List LongEntry) (x : LongEntry)
    (hv : ∀ y ∈ l1 ++ x :: l2, y.Good) (hlast : ∀ y ∈ l2, y.name f ≠ x.name f) (hinc : FitsLong f 1024 (l1 ++ x :: l2)) (t : List Nat) (htl : Tail t) (hf : Hf) (hok : GOk hf) :
    ∃ hf', GOk hf' ∧ decompresBytes f (others tab) tab false (x.name f ++ [0]) hf (some ((l1 ++ x :: l2).flatMap LongEntry.bytes ++ t)) = .ok ⟨false, x.content, hf'⟩ := by
  obtain ⟨hf', ok', h⟩ := extractBytesLoop_longs f hg ht (x.name f) htl (l1 ++ x :: l2)
    (((l1 ++ x :: l2).flatMap LongEntry.bytes ++ t).length + 1) newHdr hf [] (by have := longs_length (l1 ++ x :: l2) t; omega)
    hv hok newHdr_method (by rw [newHdr_name]; exact hinc)
  refine ⟨hf', ok', ?_⟩
  unfold decompresBytes
  simp only [Bool.false_eq_true, if_false]
  rw [ok_bind, h]
  have : lastLong f (x.name f) [] (l1 ++ x :: l2) = x.content := by
    unfold lastLong
    rw [List.foldl_append, List.foldl_cons, if_pos rfl]
    exact lastLong_none f _ l2 _ hlast
  rw [this]

/-- **C100 (partial), extraction from archives with longer headers.**  Full statement: `CommandExtract` extracts all the files, whatever their headers end with.  Proved for files as in
`C100_longer_read_partial` whose last names are new and differ. -/
theorem C100_longer_extract_partial (f : Fmt) (hg : f.generic = false) (tab : Arr) (ht : makeCrcTable = .ok tab) (t : List Nat) (htl : Tail t) (l : List LongEntry) (hl : ∀ x ∈ l, x.Good)
    (hf : Hf) (hok : GOk hf) (s : Sys) (hfit : FitsLong f 1024 l) (hnew : ∀ x ∈ l, s.Creatable (lastName (x.name f)) ∧ s.node (lastName (x.name f)) = none)
    (hdist : l.Pairwise fun a b => lastName (a.name f) ≠ lastName (b.name f)) :
    ∃ hf' s', GOk hf' ∧ commandExtractD f (others tab) tab Opts.default false hf s (some (l.flatMap LongEntry.bytes ++ t)) = .ok (false, s', hf') ∧
      (∀ x ∈ l, s'.node (lastName (x.name f)) = some (.file x.content s.fresh)) ∧
      (∀ n, (∀ x ∈ l, lastName (x.name f) ≠ n) → s'.node n = s.node n) ∧ s'.outside = s.outside ∧ s'.answers = s.answers := by
  obtain ⟨hf', s', ok', h, r⟩ := extractLoop_longs f hg ht htl l ((l.flatMap LongEntry.bytes ++ t).length + 1) newHdr hf s (by have := longs_length l t; omega) hl hok newHdr_method
    (by rw [newHdr_name]; exact hfit) hnew hdist
  refine ⟨hf', s', ok', ?_, r⟩
  unfold commandExtractD
  simp only [Bool.false_eq_true, if_false]
  rw [ok_bind, h]

/-- Cases covered: `x/e` with three bytes behind the group, then `q` with none. -/
def longPair : List LongEntry := [⟨sampleEntry [45, 108, 122, 115, 45] [120, 47, 101] [0xa0, 0x80] [65], [7, 8, 9]⟩, ⟨sampleEntry [45, 108, 122, 115, 45] [113] [0xa0, 0x80] [65], []⟩]

theorem longPair_good : ∀ x ∈ longPair, x.Good := by
  intro x hx
  simp only [longPair, List.mem_cons, List.not_mem_nil, or_false] at hx
  rcases hx with rfl | rfl
  · exact ⟨⟨sample_sound [120, 47, 101] (by decide) (by decide) (by decide), rfl⟩, by decide⟩
  · exact ⟨⟨sample_sound [113] (by decide) (by decide) (by decide), rfl⟩, by decide⟩

example (tab : Arr) (ht : makeCrcTable = .ok tab) (hf : Hf) (hok : GOk hf) : ∃ hf', GOk hf' ∧ commandTest ⟨false, true⟩ (others tab) tab Opts.default false hf
    (some (longPair.flatMap LongEntry.bytes ++ [0])) = .ok (false, hf') :=
  C100_longer_test_partial ⟨false, true⟩ rfl tab ht _ longPair_good ⟨by decide, by decide, trivial⟩ [0] (Or.inr ⟨[], rfl⟩) hf hok

example (tab : Arr) (ht : makeCrcTable = .ok tab) (hf : Hf) (hok : GOk hf) : ∃ hf' s', GOk hf' ∧ commandExtractD ⟨false, true⟩ (others tab) tab Opts.default false hf Sys.sample
    (some (longPair.flatMap LongEntry.bytes ++ [0])) = .ok (false, s', hf') ∧ s'.node [113] = some (.file [65] Sys.sample.fresh) := by
  obtain ⟨hf', s', a1, a2, a3, _⟩ := C100_longer_extract_partial ⟨false, true⟩ rfl tab ht [0] (Or.inr ⟨[], rfl⟩) _ longPair_good hf hok Sys.sample ⟨by decide, by decide, trivial⟩
    (by
      intro x hx
      simp only [longPair, List.mem_cons, List.not_mem_nil, or_false] at hx
      rcases hx with rfl | rfl
      · exact ⟨⟨by decide, by decide, rfl⟩, rfl⟩
      · exact ⟨⟨by decide, by decide, rfl⟩, rfl⟩)
    (by decide)
  exact ⟨hf', s', a1, a2, a3 ⟨sampleEntry [45, 108, 122, 115, 45] [113] [0xa0, 0x80] [65], []⟩ (by simp [longPair])⟩

example (tab : Arr) (ht : makeCrcTable = .ok tab) (hf : Hf) (hok : GOk hf) : ∃ hf', GOk hf' ∧ decompresBytes ⟨false, true⟩ (others tab) tab false [113, 0] hf
    (some (longPair.flatMap LongEntry.bytes ++ [0])) = .ok ⟨false, [65], hf'⟩ :=
  C100_longer_read_partial ⟨false, true⟩ rfl tab ht [⟨sampleEntry [45, 108, 122, 115, 45] [120, 47, 101] [0xa0, 0x80] [65], [7, 8, 9]⟩] []
    ⟨sampleEntry [45, 108, 122, 115, 45] [113] [0xa0, 0x80] [65], []⟩ longPair_good (by simp) ⟨by decide, by decide, trivial⟩ [0] (Or.inr ⟨[], rfl⟩) hf hok

end Lha
