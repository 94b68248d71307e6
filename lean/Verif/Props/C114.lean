import Verif.Props.C105
/-!
# C114: archives put together by different programs

Files of Unix and of other systems with level-0 headers, and files with level-1 headers, in one archive, in any order.
-/

namespace Lha

open Spec

/-- A file in an archive. -/
inductive Member
  | unix (e : Entry)
  | other (a : Alien)
  | level1 (e : Entry1)

namespace Member

/-- Its part of the archive. -/
def bytes : Member → List Nat
  | unix e => e.bytes
  | other a => a.bytes
  | level1 e => e.bytes

def packed : Member → List Nat
  | unix e => e.packed
  | other a => a.packed
  | level1 e => e.packed

def content : Member → List Nat
  | unix e => e.content
  | other a => a.content
  | level1 e => e.content

/-- The name it is known by: that of the archive; for other systems see C101; without its last byte if the header is of level 1 (C52, C105). -/
def name (f : Fmt) : Member → List Nat
  | unix e => e.name
  | other a => a.shown f.convertCase
  | level1 e => Entry1.cut f e

/-- How long the name in the header used before must be (C30), NUL included. -/
def room : Member → Nat
  | unix e => e.name.length + 1
  | other a => a.name.length + 1
  | level1 e => e.name.length

/-- An ordinary file of a known method whose packed data and checksum are right; of other systems: with the letter of the system. -/
def Good (f : Fmt) : Member → Prop
  | unix e => Sound e ∧ e.crc = crc16 0 e.content
  | other a => a.Ok ∧ 0xff ∉ a.name ∧ (a.Osk → 0x2f ∉ a.shown f.convertCase) ∧ a.os ≠ [] ∧ a.crc = crc16 0 a.content ∧
      ∃ m, methods.findIdx? (· = a.method) = some m ∧ Packed m a.packed a.content
  | level1 e => Kept1 f e

end Member

/-- What a header says about a member. -/
structure Tells (f : Fmt) (x : Member) (g : Hdr) : Prop where
  method : g.method.length = 5
  packed : g.packedSize = x.packed.length
  original : g.originalSize = x.content.length
  name : g.name = x.name f ++ [0]
  crc : g.crc = crc16 0 x.content
  mode : fileType g.mode = 0o100000
  entry : entryName Opts.default g = .ok (some (lastName (x.name f), g.name))
  known : ∃ m, methods.findIdx? (· = g.method) = some m ∧ Packed m x.packed x.content

theorem Member.parse (f : Fmt) (hg : f.generic = false) (tab : Arr) (x : Member) (hx : x.Good f) (h : Hdr) (hm : h.method.length = 5) (hn : x.room ≤ h.name.length) (R : List Nat) :
    ∃ g, getHeader f tab h (x.bytes ++ R) = .ok (.got g (x.packed ++ R)) ∧ Tells f x g := by
  cases x with
  | unix e =>
    obtain ⟨hs, hc⟩ := hx
    obtain ⟨g, e1, P⟩ := entry_parse f hg tab e hs.ok h hm hn R
    exact ⟨g, e1, by rw [P.method]; exact hs.ok.method, P.packed, P.original, P.name, by rw [P.crc]; exact hc, (P.fileType hs.ok).trans hs.kind, P.entryName,
      by rw [P.method]; exact hs.packed⟩
  | other a =>
    obtain ⟨ho, hff, hosk, hos, hc, hp⟩ := hx
    obtain ⟨g, e1, P, hsys⟩ := alien_parse f tab a ho hff h hm hn (fun h => absurd h hos) R
    exact ⟨g, e1, by rw [P.method]; exact ho.method, P.packed, P.original, P.name, by rw [P.crc]; exact hc, by rw [P.mode]; decide, P.entryName hsys hosk,
      by rw [P.method]; exact hp⟩
  | level1 e =>
    obtain ⟨g, e1, P⟩ := level1_parse f tab e hx.bare h hm hn R
    exact ⟨g, e1, by rw [P.method]; exact hx.bare.ok.method, P.packed, P.original, P.name, by rw [P.crc]; exact hx.crc, by rw [P.mode]; decide, P.entryName hx.osk,
      by rw [P.method]; exact hx.packed⟩

theorem Member.pos (x : Member) : 0 < x.bytes.length := by
  cases x with
  | unix e => unfold Member.bytes Entry.bytes Entry.header; simp
  | other a => unfold Member.bytes Alien.bytes; simp
  | level1 e => exact entry1_pos e

theorem members_length (l : List Member) (X : List Nat) : l.length ≤ (l.flatMap Member.bytes ++ X).length := by
  induction l with
  | nil => simp
  | cons x l ih =>
    have := x.pos
    rw [List.flatMap_cons, List.append_assoc, List.length_append, List.length_cons]
    omega

/-- The names do not get longer (see C30). -/
def FitsM (f : Fmt) : Nat → List Member → Prop
  | _, [] => True
  | n, x :: l => x.room ≤ n ∧ FitsM f ((x.name f).length + 1) l

theorem Tells.verify {f : Fmt} {tab : Arr} (ht : makeCrcTable = .ok tab) {x : Member} {g : Hdr} (S : Tells f x g) (hf : Hf) (hok : GOk hf) (T : List Nat) :
    ∃ hf1, GOk hf1 ∧ verifyOne (others tab) tab Opts.default hf g (x.packed ++ T) = .ok (.ok ⟨x.packed.length, T, hf1, g.name, none⟩) := by
  obtain ⟨m, hidx, hp⟩ := S.known
  obtain ⟨hf1, ok1, hdec⟩ := hp.decodes ht hf hok T
  refine ⟨hf1, ok1, ?_⟩
  unfold verifyOne
  rw [S.entry, ok_bind]
  simp only [hidx]
  rw [if_pos ⟨S.mode, hp.ndir⟩, S.original, S.packed, hdec, ok_bind]
  simp only []
  rw [if_neg (by rw [S.crc]; simp)]

theorem Member.room_le {f : Fmt} {x : Member} (hx : x.Good f) : x.room ≤ 1024 := by
  cases x with
  | unix e => have := hx.1.ok.name; show e.name.length + 1 ≤ 1024; omega
  | other a => have := hx.1.len; show a.name.length + 1 ≤ 1024; omega
  | level1 e => have := hx.bare.ok.name; show e.name.length ≤ 1024; omega

/-- **C114 (partial), listing.** -/
theorem C114_list_partial (f : Fmt) (hg : f.generic = false) (tab : Arr) (ht : makeCrcTable = .ok tab) (l : List Member) (hl : ∀ x ∈ l, x.Good f) (t : List Nat) (htl : Tail t)
    (hf : Hf) (hok : GOk hf) :
    ∃ hs hf', GOk hf' ∧ headers f (others tab) tab Opts.default hf (some (l.flatMap Member.bytes ++ t)) = .ok ⟨false, hs, hf'⟩ ∧ List.Forall₂ (Tells f) l hs := by
  have hlen := members_length l t
  obtain ⟨k, hs, hf', k1, k2, k3, k4⟩ := lists_loop (f := f) (tab := tab) Member.bytes (Tells f) t l ((l.flatMap Member.bytes ++ t).length + 1) hf [] (by omega)
    (fun x hx => verified_lists f tab (packed := x.packed) fun hf T hok => by
      obtain ⟨g, e1, S⟩ := x.parse f hg tab (hl x hx) newHdr newHdr_method (by rw [newHdr_name]; exact Member.room_le (hl x hx)) T
      obtain ⟨hf1, ok1, hv⟩ := S.verify ht hf hok T
      exact ⟨g, _, e1, S.packed, S, hv, ok1, rfl, Or.inl ⟨rfl, rfl⟩⟩) hok
  obtain ⟨k, rfl⟩ : ∃ j, k = j + 1 := ⟨k - 1, by omega⟩
  refine ⟨hs, hf', k2, ?_, k3⟩
  unfold headers
  simp only []
  rw [k4]
  unfold headersLoop
  rcases tail_end f tab newHdr htl with e | e <;> rw [e, ok_bind] <;> simp

theorem testLoop_members (f : Fmt) (hg : f.generic = false) {tab : Arr} (ht : makeCrcTable = .ok tab) {t : List Nat} (htl : Tail t) (l : List Member) :
    ∀ (n : Nat) (h : Hdr) (hf : Hf), l.length < n → (∀ x ∈ l, x.Good f) → GOk hf → h.method.length = 5 → FitsM f h.name.length l →
      ∃ hf', GOk hf' ∧ testLoop f (others tab) tab Opts.default n h hf (l.flatMap Member.bytes ++ t) = .ok (false, hf') := by
  induction l with
  | nil =>
    intro n h hf hn _ hok _ _
    obtain ⟨n, rfl⟩ : ∃ k, n = k + 1 := ⟨n - 1, by simp at hn; omega⟩
    refine ⟨hf, hok, ?_⟩
    unfold testLoop
    show (getHeader f tab h t >>= _) = _
    rcases tail_end f tab h htl with e | e
    · rw [e, ok_bind]
    · rw [e, ok_bind]
  | cons x l ih =>
    intro n h hf hn hl hok hm hfit
    obtain ⟨n, rfl⟩ : ∃ k, n = k + 1 := ⟨n - 1, by simp at hn; omega⟩
    obtain ⟨g, e1, S⟩ := x.parse f hg tab (hl x List.mem_cons_self) h hm hfit.1 (l.flatMap Member.bytes ++ t)
    obtain ⟨hf1, ok1, hv⟩ := S.verify ht hf hok (l.flatMap Member.bytes ++ t)
    obtain ⟨hf2, ok2, hr⟩ := ih n g hf1 (by simp at hn; omega) (fun y hy => hl y (List.mem_cons_of_mem _ hy)) ok1 S.method
      (by rw [S.name, List.length_append]; exact hfit.2)
    refine ⟨hf2, ok2, ?_⟩
    unfold testLoop
    rw [List.flatMap_cons, List.append_assoc, e1, ok_bind]
    simp only []
    rw [if_pos (by simp [needFile, Opts.default]), hv, ok_bind]
    simp only []
    rw [if_neg (by rw [S.packed]; simp)]
    exact hr

/-- **C114 (partial), testing.** -/
theorem C114_test_partial (f : Fmt) (hg : f.generic = false) (tab : Arr) (ht : makeCrcTable = .ok tab) (l : List Member) (hl : ∀ x ∈ l, x.Good f) (hfit : FitsM f 1024 l)
    (t : List Nat) (htl : Tail t) (hf : Hf) (hok : GOk hf) :
    ∃ hf', GOk hf' ∧ commandTest f (others tab) tab Opts.default false hf (some (l.flatMap Member.bytes ++ t)) = .ok (false, hf') := by
  obtain ⟨hf', ok', h⟩ := testLoop_members f hg ht htl l ((l.flatMap Member.bytes ++ t).length + 1) newHdr hf (by have := members_length l t; omega) hl hok newHdr_method
    (by rw [newHdr_name]; exact hfit)
  refine ⟨hf', ok', ?_⟩
  unfold commandTest
  simp only [Bool.false_eq_true, if_false]
  rw [ok_bind, h]

/-! ## Reading -/

/-- The content of the last member of that name. -/
def lastM (f : Fmt) (want d : List Nat) (l : List Member) : List Nat := l.foldl (fun d x => if x.name f = want then x.content else d) d

theorem extractBytesLoop_members (f : Fmt) (hg : f.generic = false) {tab : Arr} (ht : makeCrcTable = .ok tab) (want : List Nat) {t : List Nat} (htl : Tail t) (l : List Member) :
    ∀ (n : Nat) (h : Hdr) (hf : Hf) (data : List Nat), l.length < n → (∀ x ∈ l, x.Good f) → GOk hf → h.method.length = 5 → FitsM f h.name.length l →
      ∃ hf', GOk hf' ∧ extractBytesLoop f (others tab) tab (want ++ [0]) n h hf data (l.flatMap Member.bytes ++ t) = .ok ⟨false, lastM f want data l, hf'⟩ := by
  induction l with
  | nil =>
    intro n h hf data hn _ hok _ _
    obtain ⟨n, rfl⟩ : ∃ k, n = k + 1 := ⟨n - 1, by simp at hn; omega⟩
    refine ⟨hf, hok, ?_⟩
    unfold extractBytesLoop
    show (getHeader f tab h t >>= _) = _
    rcases tail_end f tab h htl with e | e
    · rw [e, ok_bind]; rfl
    · rw [e, ok_bind]; rfl
  | cons i l ih =>
    intro n h hf data hn hgood hok hm hinc
    obtain ⟨n, rfl⟩ : ∃ k, n = k + 1 := ⟨n - 1, by simp at hn; omega⟩
    obtain ⟨g, e1, K⟩ := i.parse f hg tab (hgood i List.mem_cons_self) h hm hinc.1 (l.flatMap Member.bytes ++ t)
    have hgood' := fun e' he' => hgood e' (List.mem_cons_of_mem i he')
    have hn' : l.length < n := by simp at hn; omega
    have hinc' : FitsM f g.name.length l := by rw [K.name, List.length_append]; exact hinc.2
    by_cases hwant : i.name f = want
    · obtain ⟨m, hidx, hp⟩ := K.known
      obtain ⟨hf1, ok1, hdec⟩ := hp.decodes ht hf hok (l.flatMap Member.bytes ++ t)
      have hx : extractOneStream (others tab) tab hf g (i.packed ++ (l.flatMap Member.bytes ++ t)) =
          .ok (.ok ⟨i.content, crc16 0 i.content, i.packed.length, l.flatMap Member.bytes ++ t, hf1⟩) := by
        unfold extractOneStream
        simp only [hidx]
        rw [if_pos ⟨K.mode, hp.ndir⟩, K.original, K.packed, hdec, ok_bind]
        simp only []
        rw [if_neg (by rw [K.crc]; simp)]
      obtain ⟨hf2, ok2, hr⟩ := ih n g hf1 i.content hn' hgood' ok1 K.method hinc'
      refine ⟨hf2, ok2, ?_⟩
      unfold extractBytesLoop
      rw [List.flatMap_cons, List.append_assoc, e1, ok_bind]
      simp only []
      rw [if_pos (by rw [K.name, hwant]), hx, ok_bind]
      simp only []
      rw [if_neg (by rw [K.packed]; simp), hr]
      unfold lastM
      rw [List.foldl_cons, if_pos hwant]
    · obtain ⟨hf2, ok2, hr⟩ := ih n g hf data hn' hgood' hok K.method hinc'
      refine ⟨hf2, ok2, ?_⟩
      unfold extractBytesLoop
      rw [List.flatMap_cons, List.append_assoc, e1, ok_bind]
      simp only []
      rw [if_neg (by rw [K.name]; intro hc; exact hwant (List.append_cancel_right hc)), K.packed, skip_packed, hr]
      unfold lastM
      rw [List.foldl_cons, if_neg hwant]

theorem lastM_none (f : Fmt) (want : List Nat) (l : List Member) : ∀ d, (∀ x ∈ l, x.name f ≠ want) → lastM f want d l = d := by
  induction l with
  | nil => intro d _; rfl
  | cons x l ih =>
    intro d hx
    unfold lastM
    rw [List.foldl_cons, if_neg (hx x List.mem_cons_self)]
    exact ih d (fun y hy => hx y (List.mem_cons_of_mem _ hy))

/-- **C114 (partial), reading.**  Full statement: the contents of every file in an archive can be read with `DecompresBytes` by the header `Headers` returns for it, whatever programs
the entries come from.  Proved for ordinary files with level-0 headers and with level-1 headers without extensions (others cannot be read at all: C15, C105), whose names do not get
longer (C30), for the last file of a name. -/
theorem C114_partial (f : Fmt) (hg : f.generic = false) (tab : Arr) (ht : makeCrcTable = .ok tab) (l1 l2 : List Member) (x : Member) (hl : ∀ y ∈ l1 ++ x :: l2, y.Good f)
    (hlast : ∀ y ∈ l2, y.name f ≠ x.name f) (hfit : FitsM f 1024 (l1 ++ x :: l2)) (t : List Nat) (htl : Tail t) (hf : Hf) (hok : GOk hf) :
    ∃ hs1 g hs2 hf1 hf2, headers f (others tab) tab Opts.default hf (some ((l1 ++ x :: l2).flatMap Member.bytes ++ t)) = .ok ⟨false, hs1 ++ g :: hs2, hf1⟩ ∧
      hs1.length = l1.length ∧ hs2.length = l2.length ∧ g.name = x.name f ++ [0] ∧ g.originalSize = x.content.length ∧
      decompresBytes f (others tab) tab false g.name hf1 (some ((l1 ++ x :: l2).flatMap Member.bytes ++ t)) = .ok ⟨false, x.content, hf2⟩ := by
  obtain ⟨hs, hf1, ok1, h, P⟩ := C114_list_partial f hg tab ht (l1 ++ x :: l2) hl t htl hf hok
  obtain ⟨hs1, hs2', rfl, P1, P2⟩ := forall2_split l1 P
  cases P2 with
  | @cons _ g _ hs2 hP P2 =>
    obtain ⟨hf2, _, h2⟩ := extractBytesLoop_members f hg ht (x.name f) htl (l1 ++ x :: l2) (((l1 ++ x :: l2).flatMap Member.bytes ++ t).length + 1) newHdr hf1 []
      (by have := members_length (l1 ++ x :: l2) t; omega) hl ok1 newHdr_method (by rw [newHdr_name]; exact hfit)
    refine ⟨hs1, g, hs2, hf1, hf2, h, P1.length_eq.symm, P2.length_eq.symm, hP.name, hP.original, ?_⟩
    unfold decompresBytes
    simp only [Bool.false_eq_true, if_false]
    rw [ok_bind, hP.name, h2]
    have : lastM f (x.name f) [] (l1 ++ x :: l2) = x.content := by
      unfold lastM
      rw [List.foldl_append, List.foldl_cons, if_pos rfl]
      exact lastM_none f _ l2 _ hlast
    rw [this]

/-! ## Extraction -/

theorem extractLoop_members (f : Fmt) (hg : f.generic = false) {tab : Arr} (ht : makeCrcTable = .ok tab) {t : List Nat} (htl : Tail t) (l : List Member) :
    ∀ (n : Nat) (h : Hdr) (hf : Hf) (s : Sys), l.length < n → (∀ x ∈ l, x.Good f) → GOk hf → h.method.length = 5 → FitsM f h.name.length l →
      (∀ x ∈ l, s.Creatable (lastName (x.name f)) ∧ s.node (lastName (x.name f)) = none) →
      (l.Pairwise fun a b => lastName (a.name f) ≠ lastName (b.name f)) →
      ∃ hf' s', GOk hf' ∧ extractLoopD f (others tab) tab Opts.default (needFile Opts.default) n h hf s (l.flatMap Member.bytes ++ t) = .ok (false, s', hf') ∧
        (∀ x ∈ l, s'.node (lastName (x.name f)) = some (.file x.content s.fresh)) ∧
        (∀ n, (∀ x ∈ l, lastName (x.name f) ≠ n) → s'.node n = s.node n) ∧ s'.outside = s.outside ∧ s'.answers = s.answers := by
  induction l with
  | nil =>
    intro n h hf s hn _ hok _ _ _ _
    obtain ⟨n, rfl⟩ : ∃ k, n = k + 1 := ⟨n - 1, by simp at hn; omega⟩
    refine ⟨hf, s, hok, ?_, by simp, fun _ _ => rfl, rfl, rfl⟩
    unfold extractLoopD
    show (getHeader f tab h t >>= _) = _
    rcases tail_end f tab h htl with e | e
    · rw [e, ok_bind]
    · rw [e, ok_bind]
  | cons i l ih =>
    intro n h hf s hn hgood hok hm hinc hnew hdist
    obtain ⟨n, rfl⟩ : ∃ k, n = k + 1 := ⟨n - 1, by simp at hn; omega⟩
    rw [List.pairwise_cons] at hdist
    obtain ⟨hc, hnn⟩ := hnew i List.mem_cons_self
    obtain ⟨g, e1, K⟩ := i.parse f hg tab (hgood i List.mem_cons_self) h hm hinc.1 (l.flatMap Member.bytes ++ t)
    have hinc' : FitsM f g.name.length l := by rw [K.name, List.length_append]; exact hinc.2
    obtain ⟨m, hidx, hpk⟩ := K.known
    obtain ⟨hf1, ok1, hdec⟩ := hpk.decodes ht hf hok (l.flatMap Member.bytes ++ t)
    have hx : extractOneD (others tab) tab Opts.default s hf g (i.packed ++ (l.flatMap Member.bytes ++ t)) =
        .ok (some ⟨i.packed.length, l.flatMap Member.bytes ++ t, hf1, g.name, some (lastName (i.name f), i.content)⟩,
          s.set (lastName (i.name f)) (.file i.content s.fresh)) := by
      unfold extractOneD
      rw [K.entry, ok_bind]
      simp only [hidx]
      rw [if_pos ⟨K.mode, hpk.ndir⟩]
      rw [show Opts.default.force = false from rfl, show inquireExtract s false (lastName (i.name f)) = .ok (true, s) by
        unfold inquireExtract; rw [lstat_of hc, hnn], ok_bind]
      simp only [Bool.true_eq_false, false_and, if_false]
      rw [if_pos (canCreate_of hc (Or.inl hnn)), K.original, K.packed, hdec, ok_bind]
      simp only []
      unfold Sys.write
      rw [hnn]
    have hnode : ∀ j ∈ l, (s.set (lastName (i.name f)) (.file i.content s.fresh)).node (lastName (j.name f)) = s.node (lastName (j.name f)) := by
      intro j hj
      show (if lastName (j.name f) = lastName (i.name f) then _ else s.node (lastName (j.name f))) = _
      rw [if_neg (fun h => hdist.1 j hj h.symm)]
    obtain ⟨hf', s', ok', r1, r2, r3, r4, r5⟩ := ih n { g with name := g.name } hf1 (s.set (lastName (i.name f)) (.file i.content s.fresh))
      (by simp at hn; omega) (fun j hj => hgood j (List.mem_cons_of_mem _ hj)) ok1 K.method hinc'
      (fun j hj => ⟨(hnew j (List.mem_cons_of_mem _ hj)).1, by rw [hnode j hj]; exact (hnew j (List.mem_cons_of_mem _ hj)).2⟩) hdist.2
    refine ⟨hf', s', ok', ?_, ?_, ?_, r4, r5⟩
    · conv in extractLoopD _ _ _ _ _ (n + 1) _ _ _ _ => unfold extractLoopD
      rw [List.flatMap_cons, List.append_assoc, e1, ok_bind]
      simp only []
      rw [if_pos (by simp [needFile, Opts.default]), hx, ok_bind]
      simp only []
      rw [if_neg (by rw [K.packed]; simp)]
      exact r1
    · intro j hj
      rcases List.mem_cons.mp hj with rfl | hj
      · rw [r3 _ (fun k hk hc => hdist.1 k hk hc.symm)]
        show (if lastName (j.name f) = lastName (j.name f) then some (Node.file j.content s.fresh) else _) = _
        rw [if_pos rfl]
      · exact r2 j hj
    · intro x hx
      rw [r3 x (fun j hj => hx j (List.mem_cons_of_mem _ hj))]
      show (if x = lastName (i.name f) then _ else s.node x) = s.node x
      rw [if_neg (fun hc => hx i List.mem_cons_self hc.symm)]

/-- **C114 (partial), extraction.**  Full statement: every file in an archive is extracted, whatever programs the entries come from.  Proved for files as in `C114_partial` whose last
names are new and differ. -/
theorem C114_extract_partial (f : Fmt) (hg : f.generic = false) (tab : Arr) (ht : makeCrcTable = .ok tab) (t : List Nat) (htl : Tail t) (l : List Member) (hl : ∀ x ∈ l, x.Good f)
    (hf : Hf) (hok : GOk hf) (s : Sys) (hfit : FitsM f 1024 l) (hnew : ∀ x ∈ l, s.Creatable (lastName (x.name f)) ∧ s.node (lastName (x.name f)) = none)
    (hdist : l.Pairwise fun a b => lastName (a.name f) ≠ lastName (b.name f)) :
    ∃ hf' s', GOk hf' ∧ commandExtractD f (others tab) tab Opts.default false hf s (some (l.flatMap Member.bytes ++ t)) = .ok (false, s', hf') ∧
      (∀ x ∈ l, s'.node (lastName (x.name f)) = some (.file x.content s.fresh)) ∧
      (∀ n, (∀ x ∈ l, lastName (x.name f) ≠ n) → s'.node n = s.node n) ∧ s'.outside = s.outside ∧ s'.answers = s.answers := by
  obtain ⟨hf', s', ok', h, r⟩ := extractLoop_members f hg ht htl l ((l.flatMap Member.bytes ++ t).length + 1) newHdr hf s (by have := members_length l t; omega) hl hok newHdr_method
    (by rw [newHdr_name]; exact hfit) hnew hdist
  refine ⟨hf', s', ok', ?_, r⟩
  unfold commandExtractD
  simp only [Bool.false_eq_true, if_false]
  rw [ok_bind, h]

/-- **C114 is false without the condition on the names.**  A file `a` with a level-0 header and an empty file `ab` with a level-1 header: two files of different names, which are listed as
two files `a`; what is read by the header of the first is the content of the second. -/
theorem C114_false (tab : Arr) (ht : makeCrcTable = .ok tab) (hf : Hf) (hok : GOk hf) : ∃ g1 g2 hf1 hf2,
    headers ⟨false, false⟩ (others tab) tab Opts.default hf
      (some ((sampleEntry [45, 108, 122, 115, 45] [97] [0xa0, 0x80] [65]).bytes ++ ((void1 [97, 98]).bytes ++ [0]))) = .ok ⟨false, [g1, g2], hf1⟩ ∧
    g1.name = [97, 0] ∧ g2.name = [97, 0] ∧ g1.originalSize = 1 ∧ g2.originalSize = 0 ∧
    decompresBytes ⟨false, false⟩ (others tab) tab false g1.name hf1
      (some ((sampleEntry [45, 108, 122, 115, 45] [97] [0xa0, 0x80] [65]).bytes ++ ((void1 [97, 98]).bytes ++ [0]))) = .ok ⟨false, [], hf2⟩ := by
  have hl : ∀ x ∈ [Member.unix (sampleEntry [45, 108, 122, 115, 45] [97] [0xa0, 0x80] [65]), .level1 (void1 [97, 98])], x.Good ⟨false, false⟩ := by
    intro x hx
    simp only [List.mem_cons, List.not_mem_nil, or_false] at hx
    rcases hx with rfl | rfl
    · exact ⟨sample_sound [97] (by decide) (by decide) (by decide), rfl⟩
    · exact void1_kept _ _ (by decide) (by decide) (by decide) (by decide)
  have hb : [Member.unix (sampleEntry [45, 108, 122, 115, 45] [97] [0xa0, 0x80] [65]), .level1 (void1 [97, 98])].flatMap Member.bytes ++ [0] =
      (sampleEntry [45, 108, 122, 115, 45] [97] [0xa0, 0x80] [65]).bytes ++ ((void1 [97, 98]).bytes ++ [0]) := by
    rw [List.flatMap_cons, List.flatMap_cons, List.flatMap_nil, List.append_nil, List.append_assoc]; rfl
  obtain ⟨hs, hf1, ok1, h, P⟩ := C114_list_partial ⟨false, false⟩ rfl tab ht _ hl [0] (Or.inr ⟨[], rfl⟩) hf hok
  obtain ⟨hf2, _, h2⟩ := extractBytesLoop_members ⟨false, false⟩ rfl ht [97] (t := [0]) (Or.inr ⟨[], rfl⟩) _ (_ + 1) newHdr hf1 [] (Nat.lt_succ_of_le (members_length _ [0])) hl ok1
    newHdr_method ⟨by rw [newHdr_name]; decide, by decide, trivial⟩
  rw [hb] at h h2
  cases P with
  | @cons _ g1 _ hs1 p1 P =>
    cases P with
    | @cons _ g2 _ hs2 p2 P =>
      cases P
      have n1 : g1.name = [97, 0] := p1.name
      have n2 : g2.name = [97, 0] := by rw [p2.name]; decide
      refine ⟨g1, g2, hf1, hf2, h, n1, n2, p1.original, p2.original, ?_⟩
      unfold decompresBytes
      simp only [Bool.false_eq_true, if_false]
      rw [ok_bind, n1]
      refine (show _ = _ from h2).trans ?_
      rfl

/-! ## The hypotheses are met

`x/e` of a Unix system, `Q\F` of MS-DOS (level 0) and `gh` with a level-1 header. -/

def trio : List Member :=
  [.unix (sampleEntry [45, 108, 122, 115, 45] [120, 47, 101] [0xa0, 0x80] [65]), .other { alien1 with name := [81, 0x5c, 70] }, .level1 (full1 [103, 104])]

theorem trio_good : ∀ x ∈ trio, x.Good ⟨false, true⟩ := by
  have hcrc : crc16 0 [65] < 2 ^ 16 := by decide +kernel
  have h1 := sample_sound [120, 47, 101] (by decide) (by decide) (by decide)
  intro x hx
  simp only [trio, List.mem_cons, List.not_mem_nil, or_false] at hx
  rcases hx with rfl | rfl | rfl
  · exact ⟨h1, rfl⟩
  · exact ⟨⟨by decide, by decide, by decide, by decide, by decide, hcrc, by decide⟩, by decide, by simp [Alien.Osk, alien1], by decide, rfl, h1.packed⟩
  · exact full1_kept _ _ (by decide) (by decide) (by decide) (by decide)

example (tab : Arr) (ht : makeCrcTable = .ok tab) (hf : Hf) (hok : GOk hf) :
    ∃ hf', GOk hf' ∧ commandTest ⟨false, true⟩ (others tab) tab Opts.default false hf (some (trio.flatMap Member.bytes ++ [0])) = .ok (false, hf') :=
  C114_test_partial ⟨false, true⟩ rfl tab ht trio trio_good ⟨by decide, by decide, by decide, trivial⟩ [0] (Or.inr ⟨[], rfl⟩) hf hok

example (tab : Arr) (ht : makeCrcTable = .ok tab) (hf : Hf) (hok : GOk hf) : ∃ hs1 g hs2 hf1 hf2,
    headers ⟨false, true⟩ (others tab) tab Opts.default hf (some (trio.flatMap Member.bytes ++ [0])) = .ok ⟨false, hs1 ++ g :: hs2, hf1⟩ ∧
      g.name = [113, 47, 102, 0] ∧ decompresBytes ⟨false, true⟩ (others tab) tab false g.name hf1 (some (trio.flatMap Member.bytes ++ [0])) = .ok ⟨false, [65], hf2⟩ := by
  obtain ⟨hs1, g, hs2, hf1, hf2, h, _, _, h1, _, h2⟩ := C114_partial ⟨false, true⟩ rfl tab ht [.unix (sampleEntry [45, 108, 122, 115, 45] [120, 47, 101] [0xa0, 0x80] [65])]
    [.level1 (full1 [103, 104])] (.other { alien1 with name := [81, 0x5c, 70] }) trio_good (by decide) ⟨by decide, by decide, by decide, trivial⟩ [0] (Or.inr ⟨[], rfl⟩) hf hok
  exact ⟨hs1, g, hs2, hf1, hf2, h, by rw [h1]; decide, h2⟩

example (tab : Arr) (ht : makeCrcTable = .ok tab) (hf : Hf) (hok : GOk hf) : ∃ hf' s', GOk hf' ∧
    commandExtractD ⟨false, true⟩ (others tab) tab Opts.default false hf Sys.sample (some (trio.flatMap Member.bytes ++ [0])) = .ok (false, s', hf') ∧
      s'.node [103] = some (.file [65] Sys.sample.fresh) := by
  obtain ⟨hf', s', a1, a2, a3, _⟩ := C114_extract_partial ⟨false, true⟩ rfl tab ht [0] (Or.inr ⟨[], rfl⟩) trio trio_good hf hok Sys.sample ⟨by decide, by decide, by decide, trivial⟩
    (by
      intro x hx
      simp only [trio, List.mem_cons, List.not_mem_nil, or_false] at hx
      rcases hx with rfl | rfl | rfl
      · exact ⟨⟨by decide, by decide, rfl⟩, rfl⟩
      · exact ⟨⟨by decide, by decide, rfl⟩, rfl⟩
      · exact ⟨⟨by decide, by decide, rfl⟩, rfl⟩)
    (by decide)
  exact ⟨hf', s', a1, a2, a3 (.level1 (full1 [103, 104])) (by simp [trio])⟩

end Lha
