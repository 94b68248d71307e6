import Verif.Props.C120
import Verif.Props.C114
/-!
# C120: archives without checksums are tested and extracted
-/

namespace Lha

open Spec

/-- What a header says about a part. -/
structure PartTells (f : Fmt) (x : Part) (g : Hdr) : Prop where
  method : g.method.length = 5
  packed : g.packedSize = x.packed.length
  original : g.originalSize = x.content.length
  name : g.name = x.name f ++ [0]
  crc : ¬ (g.hasCrc = true ∧ crc16 0 x.content ≠ g.crc)
  mode : fileType g.mode = 0o100000
  entry : entryName Opts.default g = .ok (some (lastName (x.name f), g.name))
  known : ∃ m, methods.findIdx? (· = g.method) = some m ∧ Packed m x.packed x.content

theorem Part.parse (f : Fmt) (hg : f.generic = false) (tab : Arr) (x : Part) (hx : x.Good) (h : Hdr) (hm : h.method.length = 5) (hn : (x.name f).length < h.name.length) (R : List Nat) :
    ∃ g, getHeader f tab h (x.bytes ++ R) = .ok (.got g (x.packed ++ R)) ∧ PartTells f x g := by
  cases x with
  | inl e =>
    obtain ⟨⟨ho, hk, m, hidx, hp⟩, hcrc⟩ := hx
    obtain ⟨g, e1, P⟩ := entry_parse f hg tab e ho h hm hn R
    exact ⟨g, e1, by rw [P.method]; exact ho.method, P.packed, P.original, P.name, by rw [P.crc, hcrc]; simp [Part.content], (P.fileType ho).trans hk, P.entryName,
      m, by rw [P.method]; exact hidx, hp⟩
  | inr a =>
    obtain ⟨ho, hff, m, hidx, hp⟩ := hx
    have hl : (a.shown f.convertCase).length = a.name.length := by unfold Old.shown Alien.shown; rw [List.length_map]
    obtain ⟨g, e1, S⟩ := old_parse f tab a ho hff h hm (by rw [← hl]; exact hn) R
    exact ⟨g, e1, by rw [S.method]; exact ho.method, S.packed, S.original, S.name, by rw [S.hasCrc]; simp, by rw [S.mode]; decide, S.entryName,
      m, by rw [S.method]; exact hidx, hp⟩

theorem PartTells.verify {f : Fmt} {tab : Arr} (ht : makeCrcTable = .ok tab) {x : Part} {g : Hdr} (S : PartTells f x g) (hf : Hf) (hok : GOk hf) (T : List Nat) :
    ∃ hf1, GOk hf1 ∧ verifyOne (others tab) tab Opts.default hf g (x.packed ++ T) = .ok (.ok ⟨x.packed.length, T, hf1, g.name, none⟩) := by
  obtain ⟨m, hidx, hp⟩ := S.known
  obtain ⟨hf1, ok1, hdec⟩ := hp.decodes ht hf hok T
  refine ⟨hf1, ok1, ?_⟩
  unfold verifyOne
  rw [S.entry, ok_bind]
  simp only [hidx]
  rw [if_pos ⟨S.mode, hp.ndir⟩, S.original, S.packed, hdec, ok_bind]
  simp only []
  rw [if_neg S.crc]

theorem testLoop_parts (f : Fmt) (hg : f.generic = false) {tab : Arr} (ht : makeCrcTable = .ok tab) {t : List Nat} (htl : Tail t) (l : List Part) :
    ∀ (n : Nat) (h : Hdr) (hf : Hf), l.length < n → (∀ x ∈ l, x.Good) → GOk hf → h.method.length = 5 → FitsP f h.name.length l →
      ∃ hf', GOk hf' ∧ testLoop f (others tab) tab Opts.default n h hf (l.flatMap Part.bytes ++ t) = .ok (false, hf') := by
  induction l with
  | nil =>
    intro n h hf hn _ hok _ _
    obtain ⟨n, rfl⟩ : ∃ k, n = k + 1 := ⟨n - 1, by simp at hn; omega⟩
    refine ⟨hf, hok, ?_⟩
    unfold testLoop
    show (getHeader f tab h t >>= _) = _
    rcases tail_end f tab h htl with e | e
    · rw [e, ok_bind]
    · rw [e, ok_bind]
  | cons x l ih =>
    intro n h hf hn hl hok hm hfit
    obtain ⟨n, rfl⟩ : ∃ k, n = k + 1 := ⟨n - 1, by simp at hn; omega⟩
    obtain ⟨g, e1, S⟩ := x.parse f hg tab (hl x List.mem_cons_self) h hm hfit.1 (l.flatMap Part.bytes ++ t)
    obtain ⟨hf1, ok1, hv⟩ := S.verify ht hf hok (l.flatMap Part.bytes ++ t)
    obtain ⟨hf2, ok2, hr⟩ := ih n g hf1 (by simp at hn; omega) (fun y hy => hl y (List.mem_cons_of_mem _ hy)) ok1 S.method
      (by rw [S.name, List.length_append]; exact hfit.2)
    refine ⟨hf2, ok2, ?_⟩
    unfold testLoop
    rw [List.flatMap_cons, List.append_assoc, e1, ok_bind]
    simp only []
    rw [if_pos (by simp [needFile, Opts.default]), hv, ok_bind]
    simp only []
    rw [if_neg (by rw [S.packed]; simp)]
    exact hr

/-- **C120 (partial), testing.**  Full statement: testing an archive with entries without checksums reports no error if the data of all entries are right.  Proved under the conditions
of `C120_partial`. -/
theorem C120_test_partial (f : Fmt) (hg : f.generic = false) (tab : Arr) (ht : makeCrcTable = .ok tab) (l : List Part) (hl : ∀ x ∈ l, x.Good) (hfit : FitsP f 1024 l)
    (t : List Nat) (htl : Tail t) (hf : Hf) (hok : GOk hf) :
    ∃ hf', GOk hf' ∧ commandTest f (others tab) tab Opts.default false hf (some (l.flatMap Part.bytes ++ t)) = .ok (false, hf') := by
  obtain ⟨hf', ok', h⟩ := testLoop_parts f hg ht htl l ((l.flatMap Part.bytes ++ t).length + 1) newHdr hf (by have := parts_length l t; omega) hl hok newHdr_method
    (by rw [newHdr_name]; exact hfit)
  refine ⟨hf', ok', ?_⟩
  unfold commandTest
  simp only [Bool.false_eq_true, if_false]
  rw [ok_bind, h]

theorem extractLoop_parts (f : Fmt) (hg : f.generic = false) {tab : Arr} (ht : makeCrcTable = .ok tab) {t : List Nat} (htl : Tail t) (l : List Part) :
    ∀ (n : Nat) (h : Hdr) (hf : Hf) (s : Sys), l.length < n → (∀ x ∈ l, x.Good) → GOk hf → h.method.length = 5 → FitsP f h.name.length l →
      (∀ x ∈ l, s.Creatable (lastName (x.name f)) ∧ s.node (lastName (x.name f)) = none) →
      (l.Pairwise fun a b => lastName (a.name f) ≠ lastName (b.name f)) →
      ∃ hf' s', GOk hf' ∧ extractLoopD f (others tab) tab Opts.default (needFile Opts.default) n h hf s (l.flatMap Part.bytes ++ t) = .ok (false, s', hf') ∧
        (∀ x ∈ l, s'.node (lastName (x.name f)) = some (.file x.content s.fresh)) ∧
        (∀ n, (∀ x ∈ l, lastName (x.name f) ≠ n) → s'.node n = s.node n) ∧ s'.outside = s.outside ∧ s'.answers = s.answers := by
  induction l with
  | nil =>
    intro n h hf s hn _ hok _ _ _ _
    obtain ⟨n, rfl⟩ : ∃ k, n = k + 1 := ⟨n - 1, by simp at hn; omega⟩
    refine ⟨hf, s, hok, ?_, by simp, fun _ _ => rfl, rfl, rfl⟩
    unfold extractLoopD
    show (getHeader f tab h t >>= _) = _
    rcases tail_end f tab h htl with e | e
    · rw [e, ok_bind]
    · rw [e, ok_bind]
  | cons i l ih =>
    intro n h hf s hn hgood hok hm hinc hnew hdist
    obtain ⟨n, rfl⟩ : ∃ k, n = k + 1 := ⟨n - 1, by simp at hn; omega⟩
    rw [List.pairwise_cons] at hdist
    obtain ⟨hc, hnn⟩ := hnew i List.mem_cons_self
    obtain ⟨g, e1, K⟩ := i.parse f hg tab (hgood i List.mem_cons_self) h hm hinc.1 (l.flatMap Part.bytes ++ t)
    have hinc' : FitsP f g.name.length l := by rw [K.name, List.length_append]; exact hinc.2
    obtain ⟨m, hidx, hpk⟩ := K.known
    obtain ⟨hf1, ok1, hdec⟩ := hpk.decodes ht hf hok (l.flatMap Part.bytes ++ t)
    have hx : extractOneD (others tab) tab Opts.default s hf g (i.packed ++ (l.flatMap Part.bytes ++ t)) =
        .ok (some ⟨i.packed.length, l.flatMap Part.bytes ++ t, hf1, g.name, some (lastName (i.name f), i.content)⟩,
          s.set (lastName (i.name f)) (.file i.content s.fresh)) := by
      unfold extractOneD
      rw [K.entry, ok_bind]
      simp only [hidx]
      rw [if_pos ⟨K.mode, hpk.ndir⟩]
      rw [show Opts.default.force = false from rfl, show inquireExtract s false (lastName (i.name f)) = .ok (true, s) by
        unfold inquireExtract; rw [lstat_of hc, hnn], ok_bind]
      simp only [Bool.true_eq_false, false_and, if_false]
      rw [if_pos (canCreate_of hc (Or.inl hnn)), K.original, K.packed, hdec, ok_bind]
      simp only []
      unfold Sys.write
      rw [hnn]
    have hnode : ∀ j ∈ l, (s.set (lastName (i.name f)) (.file i.content s.fresh)).node (lastName (j.name f)) = s.node (lastName (j.name f)) := by
      intro j hj
      show (if lastName (j.name f) = lastName (i.name f) then _ else s.node (lastName (j.name f))) = _
      rw [if_neg (fun h => hdist.1 j hj h.symm)]
    obtain ⟨hf', s', ok', r1, r2, r3, r4, r5⟩ := ih n { g with name := g.name } hf1 (s.set (lastName (i.name f)) (.file i.content s.fresh))
      (by simp at hn; omega) (fun j hj => hgood j (List.mem_cons_of_mem _ hj)) ok1 K.method hinc'
      (fun j hj => ⟨(hnew j (List.mem_cons_of_mem _ hj)).1, by rw [hnode j hj]; exact (hnew j (List.mem_cons_of_mem _ hj)).2⟩) hdist.2
    refine ⟨hf', s', ok', ?_, ?_, ?_, r4, r5⟩
    · conv in extractLoopD _ _ _ _ _ (n + 1) _ _ _ _ => unfold extractLoopD
      rw [List.flatMap_cons, List.append_assoc, e1, ok_bind]
      simp only []
      rw [if_pos (by simp [needFile, Opts.default]), hx, ok_bind]
      simp only []
      rw [if_neg (by rw [K.packed]; simp)]
      exact r1
    · intro j hj
      rcases List.mem_cons.mp hj with rfl | hj
      · rw [r3 _ (fun k hk hc => hdist.1 k hk hc.symm)]
        show (if lastName (j.name f) = lastName (j.name f) then some (Node.file j.content s.fresh) else _) = _
        rw [if_pos rfl]
      · exact r2 j hj
    · intro x hx
      rw [r3 x (fun j hj => hx j (List.mem_cons_of_mem _ hj))]
      show (if x = lastName (i.name f) then _ else s.node x) = s.node x
      rw [if_neg (fun hc => hx i List.mem_cons_self hc.symm)]

/-- **C120 (partial), extraction.**  Full statement: `CommandExtract` extracts the files without checksums, too.  Proved for files as in `C120_partial` whose last names are new and
differ. -/
theorem C120_extract_partial (f : Fmt) (hg : f.generic = false) (tab : Arr) (ht : makeCrcTable = .ok tab) (t : List Nat) (htl : Tail t) (l : List Part) (hl : ∀ x ∈ l, x.Good)
    (hf : Hf) (hok : GOk hf) (s : Sys) (hfit : FitsP f 1024 l) (hnew : ∀ x ∈ l, s.Creatable (lastName (x.name f)) ∧ s.node (lastName (x.name f)) = none)
    (hdist : l.Pairwise fun a b => lastName (a.name f) ≠ lastName (b.name f)) :
    ∃ hf' s', GOk hf' ∧ commandExtractD f (others tab) tab Opts.default false hf s (some (l.flatMap Part.bytes ++ t)) = .ok (false, s', hf') ∧
      (∀ x ∈ l, s'.node (lastName (x.name f)) = some (.file x.content s.fresh)) ∧
      (∀ n, (∀ x ∈ l, lastName (x.name f) ≠ n) → s'.node n = s.node n) ∧ s'.outside = s.outside ∧ s'.answers = s.answers := by
  obtain ⟨hf', s', ok', h, r⟩ := extractLoop_parts f hg ht htl l ((l.flatMap Part.bytes ++ t).length + 1) newHdr hf s (by have := parts_length l t; omega) hl hok newHdr_method
    (by rw [newHdr_name]; exact hfit) hnew hdist
  refine ⟨hf', s', ok', ?_, r⟩
  unfold commandExtractD
  simp only [Bool.false_eq_true, if_false]
  rw [ok_bind, h]

/-- Cases covered: a Unix file `x/e` and behind it `Q` without a checksum. -/
theorem oldMix_good : ∀ x ∈ ([Sum.inl (sampleEntry [45, 108, 122, 115, 45] [120, 47, 101] [0xa0, 0x80] [65]), Sum.inr (old1 [81])] : List Part), x.Good := by
  intro x hx
  simp only [List.mem_cons, List.not_mem_nil, or_false] at hx
  rcases hx with rfl | rfl
  · exact ⟨sample_sound [120, 47, 101] (by decide) (by decide) (by decide), rfl⟩
  · exact old1_sound _ (by decide) (by decide) (by decide)

example (tab : Arr) (ht : makeCrcTable = .ok tab) (hf : Hf) (hok : GOk hf) : ∃ hf', GOk hf' ∧ commandTest ⟨false, true⟩ (others tab) tab Opts.default false hf
    (some (([Sum.inl (sampleEntry [45, 108, 122, 115, 45] [120, 47, 101] [0xa0, 0x80] [65]), Sum.inr (old1 [81])] : List Part).flatMap Part.bytes ++ [0])) = .ok (false, hf') :=
  C120_test_partial ⟨false, true⟩ rfl tab ht _ oldMix_good ⟨by decide, by decide, trivial⟩ [0] (Or.inr ⟨[], rfl⟩) hf hok

example (tab : Arr) (ht : makeCrcTable = .ok tab) (hf : Hf) (hok : GOk hf) : ∃ hf' s', GOk hf' ∧ commandExtractD ⟨false, true⟩ (others tab) tab Opts.default false hf Sys.sample
    (some (([Sum.inl (sampleEntry [45, 108, 122, 115, 45] [120, 47, 101] [0xa0, 0x80] [65]), Sum.inr (old1 [81])] : List Part).flatMap Part.bytes ++ [0])) = .ok (false, s', hf') ∧
      s'.node [113] = some (.file [65] Sys.sample.fresh) := by
  obtain ⟨hf', s', a1, a2, a3, _⟩ := C120_extract_partial ⟨false, true⟩ rfl tab ht [0] (Or.inr ⟨[], rfl⟩) _ oldMix_good hf hok Sys.sample ⟨by decide, by decide, trivial⟩
    (by
      intro x hx
      simp only [List.mem_cons, List.not_mem_nil, or_false] at hx
      rcases hx with rfl | rfl
      · exact ⟨⟨by decide, by decide, rfl⟩, rfl⟩
      · exact ⟨⟨by decide, by decide, rfl⟩, rfl⟩)
    (by decide)
  exact ⟨hf', s', a1, a2, a3 (Sum.inr (old1 [81])) (by simp)⟩

end Lha
