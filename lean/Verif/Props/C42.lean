import Verif.Proof.Multi
/-!
# C42: a multi-entry archive is extracted completely

False in general; proved for archives of the formats below whose names do not get longer.
-/

namespace Lha

open Spec

/-- **C42 (partial).** Full statement: the same for every archive of valid entries.  Proved here for any number of entries (`Sound`: a well-formed
level-0 header; data packed by the library's lh5, lh6 or lh7 compressor, or an lh1 or lzs stream of the format, or an empty file) whose names
do not get longer from one entry to the next, in any process state.  Every entry is written, in order, under the last component of its name,
with its content, and no error is reported.  Without the restrictions it is false: `C42_false` (lz5), `C45_false` (longer names). -/
theorem C42_partial (f : Fmt) (hg : f.generic = false) (tab : Arr) (ht : makeCrcTable = .ok tab) (fs : Fs) (hcan : ∀ n, fs.can n = true)
    (es : List Entry) (hes : ∀ e ∈ es, Sound e) (hinc : NonInc 1024 es) (t : List Nat) (htl : Tail t) (hf : Hf) (hok : GOk hf) :
    ∃ hf', GOk hf' ∧ commandExtract f (others tab) tab Opts.default fs false hf (some (archive es t)) =
      .ok ⟨false, es.map (fun e => (lastName e.name, e.content)), hf'⟩ := by
  obtain ⟨hf', ok', h⟩ := extractLoop_good f hg ht fs hcan (needFile Opts.default) (fun n => by simp [needFile, Opts.default]) htl es
    ((archive es t).length + 1) newHdr hf [] (by have := archive_length es t; omega) hes hok newHdr_method (by rw [newHdr_name]; exact hinc)
  refine ⟨hf', ok', ?_⟩
  unfold commandExtract
  simp only [Bool.false_eq_true, if_false]
  rw [ok_bind, h]
  rfl

/-- A valid lz5 entry. -/
structure Lz5Entry (e : Entry) (gs : List (List RTok)) : Prop where
  ok : e.Ok
  kind : e.kind = 0o100000
  method : e.method = [45, 108, 122, 53, 45]
  groups : lz5Groups gs
  toks : ∀ g ∈ gs, ∀ t ∈ g, lz5TokOk t
  packed : e.packed = lz5Bytes gs
  content : e.content = (Ring.run 4096 lz5Ring gs.flatten).out

theorem Lz5Entry.decodes {e : Entry} {gs : List (List RTok)} (h : Lz5Entry e gs) {tab : Arr} (ht : makeCrcTable = .ok tab) (hf : Hf)
    (T : List Nat) : decodeLzhuf (others tab) tab 9 hf e.content.length e.packed.length (e.packed ++ T) =
      .ok ⟨e.content, crc16 0 e.content, 0, T, hf⟩ := by
  unfold decodeLzhuf others
  simp only [show ¬ ((9 : Nat) = 0 ∨ (9 : Nat) = 10 ∨ (9 : Nat) = 12) by omega, show ¬ (9 : Nat) = 4 by omega,
    show ¬ (9 : Nat) = 5 by omega, show ¬ (9 : Nat) = 6 by omega, show ¬ (9 : Nat) = 7 by omega,
    show ¬ ((9 : Nat) = 1 ∨ (9 : Nat) = 2 ∨ (9 : Nat) = 3) by omega, show ¬ (9 : Nat) = 8 by omega, reduceIte]
  rw [h.packed, h.content]
  exact C39_lz5 tab ht hf gs h.groups h.toks _ T

/-- After an lz5 entry as many bytes again are skipped. -/
theorem skip_again {P X : List Nat} (hX : X ≠ []) (hle : X.length ≤ P.length) : skipTo P.length X = some [] := by
  unfold skipTo readF
  rw [if_neg (fun h => hX h.2)]
  simp [hle]

/-- **C42 is false** if an entry is packed by lz5: whatever comes after it, if it is not longer than the packed data of the lz5 entry, is
silently lost.  (The lz5 decoder reports that it has read nothing, and its packed size is skipped once more.) -/
theorem C42_false (f : Fmt) (hg : f.generic = false) (tab : Arr) (ht : makeCrcTable = .ok tab) (fs : Fs) (hcan : ∀ n, fs.can n = true)
    (e : Entry) (gs : List (List RTok)) (h5 : Lz5Entry e gs) (es : List Entry) (t : List Nat) (hne : archive es t ≠ [])
    (hshort : (archive es t).length ≤ e.packed.length) (hf : Hf) :
    commandExtract f (others tab) tab Opts.default fs false hf (some (archive (e :: es) t)) =
      .ok ⟨false, [(lastName e.name, e.content)], hf⟩ := by
  obtain ⟨g, e1, P⟩ := entry_parse f hg tab e h5.ok newHdr newHdr_method (by rw [newHdr_name]; have := h5.ok.name; omega) (archive es t)
  have hidx : methods.findIdx? (· = e.method) = some 9 := by rw [h5.method]; decide
  have hv : extractOne (others tab) tab Opts.default fs hf g (e.packed ++ archive es t) =
      .ok (some ⟨0, archive es t, hf, g.name, some (lastName e.name, e.content)⟩) := by
    unfold extractOne
    rw [P.entryName, ok_bind]
    simp only [P.method, hidx]
    rw [if_pos ⟨(P.fileType h5.ok).trans h5.kind, by omega⟩, if_pos (hcan _), P.original, P.packed, h5.decodes ht hf, ok_bind]
  have hpos : 0 < e.packed.length := by have := List.length_pos_iff.2 hne; omega
  obtain ⟨n, hn⟩ : ∃ n, (archive (e :: es) t).length + 1 = n + 2 := by
    have := archive_length (e :: es) t
    rw [List.length_cons] at this
    exact ⟨(archive (e :: es) t).length - 1, by omega⟩
  unfold commandExtract
  simp only [Bool.false_eq_true, if_false]
  rw [ok_bind, hn]
  unfold extractLoop
  rw [archive_cons, e1, ok_bind]
  simp only []
  rw [if_pos (by simp [needFile, Opts.default]), hv, ok_bind]
  simp only []
  rw [if_pos (by rw [P.packed]; omega), P.packed, skip_again hne hshort]
  simp only []
  unfold extractLoop
  rfl

/-- Sample entries. -/
def sampleEntry (method name packed content : List Nat) : Entry where
  method := method
  name := name
  content := content
  packed := packed
  crc := crc16 0 content
  dosTime := 0
  unixTime := 1000000000
  perm := 0o644
  uid := 1000
  gid := 100
  attr := 32
  kind := 0o100000

theorem sampleEntry_crc (m n p c : List Nat) : (sampleEntry m n p c).crc < 2 ^ 16 := crc16_lt 0 c (by decide)

/-- Letters packed by lz5, eight at a time. -/
def lz5Sample : List (List RTok) := List.replicate 12 (List.replicate 8 (.lit 65))

/-- The hypotheses of `C42_false` are met: 96 letters packed by lz5 in a file `a`, then a Sound entry `b` with content `A`. -/
example : Lz5Entry (sampleEntry [45, 108, 122, 53, 45] [97] (lz5Bytes lz5Sample) (List.replicate 96 65)) lz5Sample ∧
    archive [sampleEntry [45, 108, 122, 115, 45] [98] [0xa0, 0x80] [65]] [0] ≠ [] ∧
    (archive [sampleEntry [45, 108, 122, 115, 45] [98] [0xa0, 0x80] [65]] [0]).length ≤
      (sampleEntry [45, 108, 122, 53, 45] [97] (lz5Bytes lz5Sample) (List.replicate 96 65)).packed.length := by
  refine ⟨⟨⟨by decide, by decide, by decide, by decide, ?_, by show (List.replicate 96 65).length < _; rw [List.length_replicate]; decide, sampleEntry_crc _ _ _ _, by decide, Or.inl rfl⟩, rfl, by decide, ?_, ?_, rfl, by decide +kernel⟩,
    by decide +kernel, by decide +kernel⟩
  · rw [show (sampleEntry [45, 108, 122, 53, 45] [97] (lz5Bytes lz5Sample) (List.replicate 96 65)).packed.length = 108 from rfl]
    decide
  · simp [lz5Sample, List.replicate, lz5Groups]
  · intro g hg t ht
    have := List.eq_of_mem_replicate hg
    subst this
    have := List.eq_of_mem_replicate ht
    subst this
    exact (by decide : 65 < 256)

theorem sample_sound (name : List Nat) (h1 : name.length ≤ 221) (h2 : 0 ∉ name) (h3 : 0x5c ∉ name) :
    Sound (sampleEntry [45, 108, 122, 115, 45] name [0xa0, 0x80] [65]) := by
  have hc : crc16 0 [65] < 2 ^ 16 := by decide +kernel
  refine ⟨⟨rfl, h1, h2, h3, (by decide : 2 < 2 ^ 32), (by decide : 1 < 2 ^ 32), hc, (by decide : 0o644 < 2 ^ 12), Or.inl rfl⟩, rfl, 8, (by decide : methods.findIdx? (· = [45, 108, 122, 115, 45]) = some 8), ?_⟩
  have : (Ring.run 2048 lzsRing [.lit 65]).out = [65] := by decide
  show Packed 8 [0xa0, 0x80] [65]
  rw [← this]
  refine .lzs (S := List.replicate 7 false) ?_ (by unfold IsBytes; decide) (by decide) (by decide)
  intro t ht
  simp only [List.mem_cons, List.not_mem_nil, or_false] at ht
  subst ht
  exact (by decide : 65 < 256)

/-- The hypotheses of `C42_partial` are met by `d/ab`, `b`, `c`. -/
example (tab : Arr) : (∀ e ∈ [sampleEntry [45, 108, 122, 115, 45] [100, 47, 97, 98] [0xa0, 0x80] [65],
      sampleEntry [45, 108, 122, 115, 45] [98] [0xa0, 0x80] [65], sampleEntry [45, 108, 122, 115, 45] [99] [0xa0, 0x80] [65]], Sound e) ∧
    NonInc 1024 [sampleEntry [45, 108, 122, 115, 45] [100, 47, 97, 98] [0xa0, 0x80] [65],
      sampleEntry [45, 108, 122, 115, 45] [98] [0xa0, 0x80] [65], sampleEntry [45, 108, 122, 115, 45] [99] [0xa0, 0x80] [65]] ∧
    Tail [0] ∧ GOk Hf.fresh := by
  refine ⟨?_, by simp [NonInc, sampleEntry], Or.inr ⟨[], rfl⟩, by constructor <;> rfl, by constructor <;> rfl⟩
  intro e he
  simp only [List.mem_cons, List.not_mem_nil, or_false] at he
  rcases he with rfl | rfl | rfl <;> exact sample_sound _ (by decide) (by decide) (by decide)

end Lha
