import Verif.Props.C42
/-!
# C44: `Headers` lists every entry
-/

namespace Lha

open Spec

/-- **C44 (partial).** Full statement: the same for every archive of valid entries.  Proved here for any number of entries as in C42, here with
any names (a fresh header is used for every entry) and right checksums.  `Parsed e h`: name (with its terminating NUL), method, sizes,
checksum, mode, time, user and group of the listed header are those of the entry.  False for lz5 entries: `C44_false`. -/
theorem C44_partial (f : Fmt) (hg : f.generic = false) (tab : Arr) (ht : makeCrcTable = .ok tab)
    (es : List Entry) (hes : ∀ e ∈ es, Sound e ∧ e.crc = crc16 0 e.content) (t : List Nat) (htl : Tail t) (hf : Hf) (hok : GOk hf) :
    ∃ hs hf', GOk hf' ∧ headers f (others tab) tab Opts.default hf (some (archive es t)) = .ok ⟨false, hs, hf'⟩ ∧ List.Forall₂ Parsed es hs := by
  obtain ⟨hs, hf', ok', hp, h⟩ := headersLoop_good f hg ht htl es ((archive es t).length + 1) hf [] (by have := archive_length es t; omega) hes hok
  refine ⟨hs, hf', ok', ?_, hp⟩
  unfold headers
  simp only []
  rw [h]
  rfl

/-- **C44 is false** if an entry is packed by lz5: what comes after it is not listed (if it is not longer than the packed data of the lz5 entry). -/
theorem C44_false (f : Fmt) (hg : f.generic = false) (tab : Arr) (ht : makeCrcTable = .ok tab)
    (e : Entry) (gs : List (List RTok)) (h5 : Lz5Entry e gs) (hcrc : e.crc = crc16 0 e.content) (es : List Entry) (t : List Nat)
    (hne : archive es t ≠ []) (hshort : (archive es t).length ≤ e.packed.length) (hf : Hf) :
    ∃ h, Parsed e h ∧ headers f (others tab) tab Opts.default hf (some (archive (e :: es) t)) = .ok ⟨false, [h], hf⟩ := by
  obtain ⟨g, e1, P⟩ := entry_parse f hg tab e h5.ok newHdr newHdr_method (by rw [newHdr_name]; have := h5.ok.name; omega) (archive es t)
  have hidx : methods.findIdx? (· = e.method) = some 9 := by rw [h5.method]; decide
  have hv : verifyOne (others tab) tab Opts.default hf g (e.packed ++ archive es t) =
      .ok (.ok ⟨0, archive es t, hf, g.name, none⟩) := by
    unfold verifyOne
    rw [P.entryName, ok_bind]
    simp only [P.method, hidx]
    rw [if_pos ⟨(P.fileType h5.ok).trans h5.kind, by omega⟩, P.original, P.packed, h5.decodes ht hf, ok_bind]
    simp only []
    rw [if_neg (by rw [P.crc, hcrc]; simp)]
  have hpos : 0 < e.packed.length := by have := List.length_pos_iff.2 hne; omega
  obtain ⟨n, hn⟩ : ∃ n, (archive (e :: es) t).length + 1 = n + 2 := by
    have := archive_length (e :: es) t
    rw [List.length_cons] at this
    exact ⟨(archive (e :: es) t).length - 1, by omega⟩
  refine ⟨g, P, ?_⟩
  unfold headers
  simp only []
  rw [hn]
  unfold headersLoop
  rw [archive_cons, e1, ok_bind]
  simp only []
  rw [if_pos (by simp [needFile, Opts.default]), hv, ok_bind]
  simp only []
  have hsk : skipTo g.packedSize (archive es t) = some [] := by rw [P.packed]; exact skip_again hne hshort
  rw [if_pos (by rw [P.packed]; omega), hsk]
  simp only []
  unfold headersLoop
  rfl

/-- The hypotheses of `C44_partial` are met by files `b` and `d/ab` (names getting longer). -/
example (tab : Arr) : ∀ e ∈ [sampleEntry [45, 108, 122, 115, 45] [98] [0xa0, 0x80] [65],
      sampleEntry [45, 108, 122, 115, 45] [100, 47, 97, 98] [0xa0, 0x80] [65]], Sound e ∧ e.crc = crc16 0 e.content := by
  intro e he
  simp only [List.mem_cons, List.not_mem_nil, or_false] at he
  rcases he with rfl | rfl <;> exact ⟨sample_sound _ (by decide) (by decide) (by decide), rfl⟩

end Lha
