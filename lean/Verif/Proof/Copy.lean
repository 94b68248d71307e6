import Verif.Proof.Archive
/-!
# `copyfile`
-/

namespace Lha

open Spec

theorem copyInto_take (dst src : List Nat) (h : src.length ≤ dst.length) : copyInto dst src = src ++ dst.drop src.length := by
  unfold copyInto
  rw [List.take_of_length_le h]

/-- Every byte of the input is written, followed by stale bytes up to the next multiple of 2048. -/
theorem copyLoop_ok (fuel : Nat) : ∀ (buf inp : List Nat), buf.length = 2048 → inp.length < fuel →
    ∃ pad, copyLoop fuel buf inp = .ok (inp ++ pad, inp.length) ∧ pad.length = (2048 - inp.length % 2048) % 2048 := by
  induction fuel with
  | zero => intro buf inp _ h; omega
  | succ f ih =>
    intro buf inp hb hl
    unfold copyLoop
    by_cases he : inp = []
    · rw [if_pos he, he]; exact ⟨[], rfl, rfl⟩
    · have hne : 0 < inp.length := List.length_pos_iff.mpr he
      rw [if_neg he]
      have hx : (inp.take 2048).length ≤ 2048 := by simp
      have hc : copyInto buf (inp.take 2048) = inp.take 2048 ++ buf.drop (inp.take 2048).length := copyInto_take _ _ (by omega)
      have hcl : (copyInto buf (inp.take 2048)).length = 2048 := by rw [hc]; simp; omega
      obtain ⟨pad, e1, e2⟩ := ih (copyInto buf (inp.take 2048)) (inp.drop 2048) hcl (by simp; omega)
      simp only []
      rw [e1, ok_bind]
      simp only []
      by_cases hlong : 2048 ≤ inp.length
      · refine ⟨pad, ?_, ?_⟩
        · rw [hc, List.drop_of_length_le (l := buf) (by simp; omega), List.append_nil, ← List.append_assoc, List.take_append_drop]
          congr 2
          simp; omega
        · rw [e2, List.length_drop]
          have : inp.length % 2048 = (inp.length - 2048) % 2048 := by omega
          rw [this]
      · have ht : inp.take 2048 = inp := List.take_of_length_le (by omega)
        have hd : inp.drop 2048 = [] := List.drop_of_length_le (by omega)
        rw [hd] at e2 ⊢
        have hp0 : pad = [] := List.length_eq_zero_iff.mp e2
        refine ⟨buf.drop inp.length, ?_, ?_⟩
        · rw [hc, ht, hp0]; simp
        · rw [List.length_drop, hb]; omega

theorem copyfile_ok (size : Nat) (h : 0 < size) (inp : List Nat) :
    ∃ pad, copyfile size inp = .ok (inp ++ pad, inp.length, []) ∧ pad.length = (2048 - inp.length % 2048) % 2048 := by
  obtain ⟨pad, e1, e2⟩ := copyLoop_ok (inp.length + 1) (List.replicate 2048 0) inp (List.length_replicate ..) (by omega)
  refine ⟨pad, ?_, e2⟩
  unfold copyfile
  rw [if_pos h, e1]
  rfl

/-- The header `addOne` writes when it falls back to storing. -/
def storedHdr (h0 : Hdr) (n : Nat) : Hdr := { h0 with crc := 0, method := lh0, originalSize := n, packedSize := n }

/-- `addOne` when the data did not get smaller: what the encoder left unread is appended, the header speaks of that only. -/
theorem addOne_stored (f : Fmt) (tab : Arr) (e : Env) (m : Nat) (h0 : Hdr) (i1 : h0.level = 0) (i2 : h0.method.length = 5)
    (i5 : isSymlinkMode h0.mode = false) (D : List Nat) (i6 : h0.originalSize = D.length) (p : Proc) (r : LzhufOut)
    (hr : encodeLzhuf m tab p D.length D = .ok r) (hge : r.original ≤ r.packed) (hne : D ≠ []) :
    ∃ pad, pad.length = (2048 - r.rest.length % 2048) % 2048 ∧ addOne f tab e m h0 D ⟨[], none, p⟩ =
      .ok ⟨writeLevel0 f (e.gst h0.stamp) (storedHdr h0 r.rest.length) ((h0.name ++ [0]).map (wByte f)) ++
        (r.written ++ (r.rest ++ pad)), none, r.proc⟩ := by
  have hlen : D.length ≠ 0 := fun e => hne (List.length_eq_zero_iff.mp e)
  obtain ⟨pad, c1, c2⟩ := copyfile_ok D.length (by omega) r.rest
  refine ⟨pad, c2, ?_⟩
  unfold addOne
  rw [writeHeader_level0 f tab _ h0 i1 i5, ok_bind]
  simp only [Option.getD_some, List.nil_append]
  rw [if_neg (by rw [i6]; exact hlen)]
  simp only [i6]
  rw [hr, ok_bind]
  rw [if_neg (by omega), c1, ok_bind]
  simp only []
  rw [writeHeader_level0 f tab _ _ (by exact i1) (by exact i5), ok_bind]
  simp only [Option.getD_some, List.append_assoc]
  rw [overwrite_eq]
  · rfl
  · exact writeLevel0_length f _ _ h0 (storedHdr h0 r.rest.length) _ i2 rfl

/-- `Headers` keeps what it has listed. -/
theorem headersLoop_prefix (f : Fmt) (oth : Oth) (tab : Arr) (o : Opts) (n : Nat) : ∀ (hf : Hf) (acc : List Hdr) (inp : List Nat) (r : HeadersOut),
    headersLoop f oth tab o n hf acc inp = .ok r → ∃ l, r.headers = acc ++ l := by
  induction n with
  | zero => intro hf acc inp r h; cases h
  | succ n ih =>
    intro hf acc inp r h
    unfold headersLoop at h
    obtain ⟨x, _, h⟩ := bind_ok h
    split at h
    · split at h
      · obtain ⟨y, _, h⟩ := bind_ok h
        split at h
        · cases h; exact ⟨_, rfl⟩
        · simp only [] at h
          split at h
          · split at h
            · cases h; exact ⟨_, rfl⟩
            · obtain ⟨l, hl⟩ := ih _ _ _ _ h
              exact ⟨_, by rw [hl, List.append_assoc]⟩
          · obtain ⟨l, hl⟩ := ih _ _ _ _ h
            exact ⟨_, by rw [hl, List.append_assoc]⟩
      · split at h
        · cases h; exact ⟨_, rfl⟩
        · obtain ⟨l, hl⟩ := ih _ _ _ _ h
          exact ⟨_, by rw [hl, List.append_assoc]⟩
    · cases h; exact ⟨[], by simp⟩

theorem storedHdr_ok (h0 : Hdr) (i1 : h0.level = 0) (i3 : h0.mode < 2 ^ 16) (i4 : fileType h0.mode = 0o100000)
    (i5 : isSymlinkMode h0.mode = false) (n : Nat) (hn : n < 2 ^ 32) : EntryOk (storedHdr h0 n) 0 :=
  ⟨i1, rfl, hn, hn, by show 0 < _; omega, i3, i4, i5, by show methods.findIdx? (· = lh0) = _; decide, by decide⟩

/-- The first header `Headers` lists is that of the first entry. -/
theorem headers_first (f : Fmt) (oth : Oth) (tab : Arr) (gst : Nat) (h : Hdr) (mi : Nat) (ho : EntryOk h mi) (R : List Nat) (hf : Hf)
    (r : HeadersOut)
    (hr : headers f oth tab Opts.default hf (some (writeLevel0 f gst h ((h.name ++ [0]).map (wByte f)) ++ R)) = .ok r) :
    ∃ g l, r.headers = g :: l ∧ g.method = h.method ∧ g.packedSize = h.packedSize ∧ g.originalSize = h.originalSize ∧ g.crc = h.crc := by
  obtain ⟨g, e, e1, e2, e3, e4, e5, e6, e7, e8⟩ := entry_read f tab gst h mi ho R
  unfold headers at hr
  simp only [] at hr
  unfold headersLoop at hr
  rw [e, ok_bind] at hr
  simp only [] at hr
  rw [if_pos (by simp [needFile, Opts.default])] at hr
  obtain ⟨y, _, hr⟩ := bind_ok hr
  split at hr
  · cases hr; exact ⟨g, [], rfl, e1, e2, e3, e4⟩
  · rename_i d
    simp only [List.nil_append] at hr
    split at hr
    · split at hr
      · cases hr; exact ⟨_, [], rfl, e1, e2, e3, e4⟩
      · obtain ⟨l, hl⟩ := headersLoop_prefix _ _ _ _ _ _ _ _ _ hr
        exact ⟨_, l, hl, e1, e2, e3, e4⟩
    · obtain ⟨l, hl⟩ := headersLoop_prefix _ _ _ _ _ _ _ _ _ hr
      exact ⟨_, l, hl, e1, e2, e3, e4⟩

/-- An entry recorded with size 0, method lh0 and checksum 0, followed by a zero byte: it is read as empty, and the zero byte as the end of the
archive. -/
theorem read_zero (f : Fmt) (oth : Oth) (tab : Arr) (gst : Nat) (h : Hdr) (ho : EntryOk h 0) (h1 : h.originalSize = 0) (h2 : h.packedSize = 0)
    (h3 : h.crc = 0) (R : List Nat) (hf : Hf) :
    ∃ g, headers f oth tab Opts.default hf (some (writeLevel0 f gst h ((h.name ++ [0]).map (wByte f)) ++ 0 :: R)) = .ok ⟨false, [g], hf⟩ ∧
      decompresBytes f oth tab false g.name hf (some (writeLevel0 f gst h ((h.name ++ [0]).map (wByte f)) ++ 0 :: R)) = .ok ⟨false, [], hf⟩ ∧
      g.originalSize = 0 ∧ g.packedSize = 0 ∧ g.crc = 0 ∧ g.method = h.method := by
  obtain ⟨g, e, e1, e2, e3, e4, e5, e6, e7, e8⟩ := entry_read f tab gst h 0 ho (0 :: R)
  obtain ⟨Y, hY⟩ := rName_nul f (((cstr h.name).take (limit0 f)).map (wByte f))
  obtain ⟨n, hn, _⟩ := entryName_default g Y (by rw [e8, hY]) e7
  obtain ⟨b, W, hbW⟩ : ∃ b W, writeLevel0 f gst h ((h.name ++ [0]).map (wByte f)) = b :: W := by
    obtain ⟨e1, _, _⟩ := writeLevel0_eq f gst h ((h.name ++ [0]).map (wByte f)) ho.method
    exact ⟨_, _, e1⟩
  obtain ⟨k, hk⟩ : ∃ k, (writeLevel0 f gst h ((h.name ++ [0]).map (wByte f)) ++ 0 :: R).length + 1 = k + 2 := by
    rw [hbW]; exact ⟨W.length + R.length + 1, by simp; omega⟩
  have hd : ∀ inp, decodeLzhuf oth tab 0 hf g.originalSize g.packedSize inp = .ok ⟨[], 0, 0, inp, hf⟩ := by
    intro inp
    rw [e2, e3, h1, h2]; rfl
  refine ⟨g, ?_, ?_, by rw [e3, h1], by rw [e2, h2], by rw [e4, h3], e1⟩
  · unfold headers
    simp only []
    rw [hk]
    unfold headersLoop
    rw [e, ok_bind]
    simp only []
    rw [if_pos (by simp [needFile, Opts.default])]
    have hv : verifyOne oth tab Opts.default hf g (0 :: R) = .ok (.ok ⟨0, 0 :: R, hf, g.name, none⟩) := by
      unfold verifyOne
      rw [hn, ok_bind]
      simp only [e1, ho.idx]
      rw [if_pos ⟨e6, ho.ndir⟩, hd, ok_bind]
      simp only []
      rw [if_neg (by rw [e4, h3]; simp)]
    rw [hv, ok_bind]
    simp only []
    rw [if_neg (by rw [e2, h2]; simp)]
    unfold headersLoop
    simp only [List.nil_append]
    rfl
  · unfold decompresBytes
    simp only [Bool.false_eq_true, if_false]
    rw [ok_bind, hk]
    unfold extractBytesLoop
    rw [e, ok_bind]
    simp only []
    rw [if_pos trivial]
    have hv : extractOneStream oth tab hf g (0 :: R) = .ok (.ok ⟨[], 0, 0, 0 :: R, hf⟩) := by
      unfold extractOneStream
      simp only [e1, ho.idx]
      rw [if_pos ⟨e6, ho.ndir⟩, hd, ok_bind]
      simp only []
      rw [if_neg (by rw [e4, h3]; simp)]
    rw [hv, ok_bind]
    simp only []
    rw [if_neg (by rw [e2, h2]; simp)]
    unfold extractBytesLoop
    rfl

end Lha
