import Verif.Proof.Copy
/-!
# C20: stored entries (method 0)

The property is false.  After copying the body, `addOne` finds that it "did not get smaller" and stores what is left of the input, which is nothing:
the header says size 0.
-/

namespace Lha

open Spec

/-- What `CompressBytes` writes for a method that is not 1, 5, 6 or 7. -/
theorem stored_archive (f : Fmt) (tab : Arr) (e : Env) (hperm : e.perm < 512) (m : Nat) (hm : geoOf m = none)
    (archive name body : List Nat) (hname : name ≠ archive) (p : Proc) (hne : body ≠ []) :
    ∃ h pad, EntryOk h 0 ∧ h.originalSize = 0 ∧ h.packedSize = 0 ∧ h.crc = 0 ∧
      compressBytes f tab e m 0 archive name body none p = .ok (some ⟨false,
        some (writeLevel0 f (e.gst h.stamp) h ((h.name ++ [0]).map (wByte f)) ++ (body ++ pad)), [], p⟩) := by
  obtain ⟨i1, i2, i3, i4, i5, i6, i7, i8, i9⟩ := initHeader_facts e hperm name body.length
  have hl : body.length ≠ 0 := fun e => hne (List.length_eq_zero_iff.mp e)
  obtain ⟨pad, c1, c2⟩ := copyfile_ok body.length (by omega) body
  have hr : encodeLzhuf m tab p body.length body = .ok ⟨body ++ pad, body.length, body.length, 0, methodStr 0, [], p⟩ := by
    unfold encodeLzhuf
    simp only [hm]
    rw [c1, ok_bind]
    simp only []
    unfold percent
    rw [if_neg hl]
  obtain ⟨pad2, _, ha⟩ := addOne_stored f tab e m (initHeader e 0 name body.length false) i1 (by rw [i2]; rfl) i5 body i6 p _ hr
    (Nat.le_refl _) hne
  have hc := compressBytes_new f tab e m 0 archive name body hname p _ ha rfl
  simp only [] at hc
  generalize initHeader e 0 name body.length false = h0 at *
  refine ⟨storedHdr h0 0, pad ++ pad2 ++ [0], storedHdr_ok h0 i1 i3 i4 i5 0 (by omega), rfl, rfl, rfl, ?_⟩
  rw [hc]
  simp only [List.nil_append, List.append_assoc, List.length_nil]
  rfl

/-- **C20 is false** for every non-empty body: the entry listed has size 0. -/
theorem C20_false (f : Fmt) (oth : Oth) (tab : Arr) (e : Env) (hperm : e.perm < 512) (m : Nat) (hm : geoOf m = none)
    (archive name body : List Nat) (hname : name ≠ archive) (p : Proc) (hne : body ≠ []) :
    ∃ a, compressBytes f tab e m 0 archive name body none p = .ok (some ⟨false, some a, [], p⟩) ∧
      ∀ hf r, headers f oth tab Opts.default hf (some a) = .ok r → ∃ g l, r.headers = g :: l ∧ g.originalSize = 0 ∧ g.originalSize ≠ body.length := by
  obtain ⟨h, pad, ho, h1, h2, h3, hc⟩ := stored_archive f tab e hperm m hm archive name body hname p hne
  refine ⟨_, hc, ?_⟩
  intro hf r hr
  obtain ⟨g, l, e1, e2, e3, e4, e5⟩ := headers_first f oth tab _ h 0 ho _ hf r hr
  have hl : body.length ≠ 0 := fun e => hne (List.length_eq_zero_iff.mp e)
  exact ⟨g, l, e1, by rw [e4, h1], by rw [e4, h1]; omega⟩

/-- … and if the body starts with a zero byte, listing and decompression succeed without any error and return nothing. -/
theorem C20_silent_loss (f : Fmt) (oth : Oth) (tab : Arr) (e : Env) (hperm : e.perm < 512) (m : Nat) (hm : geoOf m = none)
    (archive name body : List Nat) (hname : name ≠ archive) (p : Proc) (hf : Hf) :
    ∃ a g, compressBytes f tab e m 0 archive name (0 :: body) none p = .ok (some ⟨false, some a, [], p⟩) ∧
      headers f oth tab Opts.default hf (some a) = .ok ⟨false, [g], hf⟩ ∧
      decompresBytes f oth tab false g.name hf (some a) = .ok ⟨false, [], hf⟩ := by
  obtain ⟨h, pad, ho, h1, h2, h3, hc⟩ := stored_archive f tab e hperm m hm archive name (0 :: body) hname p (by simp)
  obtain ⟨g, e1, e2, _⟩ := read_zero f oth tab (e.gst h.stamp) h ho h1 h2 h3 (body ++ pad) hf
  exact ⟨_, g, hc, e1, e2⟩

/-- What holds (full statement: for every body): the empty body survives, with any method. -/
theorem C20_empty_partial (f : Fmt) (oth : Oth) (tab : Arr) (e : Env) (hperm : e.perm < 512) (m : Nat)
    (archive name : List Nat) (hname : name ≠ archive) (p : Proc) (hf : Hf) :
    ∃ a g, compressBytes f tab e m 0 archive name [] none p = .ok (some ⟨false, some a, [], p⟩) ∧
      headers f oth tab Opts.default hf (some a) = .ok ⟨false, [g], hf⟩ ∧ g.originalSize = 0 ∧
      decompresBytes f oth tab false g.name hf (some a) = .ok ⟨false, [], hf⟩ := by
  obtain ⟨i1, i2, i3, i4, i5, i6, i7, i8, i9⟩ := initHeader_facts e hperm name 0
  have ha := addOne_empty f tab e hperm m name p
  have hc := compressBytes_new f tab e m 0 archive name [] hname p _ ha rfl
  simp only [] at hc
  generalize initHeader e 0 name 0 false = h0 at *
  have ho : EntryOk h0 0 := ⟨i1, by rw [i2]; rfl, by rw [i7]; omega, by rw [i6]; omega, by rw [i8]; omega, i3, i4, i5,
    by rw [i2]; decide, by decide⟩
  obtain ⟨g, e1, e2, e3, _⟩ := read_zero f oth tab (e.gst h0.stamp) h0 ho i6 i7 i8 [] hf
  exact ⟨_, g, hc, e1, e3, e2⟩

/-- The hypotheses are met by method 0 (and by 2, 3, 4, which the encoder does not know). -/
example : geoOf 0 = none ∧ geoOf 4 = none ∧ ([97] : List Nat) ≠ [120] ∧ (0o644 : Nat) < 512 := by decide

end Lha
