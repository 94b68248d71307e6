import Verif.Model.Archive
import Verif.Proof.Codec
import Verif.Proof.Header
/-!
# Archives of one entry
-/

namespace Lha

open Spec

theorem writeLevel0_length (f : Fmt) (gst gst' : Nat) (h h' : Hdr) (P : List Nat) (hm : h.method.length = 5)
    (hm' : h'.method.length = 5) : (writeLevel0 f gst h P).length = (writeLevel0 f gst' h' P).length := by
  obtain ⟨e1, e2, _⟩ := writeLevel0_eq f gst h P hm
  obtain ⟨e1', e2', _⟩ := writeLevel0_eq f gst' h' P hm'
  rw [e1, e1']
  simp only [List.length_cons]
  rw [e2, e2']
  have : ∀ h : Hdr, (ext0 f h).length = if f.generic then 0 else 12 := by
    intro h; unfold ext0; split <;> simp [le32, le16]
  rw [this, this]

theorem overwrite_eq (old new rest : List Nat) (h : old.length = new.length) : overwrite (old ++ rest) new = new ++ rest := by
  unfold overwrite
  rw [← h, List.drop_left]

theorem convByte_zero_rd (g : Fmt) (c : CaseTo) : convByte [0xff, 0x5c] [0x2f, 0x2f] c 0 = 0 := convByte_nul _ _ _ (by simp)

theorem rName_nul (f : Fmt) (X : List Nat) : ∃ Y, rName f (X ++ [0]) = Y ++ [0] := by
  unfold rName convertFilename
  simp only [List.map_append, List.map_cons, List.map_nil]
  rw [convByte_zero_rd f]
  exact ⟨_, rfl⟩

theorem trav_no_slash (Y : List Nat) (hY : 0x2f ∉ Y) : ∀ s, travLoop s (Y ++ [0]) = false := by
  induction Y with
  | nil =>
    intro s
    show travLoop s [0] = false
    unfold travLoop
    split <;> simp [travLoop]
    rename_i h1 h2 h3
    omega
  | cons c Y ih =>
    intro s
    have hc : c ≠ 0x2f := fun e => hY (by rw [e]; exact List.mem_cons_self ..)
    have ih' := ih (fun e => hY (List.mem_cons_of_mem _ e))
    show travLoop s (c :: (Y ++ [0])) = false
    unfold travLoop
    split <;> simp [hc, ih']

theorem lastSlash_none (name : List Nat) (h : 0x2f ∉ name) : lastSlash name = 0 := by
  unfold lastSlash
  have : name.reverse.findIdx? (· = 0x2f) = none := by
    rw [List.findIdx?_eq_none_iff]
    intro x hx
    simp only [decide_eq_false_iff_not]
    intro e; exact h (by rw [← e]; simpa using hx)
  rw [this]

theorem lastSlash_some (A Y : List Nat) (h : 0x2f ∉ Y) : lastSlash (A ++ 0x2f :: Y) = A.length := by
  unfold lastSlash
  have : (A ++ 0x2f :: Y).reverse.findIdx? (· = 0x2f) = some Y.length := by
    rw [List.findIdx?_eq_some_iff_getElem]
    refine ⟨by simp, ?_, ?_⟩
    · simp
    · intro j hj
      simp only [List.reverse_append, List.reverse_cons, List.append_assoc, decide_eq_true_eq]
      intro e
      rw [List.getElem_append_left (by simpa using hj)] at e
      apply h
      rw [← e]
      have := List.getElem_mem (l := Y.reverse) (n := j) (by simpa using hj)
      simpa using this
  rw [this]
  simp

theorem split_last_slash (name : List Nat) : 0x2f ∉ name ∨ ∃ A Y, name = A ++ 0x2f :: Y ∧ 0x2f ∉ Y := by
  induction name with
  | nil => left; simp
  | cons c name ih =>
    rcases ih with h | ⟨A, Y, rfl, h⟩
    · by_cases hc : c = 0x2f
      · right; exact ⟨[], name, by simp [hc], h⟩
      · left; simp [h]; omega
    · right; exact ⟨c :: A, Y, by simp, h⟩

/-- For entry names ending in NUL (all level-0 names) the last component goes to `makeName`. -/
theorem entryName_plain (o : Opts) (hi : o.ignoreDir = false) (h : Hdr) (X : List Nat) (hn : h.name = X ++ [0]) (hx : h.extendType = 0 ∨ h.extendType = 0x55) :
    ∃ n, entryName o h = (do let x ← makeName o (n ++ [0]); .ok (x.map (fun x => (x, h.name)))) ∧ 0x2f ∉ n ∧ (h.name = n ++ [0] ∨ ∃ A, h.name = A ++ 0x2f :: n ++ [0]) := by
  rcases split_last_slash X with hs | ⟨A, Y, rfl, hY⟩
  · have h0 : lastSlash h.name = 0 := by rw [hn]; exact lastSlash_none _ (by simp [hs])
    unfold entryName
    rw [h0]
    simp only [hi, Bool.false_eq_true, if_false, List.drop_zero]
    rw [show isDirectoryTraversal h.name = false from by rw [hn]; exact trav_no_slash X hs 0]
    simp only [Bool.false_eq_true, if_false]
    obtain ⟨c, hc, hcs⟩ : ∃ c, at_ h.name 0 = .ok c ∧ c ≠ 0x2f := by
      rw [hn]
      cases X with
      | nil => exact ⟨0, rfl, by omega⟩
      | cons c X => exact ⟨c, rfl, fun e => hs (by rw [e]; exact List.mem_cons_self ..)⟩
    rw [hc, ok_bind, if_neg hcs, ok_bind]
    simp only [List.drop_zero]
    rw [hn]
    exact ⟨X, rfl, hs, Or.inl rfl⟩
  · have hn' : h.name = A ++ 0x2f :: (Y ++ [0]) := by rw [hn]; simp
    have h0 : lastSlash h.name = A.length := by rw [hn']; exact lastSlash_some A _ (by simp [hY])
    have hd : h.name.drop A.length = 0x2f :: (Y ++ [0]) := by rw [hn', List.drop_left]
    unfold entryName
    rw [h0]
    simp only [hi, Bool.false_eq_true, if_false]
    rw [show isDirectoryTraversal (h.name.drop A.length) = false from by rw [hd]; exact trav_no_slash Y hY 3]
    simp only [Bool.false_eq_true, if_false]
    have hat : at_ h.name A.length = .ok 0x2f := by unfold at_; rw [hn']; simp
    have hlen : h.name.length = A.length + Y.length + 2 := by rw [hn']; simp; omega
    have hat1 : ∃ c, at_ h.name (A.length + 1) = .ok c ∧ c ≠ 0x2f := by
      unfold at_
      rw [hn', List.getElem?_append_right (by omega)]
      simp only [Nat.add_sub_cancel_left, List.getElem?_cons_succ]
      cases Y with
      | nil => exact ⟨0, rfl, by omega⟩
      | cons c Y => exact ⟨c, rfl, fun e => hY (by rw [e]; exact List.mem_cons_self ..)⟩
    obtain ⟨c, hc, hcs⟩ := hat1
    have hsk : skipSlashes h.name (h.name.length + 1) A.length = .ok (A.length + 1) := by
      rw [hlen]
      unfold skipSlashes
      rw [hat, ok_bind, if_pos rfl]
      unfold skipSlashes
      rw [hc, ok_bind, if_neg hcs]
    rw [hat, ok_bind, if_pos rfl, hsk, ok_bind]
    have hosk : oskName h.extendType h.name (A.length + 1) = .ok (h.name, A.length + 1) := by
      unfold oskName
      rw [if_neg (by omega)]
    rw [hosk, ok_bind]
    simp only []
    have hq : h.name.drop (A.length + 1) = Y ++ [0] := by
      rw [hn', show A ++ 0x2f :: (Y ++ [0]) = (A ++ [0x2f]) ++ (Y ++ [0]) by simp]
      rw [show A.length + 1 = (A ++ [0x2f]).length by simp, List.drop_left]
    rw [hq]
    exact ⟨Y, rfl, hY, Or.inr ⟨A, hn'.trans (by simp)⟩⟩

/-- Entry names ending in NUL (all level-0 names) never make the extraction code fail. -/
theorem entryName_default (h : Hdr) (X : List Nat) (hn : h.name = X ++ [0]) (hx : h.extendType = 0 ∨ h.extendType = 0x55) :
    ∃ n, entryName Opts.default h = .ok (some (n, h.name)) ∧ 0x2f ∉ n ∧ (h.name = n ++ [0] ∨ ∃ A, h.name = A ++ 0x2f :: n ++ [0]) := by
  have key : ∀ Q, 0x2f ∉ Q → makeName Opts.default (Q ++ [0]) = .ok (some Q) := by
    intro Q hQ
    unfold makeName Opts.default
    rw [if_neg (by simp [hQ]), if_pos rfl, if_neg (by simp)]
    simp
  obtain ⟨n, h1, h2, h3⟩ := entryName_plain Opts.default rfl h X hn hx
  refine ⟨n, ?_, h2, h3⟩
  rw [h1, key n h2]
  rfl

/-- Header of a regular file whose method is `methods[mi]`. -/
structure EntryOk (h : Hdr) (mi : Nat) : Prop where
  level : h.level = 0
  method : h.method.length = 5
  packed : h.packedSize < 2 ^ 32
  original : h.originalSize < 2 ^ 32
  crc : h.crc < 2 ^ 16
  mode : h.mode < 2 ^ 16
  regular : fileType h.mode = 0o100000
  sym : isSymlinkMode h.mode = false
  idx : methods.findIdx? (· = h.method) = some mi
  ndir : mi ≠ 11

/-- Reading the entry written for `h` gives a header with the same sizes and method, a NUL-terminated name. -/
theorem entry_read (f : Fmt) (tab : Arr) (gst : Nat) (h : Hdr) (mi : Nat) (ho : EntryOk h mi) (R : List Nat) :
    ∃ g, getHeader f tab newHdr (writeLevel0 f gst h ((h.name ++ [0]).map (wByte f)) ++ R) = .ok (.got g R) ∧
      g.method = h.method ∧ g.packedSize = h.packedSize ∧ g.originalSize = h.originalSize ∧ g.crc = h.crc ∧ g.hasCrc = true ∧
      fileType g.mode = 0o100000 ∧ (g.extendType = 0 ∨ g.extendType = 0x55) ∧
      g.name = rName f (((cstr h.name).take (limit0 f)).map (wByte f) ++ [0]) := by
  have hlim : limit0 f ≤ 233 := by unfold limit0; split <;> omega
  obtain ⟨g, e, e1, e2, e3, e4, e5, e6, e7, e8, e9, e10, e11, e12, e13, e14⟩ := header0_read f tab gst newHdr h R ho.method ho.level
    (by rw [Nat.mod_eq_of_lt (by simpa using ho.mode)]; exact ho.sym) newHdr_method
    (by rw [newHdr_name, List.length_take]; omega) (fun _ => newHdr_ext)
  refine ⟨g, e, e1, ?_, ?_, ?_, e9, ?_, ?_, e6⟩
  · rw [e2, Nat.mod_eq_of_lt ho.packed]
  · rw [e3, Nat.mod_eq_of_lt ho.original]
  · rw [e8, Nat.mod_eq_of_lt ho.crc]
  · rw [e12]; split
    · decide
    · rw [Nat.mod_eq_of_lt ho.mode]; exact ho.regular
  · rw [e10]; split
    · exact Or.inl rfl
    · exact Or.inr rfl

/-- Listing and reading back an archive of one entry, given that its data decodes. -/
theorem read_one (f : Fmt) (oth : Oth) (tab : Arr) (gst : Nat) (h : Hdr) (mi : Nat) (ho : EntryOk h mi) (P D : List Nat)
    (hdec : ∀ hf, HfOk hf → ∃ hf', HfOk hf' ∧
      decodeLzhuf oth tab mi hf h.originalSize h.packedSize (P ++ [0]) = .ok ⟨D, h.crc, h.packedSize, [0], hf'⟩)
    (hf : Hf) (hok : HfOk hf) :
    ∃ g hf1, HfOk hf1 ∧
      headers f oth tab Opts.default hf (some (writeLevel0 f gst h ((h.name ++ [0]).map (wByte f)) ++ P ++ [0])) = .ok ⟨false, [g], hf1⟩ ∧
      (∀ hf', HfOk hf' → ∃ hf2, HfOk hf2 ∧
        decompresBytes f oth tab false g.name hf' (some (writeLevel0 f gst h ((h.name ++ [0]).map (wByte f)) ++ P ++ [0])) = .ok ⟨false, D, hf2⟩) ∧
      g.method = h.method ∧ g.packedSize = h.packedSize ∧ g.originalSize = h.originalSize ∧ g.crc = h.crc ∧
      g.name = rName f (((cstr h.name).take (limit0 f)).map (wByte f) ++ [0]) := by
  obtain ⟨g, e, e1, e2, e3, e4, e5, e6, e7, e8⟩ := entry_read f tab gst h mi ho (P ++ [0])
  obtain ⟨Y, hY⟩ := rName_nul f (((cstr h.name).take (limit0 f)).map (wByte f))
  obtain ⟨n, hn, _⟩ := entryName_default g Y (by rw [e8, hY]) e7
  obtain ⟨hf1, k1, d1⟩ := hdec hf hok
  have hW : ∃ b W, writeLevel0 f gst h ((h.name ++ [0]).map (wByte f)) = b :: W := by
    obtain ⟨e1, _, _⟩ := writeLevel0_eq f gst h ((h.name ++ [0]).map (wByte f)) ho.method
    exact ⟨_, _, e1⟩
  obtain ⟨b, W, hbW⟩ := hW
  have hfuel : ∃ k, (writeLevel0 f gst h ((h.name ++ [0]).map (wByte f)) ++ P ++ [0]).length + 1 = k + 2 := by
    rw [hbW]; exact ⟨W.length + P.length + 1, by simp; omega⟩
  obtain ⟨k, hk⟩ := hfuel
  have e' : getHeader f tab newHdr (writeLevel0 f gst h ((h.name ++ [0]).map (wByte f)) ++ P ++ [0]) = .ok (.got g (P ++ [0])) := by
    rw [List.append_assoc]; exact e
  refine ⟨g, hf1, k1, ?_, ?_, e1, e2, e3, e4, e8⟩
  · unfold headers
    simp only []
    rw [hk]
    unfold headersLoop
    rw [e', ok_bind]
    simp only []
    rw [if_pos (by simp [needFile, Opts.default])]
    have hv : verifyOne oth tab Opts.default hf g (P ++ [0]) = .ok (.ok ⟨h.packedSize, [0], hf1, g.name, none⟩) := by
      unfold verifyOne
      rw [hn, ok_bind]
      simp only [e1, ho.idx]
      rw [if_pos ⟨e6, ho.ndir⟩, e2, e3, d1, ok_bind]
      simp only []
      rw [if_neg (by rw [e4]; simp)]
    rw [hv, ok_bind]
    simp only []
    rw [if_neg (by rw [e2]; simp)]
    unfold headersLoop
    simp only [List.nil_append]
    rfl
  · intro hf' hok'
    obtain ⟨hf2, k2, d2⟩ := hdec hf' hok'
    refine ⟨hf2, k2, ?_⟩
    unfold decompresBytes
    simp only [Bool.false_eq_true, if_false]
    rw [ok_bind, hk]
    unfold extractBytesLoop
    rw [e', ok_bind]
    simp only []
    rw [if_pos trivial]
    have hv : extractOneStream oth tab hf' g (P ++ [0]) = .ok (.ok ⟨D, h.crc, h.packedSize, [0], hf2⟩) := by
      unfold extractOneStream
      simp only [e1, ho.idx]
      rw [if_pos ⟨e6, ho.ndir⟩, e2, e3, d2, ok_bind]
      simp only []
      rw [if_neg (by rw [e4]; simp)]
    rw [hv, ok_bind]
    simp only [e2, ne_eq, not_true, if_false]
    unfold extractBytesLoop
    rfl

theorem mode_facts (perm : Nat) (hp : perm < 512) : (perm + 33000) % 65536 = perm + 33000 ∧ perm + 33000 < 2 ^ 16 ∧
    fileType (perm + 33000) = 0o100000 ∧ isSymlinkMode (perm + 33000) = false := by
  have h1 : (perm + 33000) % 65536 = perm + 33000 := Nat.mod_eq_of_lt (by omega)
  have key : ∀ x : Fin 512, fileType (x.val + 33000) = 0o100000 ∧ isSymlinkMode (x.val + 33000) = false := by decide +kernel
  have := key ⟨perm, hp⟩
  exact ⟨h1, by omega, this.1, this.2⟩

/-- The header `addOne` starts from. -/
theorem initHeader_facts (e : Env) (hperm : e.perm < 512) (name : List Nat) (size : Nat) :
    let h := initHeader e 0 name size false
    h.level = 0 ∧ h.method = lh0 ∧ h.mode < 2 ^ 16 ∧ fileType h.mode = 0o100000 ∧ isSymlinkMode h.mode = false ∧ h.originalSize = size ∧
      h.packedSize = 0 ∧ h.crc = 0 ∧ h.name = copyInto newHdr.name (baseName name) := by
  obtain ⟨m1, m2, m3, m4⟩ := mode_facts e.perm hperm
  have hmode : (initHeader e 0 name size false).mode = e.perm + 33000 := by
    show (e.perm + 33000) % 65536 = _
    exact m1
  refine ⟨rfl, rfl, ?_, ?_, ?_, rfl, rfl, rfl, rfl⟩
  · rw [hmode]; exact m2
  · rw [hmode]; exact m3
  · rw [hmode]; exact m4

theorem methodStr_idx {m : Nat} (hm : m = 1 ∨ m = 5 ∨ m = 6 ∨ m = 7) : methods.findIdx? (· = methodStr m) = some m := by
  rcases hm with rfl | rfl | rfl | rfl <;> decide

/-- The header `addOne` writes in the end. -/
def packedHdr (h0 : Hdr) (m : Nat) (r : EncOut) : Hdr :=
  { h0 with crc := r.crc, method := methodStr m, originalSize := r.original, packedSize := r.packed }

/-- `addOne` of a file that becomes smaller, to a new archive. -/
theorem addOne_packed (f : Fmt) (tab : Arr) (e : Env) (m : Nat) (g : Geo) (hg : geoOf m = some g)
    (h0 : Hdr) (i1 : h0.level = 0) (i2 : h0.method.length = 5) (i5 : isSymlinkMode h0.mode = false) (D : List Nat) (i6 : h0.originalSize = D.length)
    (p : Proc) (r : EncOut) (hr : encode g tab p D.length D = .ok (some r)) (hlt : r.packed < r.original) (hne : D ≠ []) :
    addOne f tab e m h0 D ⟨[], none, p⟩ =
      .ok ⟨writeLevel0 f (e.gst h0.stamp) (packedHdr h0 m r) ((h0.name ++ [0]).map (wByte f)) ++ r.out, none, r.proc⟩ := by
  have hlen : D.length ≠ 0 := fun e => hne (List.length_eq_zero_iff.mp e)
  unfold addOne
  rw [writeHeader_level0 f tab _ h0 i1 i5, ok_bind]
  simp only [Option.getD_some, List.nil_append]
  rw [if_neg (by rw [i6]; exact hlen)]
  unfold encodeLzhuf
  simp only [hg, i6]
  rw [hr, ok_bind]
  simp only []
  unfold percent
  rw [if_neg (show ¬ r.original = 0 by omega), ok_bind]
  simp only []
  rw [if_pos hlt]
  rw [writeHeader_level0 f tab _ _ (by exact i1) (by exact i5), ok_bind]
  simp only [Option.getD_some]
  rw [overwrite_eq]
  · rfl
  · exact writeLevel0_length f _ _ h0 (packedHdr h0 m r) _ i2 rfl

theorem addOne_empty (f : Fmt) (tab : Arr) (e : Env) (hperm : e.perm < 512) (m : Nat) (name : List Nat) (p : Proc) :
    let h := initHeader e 0 name 0 false
    addOne f tab e m h [] ⟨[], none, p⟩ = .ok ⟨writeLevel0 f (e.gst h.stamp) h ((h.name ++ [0]).map (wByte f)), none, p⟩ := by
  intro h
  obtain ⟨i1, i2, i3, i4, i5, i6, i7, i8, i9⟩ := initHeader_facts e hperm name 0
  unfold addOne
  rw [writeHeader_level0 f tab _ h i1 i5, ok_bind]
  rw [if_pos i6]
  rfl

/-- What `CompressBytes` makes of one `addOne`. -/
theorem compressBytes_new (f : Fmt) (tab : Arr) (e : Env) (m level : Nat) (archive name body : List Nat) (hname : name ≠ archive)
    (p : Proc) (st : AddSt)
    (h : addOne f tab e m (initHeader e level name body.length false) body ⟨[], none, p⟩ = .ok st) (hold : st.old = none) :
    compressBytes f tab e m level archive name body none p = .ok (some ⟨false, some (st.new ++ [0]), [], st.proc⟩) := by
  unfold compressBytes commandAdd
  simp only []
  rw [if_neg (by simp)]
  unfold addItems
  rw [if_neg hname]
  simp only [timesAdded, if_true]
  unfold appendTimes appendOne
  simp only []
  rw [h]
  simp only [ok_bind]
  unfold appendTimes
  simp only [ok_bind]
  unfold addItems
  simp only [ok_bind]
  unfold copyTail
  rw [hold]
  rfl

theorem compressBytes_panic (f : Fmt) (tab : Arr) (e : Env) (m level : Nat) (archive name body : List Nat) (hname : name ≠ archive)
    (p : Proc) (h : addOne f tab e m (initHeader e level name body.length false) body ⟨[], none, p⟩ = .error .panic) :
    compressBytes f tab e m level archive name body none p = .error .panic := by
  unfold compressBytes commandAdd
  simp only []
  rw [if_neg (by simp)]
  unfold addItems
  rw [if_neg hname]
  simp only [timesAdded, if_true]
  unfold appendTimes appendOne
  simp only []
  rw [h]
  rfl

end Lha
