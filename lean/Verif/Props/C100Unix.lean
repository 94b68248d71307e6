import Verif.Props.C100
/-!
# C100: Unix entries whose headers are longer than they need to be

A level-0 header may go on behind the group; readers have to pass over what is there.
-/

namespace Lha

namespace Spec

/-- The entry with the bytes `X` at the end of its header. -/
def Entry.longer (e : Entry) (X : List Nat) : List Nat :=
  let b := e.body ++ X
  b.length :: b.sum % 256 :: b ++ e.packed

end Spec

open Spec

/-- Reading the header of a Unix entry that goes on behind the group. -/
theorem longer_parse (f : Fmt) (tab : Arr) (e : Entry) (ho : e.Ok) (X : List Nat) (hX : e.name.length + X.length ≤ 221) (h : Hdr) (hm : h.method.length = 5)
    (hn : e.name.length < h.name.length) (R : List Nat) :
    ∃ g, getHeader f tab h (e.longer X ++ R) = .ok (.got g (e.packed ++ R)) ∧ Parsed e g := by
  generalize hnm : e.name.map (fun b => if b = 0x2f then 0x5c else b) = nm
  have hnl : nm.length = e.name.length := by rw [← hnm]; simp
  generalize hext : 0x55 :: 0 :: (le32 e.unixTime ++ (le16 (e.kind + e.perm) ++ (le16 e.uid ++ (le16 e.gid ++ X)))) = ext
  have hel : ext.length = 12 + X.length := by rw [← hext]; simp [le32, le16]; omega
  have hbody : e.body ++ X = body0 e.method e.packed.length e.content.length e.dosTime e.attr 0 nm e.crc ext := by
    unfold Entry.body body0
    rw [le_four, le_four, le_four, le_two, hnl, hnm, ← hext, le_four, le_two, le_two, le_two]
    simp
  generalize hB : e.body ++ X = B at hbody
  have hbl : B.length = 22 + nm.length + ext.length := by rw [hbody]; exact body0_length _ _ _ _ _ _ _ _ _ ho.method
  have hlv : B.getD 18 0 = 0 := by
    have : B = (e.method ++ le32 e.packed.length ++ le32 e.content.length ++ le32 e.dosTime ++ [e.attr]) ++ (0 :: (nm.length :: nm ++ le16 e.crc ++ ext)) := by
      rw [hbody]; simp [body0]
    rw [this, List.getD_eq_getElem?_getD, List.getElem?_append_right (by simp [le32, ho.method])]
    simp [le32, ho.method]
  have hp := parseLevel0_ok h B.length (B.sum % 256) e.method e.packed.length e.content.length e.dosTime e.attr 0 nm e.crc ext
    ho.method hm (by omega) (by omega) hbl
  rw [← hbody] at hp
  have e0 : e.longer X ++ R = B.length :: (B.sum % 256) :: B ++ (e.packed ++ R) := by
    unfold Entry.longer
    rw [hB]
    simp
  rw [e0, getHeader_level0 f tab h B.length _ B (e.packed ++ R) (by omega) rfl (by omega) hlv rfl, hp]
  have hd : (B.length :: B.sum % 256 :: B).drop (24 + nm.length) = 0x55 :: 0 :: (le32 e.unixTime ++ (le16 (e.kind + e.perm) ++ (le16 e.uid ++ (le16 e.gid ++ X)))) := by
    rw [hext, show 24 + nm.length = (22 + nm.length) + 1 + 1 by omega, List.drop_succ_cons, List.drop_succ_cons, hbody]
    unfold body0
    rw [List.drop_append_of_le_length (by simp [le32, le16, ho.method]; omega), List.drop_of_length_le (by simp [le32, le16, ho.method]; omega)]
    rfl
  have d1 : (B.length :: B.sum % 256 :: B).drop (25 + nm.length) = 0 :: (le32 e.unixTime ++ (le16 (e.kind + e.perm) ++ (le16 e.uid ++ (le16 e.gid ++ X)))) := by
    rw [show 25 + nm.length = 24 + nm.length + 1 by omega]; exact drop_succ_of hd
  have d2 : (B.length :: B.sum % 256 :: B).drop (26 + nm.length) = le32 e.unixTime ++ (le16 (e.kind + e.perm) ++ (le16 e.uid ++ (le16 e.gid ++ X))) := by
    rw [show 26 + nm.length = 25 + nm.length + 1 by omega]; exact drop_succ_of d1
  have d6 : (B.length :: B.sum % 256 :: B).drop (30 + nm.length) = le16 (e.kind + e.perm) ++ (le16 e.uid ++ (le16 e.gid ++ X)) := by
    rw [show 30 + nm.length = 26 + nm.length + 4 by omega]; exact drop_add_of (n := 4) d2 rfl
  have d8 : (B.length :: B.sum % 256 :: B).drop (32 + nm.length) = le16 e.uid ++ (le16 e.gid ++ X) := by
    rw [show 32 + nm.length = 30 + nm.length + 2 by omega]; exact drop_add_of (n := 2) d6 rfl
  have d10 : (B.length :: B.sum % 256 :: B).drop (34 + nm.length) = le16 e.gid ++ X := by
    rw [show 34 + nm.length = 32 + nm.length + 2 by omega]; exact drop_add_of (n := 2) d8 rfl
  simp only []
  rw [if_neg (by omega), getByte_drop hd (by omega), ok_bind, if_pos rfl, if_pos (by omega), getByte_drop d1 (by omega), ok_bind, getLong_drop d2 (by omega), ok_bind,
    getWord_drop d6 (by omega), ok_bind, getWord_drop d8 (by omega), ok_bind, getWord_drop d10 (by omega), ok_bind, ok_bind]
  have hmode : (e.kind + e.perm) % 65536 = e.kind + e.perm := Nat.mod_eq_of_lt (by have := ho.perm; have := ho.kind; omega)
  have hsy : isSymlinkMode (e.kind + e.perm) = false := (perm_modes ho.kind ⟨e.perm, ho.perm⟩).2
  have hname : convertFilename true [0xff, 0x5c] [0x2f, 0x2f] .none (nm ++ [0]) = e.name ++ [0] := by
    have := rName_wByte ⟨false, false⟩ (Or.inl rfl) e.name ho.bs
    rw [← this]
    unfold rName
    congr 2
    rw [← hnm]
    apply List.map_congr_left
    intro b _
    unfold wByte convByte delimIndex delimIndex
    by_cases hb : b = 0x2f
    · subst hb; rfl
    · rw [if_neg hb, if_neg (by omega)]
      simp
  simp only [finishHdr, hmode]
  rw [if_neg (by rw [hsy]; simp)]
  refine ⟨_, rfl, ?_, ?_, ?_, ?_, ?_, rfl, rfl, rfl, rfl, rfl, rfl, rfl, rfl⟩
  · simp
  · exact Nat.mod_eq_of_lt ho.packed
  · exact Nat.mod_eq_of_lt ho.content
  · simpa using hname
  · exact Nat.mod_eq_of_lt ho.crc

theorem Passed.lists_longer {f : Fmt} {tab : Arr} {e : Entry} (ho : e.Ok) (X : List Nat) (hX : e.name.length + X.length ≤ 221) (h : Passed tab e) :
    Lists f tab (e.longer X) (Parsed e) := by
  refine verified_lists f tab (packed := e.packed) ?_
  intro hf T hok
  obtain ⟨g, e1, P⟩ := longer_parse f tab e ho X hX newHdr newHdr_method (by rw [newHdr_name]; have := ho.name; omega) T
  obtain ⟨d, ok1, dn, hv, hr⟩ := h g hf T hok P
  exact ⟨g, d, e1, P.packed, P, hv, ok1, dn, hr⟩

theorem longer_count (l : List (Entry × List Nat)) (t : List Nat) : l.length ≤ (l.flatMap (fun x => x.1.longer x.2) ++ t).length := by
  induction l with
  | nil => simp
  | cons x l ih =>
    rw [List.flatMap_cons, List.append_assoc, List.length_append, List.length_cons]
    have : 0 < (x.1.longer x.2).length := by simp [Entry.longer]
    omega

/-- **C100 (partial), longer headers.**  Full statement: as for `C100_partial`, for Unix headers with anything behind the group.  Proved for the packing methods of C42
and directories: whatever bytes each header ends with, `Headers` lists all the entries, with the name, sizes, checksum, time, mode and owner recorded. -/
theorem C100_unix_partial (f : Fmt) (tab : Arr) (ht : makeCrcTable = .ok tab) (l : List (Entry × List Nat))
    (hl : ∀ x ∈ l, ((Sound x.1 ∧ x.1.crc = crc16 0 x.1.content) ∨ DirEntry x.1) ∧ x.1.name.length + x.2.length ≤ 221)
    (t : List Nat) (htl : Tail t) (hf : Hf) (hok : GOk hf) :
    ∃ hs hf', GOk hf' ∧ headers f (others tab) tab Opts.default hf (some (l.flatMap (fun x => x.1.longer x.2) ++ t)) = .ok ⟨false, hs, hf'⟩ ∧
      List.Forall₂ (fun x g => Parsed x.1 g) l hs := by
  have hlen := longer_count l t
  obtain ⟨k, hs, hf', k1, k2, k3, k4⟩ := lists_loop (f := f) (tab := tab) (fun x : Entry × List Nat => x.1.longer x.2) (fun x => Parsed x.1) t l
    ((l.flatMap (fun x => x.1.longer x.2) ++ t).length + 1) hf [] (by omega)
    (fun x hx => by
      obtain ⟨h, hb⟩ := hl x hx
      rcases h with ⟨h1, h2⟩ | h
      · exact (h1.passed ht h2).lists_longer h1.ok x.2 hb
      · exact h.passed.lists_longer h.ok x.2 hb) hok
  obtain ⟨k, rfl⟩ : ∃ j, k = j + 1 := ⟨k - 1, by omega⟩
  refine ⟨hs, hf', k2, ?_, k3⟩
  unfold headers
  simp only []
  rw [k4]
  unfold headersLoop
  rcases tail_end f tab newHdr htl with e | e <;> rw [e, ok_bind] <;> simp

/-- Case covered: a file with three bytes behind the group, then one with none. -/
example : ∀ x ∈ [(sampleEntry [45, 108, 122, 115, 45] [120, 47, 101] [0xa0, 0x80] [65], [7, 8, 9]), (sampleEntry [45, 108, 122, 115, 45] [121] [0xa0, 0x80] [65], [])],
    ((Sound x.1 ∧ x.1.crc = crc16 0 x.1.content) ∨ DirEntry x.1) ∧ x.1.name.length + x.2.length ≤ 221 := by
  intro x hx
  simp only [List.mem_cons, List.not_mem_nil, or_false] at hx
  rcases hx with rfl | rfl
  · exact ⟨Or.inl ⟨sample_sound [120, 47, 101] (by decide) (by decide) (by decide), rfl⟩, by decide⟩
  · exact ⟨Or.inl ⟨sample_sound [121] (by decide) (by decide) (by decide), rfl⟩, by decide⟩

/-- A Unix header that ends before the group (fewer than eleven bytes behind the letter) is taken for one without a record of the system: the file is listed with its name
(in small letters, if asked for and if it has none), sizes and checksum, and with the mode 666. -/
theorem C100_short_partial (f : Fmt) (tab : Arr) (a : Alien) (os : List Nat) (hos : a.os = 0x55 :: os) (hlt : os.length < 11) (hmeth : a.method.length = 5)
    (hlen : a.name.length ≤ 221) (hp1 : a.packed.length < 2 ^ 32) (hp2 : a.content.length < 2 ^ 32) (hp3 : a.crc < 2 ^ 16)
    (hff : 0xff ∉ a.name) (h : Hdr) (hm : h.method.length = 5) (hn : a.name.length < h.name.length) (R : List Nat) :
    ∃ g, getHeader f tab h (a.bytes ++ R) = .ok (.got g (a.packed ++ R)) ∧ Seen f { a with os := [] } g := by
  have hol : a.os.length = os.length + 1 := by rw [hos]; rfl
  have hbody : a.body = body0 a.method a.packed.length a.content.length a.dosTime a.attr 0 a.name a.crc a.os := by
    unfold Alien.body body0
    rw [le_four, le_four, le_four, le_two]
  have hbl : a.body.length = 22 + a.name.length + a.os.length := by rw [hbody]; exact body0_length _ _ _ _ _ _ _ _ _ hmeth
  have hlv : a.body.getD 18 0 = 0 := by
    have : a.body = (a.method ++ le32 a.packed.length ++ le32 a.content.length ++ le32 a.dosTime ++ [a.attr]) ++ (0 :: (a.name.length :: a.name ++ le16 a.crc ++ a.os)) := by
      rw [hbody]; simp [body0]
    rw [this, List.getD_eq_getElem?_getD, List.getElem?_append_right (by simp [le32, hmeth])]
    simp [le32, hmeth]
  have hp := parseLevel0_ok h a.body.length (a.body.sum % 256) a.method a.packed.length a.content.length a.dosTime a.attr 0 a.name a.crc a.os
    hmeth hm (by omega) hn hbl
  rw [← hbody] at hp
  have hsm : isSymlinkMode 0o100666 = false := by decide
  have e0 : a.bytes ++ R = a.body.length :: (a.body.sum % 256) :: a.body ++ (a.packed ++ R) := by
    unfold Alien.bytes; simp
  rw [e0, getHeader_level0 f tab h a.body.length _ a.body (a.packed ++ R) (by omega) rfl (by omega) hlv rfl, hp]
  have hgb : getByte (a.body.length :: (a.body.sum % 256) :: a.body) (24 + a.name.length) = .ok 0x55 := by
    apply getByte_drop (t := os)
    · rw [hbody]
      have : (body0 a.method a.packed.length a.content.length a.dosTime a.attr 0 a.name a.crc a.os).drop (22 + a.name.length) = a.os := by
        unfold body0
        rw [List.drop_append_of_le_length (by simp [le32, le16, hmeth]; omega), List.drop_of_length_le (by simp [le32, le16, hmeth]; omega)]
        rfl
      rw [show 24 + a.name.length = (22 + a.name.length) + 1 + 1 by omega, List.drop_succ_cons, List.drop_succ_cons, this, hos]
    · omega
  simp only []
  rw [if_neg (by omega), hgb, ok_bind, if_pos rfl, if_neg (by omega), ok_bind]
  simp only []
  rw [finishHdr_name f _ { a with os := [] } rfl hff (Or.inr ⟨rfl, rfl⟩) (by simp) hsm]
  exact ⟨_, rfl, rfl, Nat.mod_eq_of_lt hp1, Nat.mod_eq_of_lt hp2, rfl, Nat.mod_eq_of_lt hp3, rfl, rfl, rfl, rfl⟩

/-- Case covered: `alien1` with the letter of Unix and two bytes. -/
example : ({ alien1 with os := [0x55, 1, 2] } : Alien).os = 0x55 :: [1, 2] ∧ alien1.name.length < newHdr.name.length ∧ 0xff ∉ alien1.name ∧ alien1.method.length = 5 :=
  ⟨rfl, by rw [newHdr_name]; decide, by decide, rfl⟩

end Lha
