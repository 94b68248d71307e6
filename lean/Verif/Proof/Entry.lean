import Verif.Spec.Archive
import Verif.Proof.Extract
/-!
# Parsing the archive format
-/

namespace Lha

open Spec

theorem le_four (v : Nat) : le 4 v = le32 v := by
  simp only [le, le32, Nat.div_div_eq_div_mul]
theorem le_two (v : Nat) : le 2 v = le16 v := rfl

theorem takeWhile_all {p : Nat → Bool} : ∀ {l : List Nat}, (∀ x ∈ l, p x = true) → l.takeWhile p = l
  | [], _ => rfl
  | a :: l, h => by
    rw [List.takeWhile_cons, if_pos (h a List.mem_cons_self), takeWhile_all (fun x hx => h x (List.mem_cons_of_mem _ hx))]

theorem cstr_self {l : List Nat} (h : 0 ∉ l) : cstr l = l := by
  unfold cstr
  exact takeWhile_all (fun x hx => by simp; rintro rfl; exact h hx)

theorem perm_modes' : ∀ p q : Fin 64, fileType (0o100000 + (64 * p.val + q.val)) = 0o100000 ∧
    isSymlinkMode (0o100000 + (64 * p.val + q.val)) = false ∧ fileType (0o040000 + (64 * p.val + q.val)) = 0o040000 ∧
    isSymlinkMode (0o040000 + (64 * p.val + q.val)) = false := by decide +kernel

theorem perm_modes {k : Nat} (hk : k = 0o100000 ∨ k = 0o040000) (p : Fin 4096) : fileType (k + p.val) = k ∧ isSymlinkMode (k + p.val) = false := by
  have := perm_modes' ⟨p.val / 64, by omega⟩ ⟨p.val % 64, by omega⟩
  have e : 64 * (p.val / 64) + p.val % 64 = p.val := Nat.div_add_mod _ _
  simp only [e] at this
  rcases hk with rfl | rfl
  · exact ⟨this.1, this.2.1⟩
  · exact this.2.2

/-- The header the library would have to write for an entry. -/
def hdrOf (e : Entry) : Hdr :=
  { newHdr with method := e.method, packedSize := e.packed.length, originalSize := e.content.length, attr := e.attr, level := 0,
                name := e.name, crc := e.crc, stamp := e.unixTime, mode := e.kind + e.perm, uid := e.uid, gid := e.gid }

/-- The bytes the library writes for a header that agrees with an entry. -/
theorem header_written (f : Fmt) (hg : f.generic = false) (e : Entry) (h : e.Ok) (g : Hdr) (h1 : g.method = e.method)
    (h2 : g.packedSize = e.packed.length) (h3 : g.originalSize = e.content.length) (h4 : g.attr = e.attr) (h5 : g.level = 0)
    (h6 : cstr g.name = e.name) (h7 : g.crc = e.crc) (h8 : g.stamp = e.unixTime) (h9 : g.mode = e.kind + e.perm) (h10 : g.uid = e.uid)
    (h11 : g.gid = e.gid) : writeLevel0 f e.dosTime g ((g.name ++ [0]).map (wByte f)) = e.header := by
  have hP : cstr ((g.name ++ [0]).map (wByte f)) = e.name.map (wByte f) := by
    rw [cstr_map _ (wByte_zero f) (wByte_ne f), cstr_append_zero, h6]
  obtain ⟨e1, _, _⟩ := writeLevel0_eq f e.dosTime g ((g.name ++ [0]).map (wByte f)) (by rw [h1]; exact h.method)
  rw [hP] at e1
  have hl : limit0 f = 221 := by simp [limit0, hg]
  have hn : (e.name.map (wByte f)).take (limit0 f) = e.name.map (fun b => if b = 0x2f then 0x5c else b) := by
    rw [List.take_of_length_le (by rw [hl, List.length_map]; exact h.name)]
    apply List.map_congr_left
    intro b hb
    unfold wByte
    simp only [hg, Bool.false_eq_true, false_and, if_false]
    unfold convByte delimIndex
    by_cases hb' : b = 0x2f
    · subst hb'; decide
    · rw [if_neg hb', if_neg (by omega)]
      simp [delimIndex]
  rw [hn] at e1
  rw [e1]
  have : body0 g.method g.packedSize g.originalSize e.dosTime g.attr g.level
      (e.name.map (fun b => if b = 0x2f then 0x5c else b)) g.crc (ext0 f g) = e.body := by
    unfold body0 ext0 Entry.body
    simp only [hg, Bool.false_eq_true, if_false, le_four, le_two, h1, h2, h3, h4, h5, h7, h8, h9, h10, h11, List.length_map, List.append_assoc]
  rw [this]
  rfl

theorem header_eq (f : Fmt) (hg : f.generic = false) (e : Entry) (h : e.Ok) :
    writeLevel0 f e.dosTime (hdrOf e) (((hdrOf e).name ++ [0]).map (wByte f)) = e.header :=
  header_written f hg e h (hdrOf e) rfl rfl rfl rfl rfl (cstr_self h.nul) rfl rfl rfl rfl rfl

/-- `g` is what `GetHeader` makes of the header of `e`. -/
structure Parsed (e : Entry) (g : Hdr) : Prop where
  method : g.method = e.method
  packed : g.packedSize = e.packed.length
  original : g.originalSize = e.content.length
  name : g.name = e.name ++ [0]
  crc : g.crc = e.crc
  hasCrc : g.hasCrc = true
  mode : g.mode = e.kind + e.perm
  time : g.stamp = e.unixTime % 2 ^ 32
  uid : g.uid = e.uid % 2 ^ 16
  gid : g.gid = e.gid % 2 ^ 16
  ext : g.extendType = 0x55
  level : g.level = 0
  attr : g.attr = e.attr

theorem Parsed.fileType {e : Entry} {g : Hdr} (h : Parsed e g) (ho : e.Ok) : fileType g.mode = e.kind := by
  rw [h.mode]; exact (perm_modes ho.kind ⟨e.perm, ho.perm⟩).1

/-- Parsing an entry into a header whose name is longer. -/
theorem entry_parse (f : Fmt) (hg : f.generic = false) (tab : Arr) (e : Entry) (ho : e.Ok) (g : Hdr) (hgm : g.method.length = 5)
    (hgn : e.name.length < g.name.length) (R : List Nat) :
    ∃ g', getHeader f tab g (e.bytes ++ R) = .ok (.got g' (e.packed ++ R)) ∧ Parsed e g' := by
  have hc : cstr e.name = e.name := cstr_self ho.nul
  have hl : limit0 f = 221 := by simp [limit0, hg]
  have hm : (e.kind + e.perm) % 65536 = e.kind + e.perm := Nat.mod_eq_of_lt (by have := ho.perm; have := ho.kind; omega)
  have htk : e.name.take 221 = e.name := List.take_of_length_le ho.name
  obtain ⟨g', a, a1, a2, a3, a4, a5, a6, a7, a8, a9, a10, a11, a12, a13, a14⟩ := header0_read f tab e.dosTime g (hdrOf e) (e.packed ++ R)
    ho.method rfl (by show isSymlinkMode ((e.kind + e.perm) % 65536) = false; rw [hm]; exact (perm_modes ho.kind ⟨e.perm, ho.perm⟩).2) hgm
    (by show ((cstr e.name).take (limit0 f)).length < _; rw [hc, hl, htk]; exact hgn) (by simp [hg])
  rw [header_eq f hg e ho] at a
  refine ⟨g', by unfold Entry.bytes; rw [List.append_assoc]; exact a, a1, ?_, ?_, ?_, ?_, a9, ?_, ?_, ?_, ?_, ?_, a5, a4⟩
  · rw [a2]; exact Nat.mod_eq_of_lt ho.packed
  · rw [a3]; exact Nat.mod_eq_of_lt ho.content
  · rw [a6]
    show rName f (((cstr e.name).take (limit0 f)).map (wByte f) ++ [0]) = _
    rw [hc, hl, htk]
    exact rName_wByte f (Or.inl hg) _ ho.bs
  · rw [a8]; exact Nat.mod_eq_of_lt ho.crc
  · rw [a12]; simp only [hg, Bool.false_eq_true, if_false]; exact hm
  · rw [a11]; simp only [hg, Bool.false_eq_true, if_false]; rfl
  · rw [a13]; simp only [hg, Bool.false_eq_true, if_false]; rfl
  · rw [a14]; simp only [hg, Bool.false_eq_true, if_false]; rfl
  · rw [a10]; simp only [hg, Bool.false_eq_true, if_false]

theorem lastName_of {n l : List Nat} (h1 : 0x2f ∉ n) (h2 : l = n ∨ ∃ A, l = A ++ 0x2f :: n) : lastName l = n := by
  have hr : ∀ x ∈ n.reverse, (decide (x ≠ 0x2f)) = true := fun x hx => by
    simp only [ne_eq, decide_not, Bool.not_eq_true', decide_eq_false_iff_not]
    rintro rfl; exact h1 (List.mem_reverse.1 hx)
  unfold lastName
  rcases h2 with rfl | ⟨A, rfl⟩
  · rw [takeWhile_all hr, List.reverse_reverse]
  · rw [List.reverse_append, List.reverse_cons, List.append_assoc, List.takeWhile_append_of_pos hr]
    simp

/-- The name under which an entry is extracted. -/
theorem Parsed.entryName {e : Entry} {g : Hdr} (h : Parsed e g) : entryName Opts.default g = .ok (some (lastName e.name, g.name)) := by
  obtain ⟨n, h1, h2, h3⟩ := entryName_default g e.name h.name (Or.inr h.ext)
  rw [h1, lastName_of h2]
  rw [h.name] at h3
  rcases h3 with h3 | ⟨A, h3⟩
  · exact Or.inl (List.append_cancel_right h3)
  · exact Or.inr ⟨A, List.append_cancel_right h3⟩

/-- What is done with the name of an entry, if directories are not ignored. -/
theorem Parsed.entryName_plain {e : Entry} {g : Hdr} (h : Parsed e g) (o : Opts) (hi : o.ignoreDir = false) :
    Lha.entryName o g = (do let x ← makeName o (lastName e.name ++ [0]); .ok (x.map (fun x => (x, g.name)))) := by
  obtain ⟨n, h1, h2, h3⟩ := Lha.entryName_plain o hi g e.name h.name (Or.inr h.ext)
  rw [h1, lastName_of h2]
  rw [h.name] at h3
  rcases h3 with h3 | ⟨A, h3⟩
  · exact Or.inl (List.append_cancel_right h3)
  · exact Or.inr ⟨A, List.append_cancel_right h3⟩

theorem lastName_length (l : List Nat) : (lastName l).length ≤ l.length := by
  unfold lastName
  have := (List.takeWhile_prefix (fun b => decide (b ≠ 0x2f)) (l := l.reverse)).length_le
  simpa using this

/-- What is done with the name of an entry, if they are. -/
theorem Parsed.entryName_ignore {e : Entry} {g : Hdr} (h : Parsed e g) (o : Opts) (hi : o.ignoreDir = true) :
    Lha.entryName o g = (do
      let x ← makeName o (if 0x2f ∈ e.name then lastName e.name ++ [0] else (e.name ++ [0]).drop 1)
      .ok (x.map (fun x => (x, g.name)))) := by
  unfold Lha.entryName
  simp only [hi, if_true]
  rcases split_last_slash e.name with hs | ⟨A, Y, hn, hY⟩
  · rw [show lastSlash g.name = 0 by rw [h.name]; exact lastSlash_none _ (by simp [hs]), if_pos (by rw [h.name]; simp), if_neg hs, h.name]
  · have hn' : e.name ++ [0] = A ++ 0x2f :: (Y ++ [0]) := by rw [hn]; simp
    rw [show lastSlash g.name = A.length by rw [h.name, hn']; exact lastSlash_some A _ (by simp [hY]),
      if_pos (by rw [h.name, hn']; simp), if_pos (by rw [hn]; simp), lastName_of hY (Or.inr ⟨A, hn⟩), h.name, hn',
      show A ++ 0x2f :: (Y ++ [0]) = (A ++ [0x2f]) ++ (Y ++ [0]) by simp, show A.length + 1 = (A ++ [0x2f]).length by simp, List.drop_left]

/-- The end of an archive. -/
theorem tail_end (f : Fmt) (tab : Arr) (g : Hdr) {t : List Nat} (ht : Tail t) : getHeader f tab g t = .ok .eof ∨ getHeader f tab g t = .ok .fin := by
  rcases ht with rfl | ⟨r, rfl⟩
  · exact Or.inl rfl
  · exact Or.inr rfl

end Lha
