import Verif.Props.C102
import Verif.Props.C52
import Verif.Props.C58
/-!
# C105: archives with level-1 headers, from the first entry to the last
-/

namespace Lha

open Spec

/-- The name that is left of that of a level-1 entry: the last byte is lost; directories are separated by `/`. -/
def Entry1.cut (f : Fmt) (e : Entry1) : List Nat :=
  if e.os = 0x55 then e.name.dropLast.map (slashed [0x55])
  else Alien.shown f.convertCase ⟨e.method, e.name.dropLast, [], [], 0, 0, 0, [e.os]⟩

/-- A level-1 entry without extended headers, whose name is not empty. -/
structure Bare (e : Entry1) : Prop where
  ok : e.Ok
  name : e.name ≠ []
  ff : 0xff ∉ e.name
  exts : e.exts = []

/-- What is known about the header read for a level-1 entry. -/
structure Read1 (f : Fmt) (e : Entry1) (g : Hdr) : Prop where
  method : g.method = e.method
  packed : g.packedSize = e.packed.length
  original : g.originalSize = e.content.length
  name : g.name = Entry1.cut f e ++ [0]
  crc : g.crc = e.crc
  hasCrc : g.hasCrc = true
  mode : g.mode = 0o100666
  level : g.level = 1
  attr : g.attr = e.attr
  stamp : g.stamp = e.dosTime
  system : g.extendType = e.os

theorem Entry1.cut_length (f : Fmt) (e : Entry1) : (Entry1.cut f e).length = e.name.length - 1 := by
  unfold Entry1.cut
  split
  · simp
  · unfold Alien.shown; simp

/-- The conversion of the name for Unix. -/
theorem finishHdr_unix (f : Fmt) (h : Hdr) (n : List Nat) (hn : h.name = n ++ [0]) (hff : 0xff ∉ n) (hx : h.extendType = 0x55)
    (hs : isSymlinkMode h.mode = false) (R : List Nat) : finishHdr f h R = .got { h with name := n.map (slashed [0x55]) ++ [0] } R := by
  have hname : convertFilename true [0xff, 0x5c] [0x2f, 0x2f] .none h.name = n.map (slashed [0x55]) ++ [0] := by
    unfold convertFilename
    simp only []
    rw [if_neg (by simp), hn, List.map_append]
    congr 1
    apply List.map_congr_left
    intro b hb
    unfold convByte
    rw [delim2 b (fun e => hff (e ▸ hb))]
    unfold slashed
    have : b ≠ 0xff := fun e => hff (e ▸ hb)
    by_cases h5 : b = 0x5c
    · subst h5; rfl
    · simp [h5, this]
  unfold finishHdr
  simp [hx, hname, hs]

/-- Reading the header of a level-1 entry, whatever the header was used for before. -/
theorem level1_parse (f : Fmt) (tab : Arr) (e : Entry1) (hb : Bare e) (h : Hdr) (hm : h.method.length = 5) (hn : e.name.length ≤ h.name.length) (R : List Nat) :
    ∃ g, getHeader f tab h (e.bytes ++ R) = .ok (.got g (e.packed ++ R)) ∧ Read1 f e g := by
  obtain ⟨hs, w, T, hs0, hw, h0, h1, hr⟩ := level1_read f tab h hm e hb.ok hn R
  obtain ⟨rfl, rfl⟩ := h0 hb.exts
  rw [hr, zeroAt_last hb.name, ok_bind]
  simp only []
  rw [if_neg (by omega), ok_bind]
  simp only []
  have hpk := hb.ok.packed
  rw [hb.exts] at hpk
  have hpk' : e.packed.length < 2 ^ 32 := by simpa [extChain] using hpk
  have hff : 0xff ∉ e.name.dropLast := fun h => hb.ff (List.dropLast_subset _ h)
  have hsm : isSymlinkMode 0o100666 = false := by decide
  have hp : (e.packed.length + ((extChain e.exts).length - 2)) % 4294967296 = e.packed.length := by
    rw [hb.exts]
    show (e.packed.length + (2 - 2)) % 4294967296 = _
    exact Nat.mod_eq_of_lt (by omega)
  have hc := Nat.mod_eq_of_lt hb.ok.content
  have hcr := Nat.mod_eq_of_lt hb.ok.crc
  have hdt := Nat.mod_eq_of_lt hb.ok.dosTime
  by_cases h55 : e.os = 0x55
  · rw [finishHdr_unix f _ e.name.dropLast rfl hff (by show e.os = _; exact h55) hsm]
    exact ⟨_, rfl, rfl, hp, hc, by unfold Entry1.cut; rw [if_pos h55], hcr, rfl, rfl, rfl, rfl, hdt, rfl⟩
  · rw [finishHdr_name f _ ⟨e.method, e.name.dropLast, [], [], 0, 0, 0, [e.os]⟩ rfl hff (Or.inl rfl) (by show e.os ≠ _; exact h55) hsm]
    exact ⟨_, rfl, rfl, hp, hc, by unfold Entry1.cut; rw [if_neg h55], hcr, rfl, rfl, rfl, rfl, hdt, rfl⟩

/-- Of a known method, with the packed data right; OS-9 names without directories (see C100). -/
structure Kept1 (f : Fmt) (e : Entry1) : Prop where
  bare : Bare e
  packed : ∃ m, methods.findIdx? (· = e.method) = some m ∧ Packed m e.packed e.content
  crc : e.crc = crc16 0 e.content
  osk : e.os = 0x4b ∨ e.os = 0x58 → 0x2f ∉ Entry1.cut f e

theorem Read1.entryName {f : Fmt} {e : Entry1} {g : Hdr} (h : Read1 f e g) (hosk : e.os = 0x4b ∨ e.os = 0x58 → 0x2f ∉ Entry1.cut f e) :
    entryName Opts.default g = .ok (some (lastName (Entry1.cut f e), g.name)) := by
  rw [entryName_ext Opts.default rfl g]
  · obtain ⟨n, h1, h2, h3⟩ := entryName_default { g with extendType := 0 } (Entry1.cut f e) h.name (Or.inl rfl)
    rw [h1, lastName_of h2]
    have h4 : g.name = n ++ [0] ∨ ∃ A, g.name = A ++ 0x2f :: n ++ [0] := h3
    rw [h.name] at h4
    rcases h4 with h4 | ⟨A, h4⟩
    · exact Or.inl (List.append_cancel_right h4)
    · exact Or.inr ⟨A, List.append_cancel_right h4⟩
  · rw [h.system, h.name]
    by_cases ho : e.os = 0x4b ∨ e.os = 0x58
    · left
      simp [hosk ho]
    · right
      omega

theorem Kept1.lists {f : Fmt} {tab : Arr} (ht : makeCrcTable = .ok tab) {e : Entry1} (h : Kept1 f e) : Lists f tab e.bytes (Read1 f e) := by
  refine verified_lists f tab (packed := e.packed) ?_
  intro hf T hok
  obtain ⟨g, e1, S⟩ := level1_parse f tab e h.bare newHdr newHdr_method (by rw [newHdr_name]; have := h.bare.ok.name; omega) T
  have hname := S.entryName h.osk
  have hreg : fileType g.mode = 0o100000 := by rw [S.mode]; decide
  obtain ⟨m, hidx, hp⟩ := h.packed
  obtain ⟨hf1, ok1, hdec⟩ := hp.decodes ht hf hok T
  refine ⟨g, ⟨e.packed.length, T, hf1, g.name, none⟩, e1, S.packed, S, ?_, ok1, rfl, Or.inl ⟨rfl, rfl⟩⟩
  unfold verifyOne
  rw [hname, ok_bind]
  simp only [S.method, hidx]
  rw [if_pos ⟨hreg, hp.ndir⟩, S.original, S.packed, hdec, ok_bind]
  simp only []
  rw [if_neg (by rw [S.crc, h.crc]; simp)]

theorem entry1_pos (e : Entry1) : 0 < e.bytes.length := by
  unfold Entry1.bytes Entry1.header
  simp

theorem entries1_length (l : List Entry1) (X : List Nat) : l.length ≤ (l.flatMap Entry1.bytes ++ X).length := by
  induction l with
  | nil => simp
  | cons x l ih =>
    have := entry1_pos x
    rw [List.flatMap_cons, List.append_assoc, List.length_append, List.length_cons]
    omega

/-- **C105 (partial), listing.**  Full statement: `Headers` lists every entry of an archive with level-1 headers with the name, sizes, checksum and time recorded.
Proved without extended headers (with them, see `C105_false_ext`): every entry is listed, with the right sizes, checksum and method, but the last byte of the name is missing. -/
theorem C105_list_partial (f : Fmt) (tab : Arr) (ht : makeCrcTable = .ok tab) (l : List Entry1) (hl : ∀ e ∈ l, Kept1 f e) (t : List Nat) (htl : Tail t) (hf : Hf) (hok : GOk hf) :
    ∃ hs hf', GOk hf' ∧ headers f (others tab) tab Opts.default hf (some (l.flatMap Entry1.bytes ++ t)) = .ok ⟨false, hs, hf'⟩ ∧ List.Forall₂ (Read1 f) l hs := by
  have hlen := entries1_length l t
  obtain ⟨k, hs, hf', k1, k2, k3, k4⟩ := lists_loop (f := f) (tab := tab) Entry1.bytes (Read1 f) t l ((l.flatMap Entry1.bytes ++ t).length + 1) hf [] (by omega)
    (fun e he => (hl e he).lists ht) hok
  obtain ⟨k, rfl⟩ : ∃ j, k = j + 1 := ⟨k - 1, by omega⟩
  refine ⟨hs, hf', k2, ?_, k3⟩
  unfold headers
  simp only []
  rw [k4]
  unfold headersLoop
  rcases tail_end f tab newHdr htl with e | e <;> rw [e, ok_bind] <;> simp

/-- With an extended header, `GetHeader` returns an error or crashes. -/
theorem level1_ext (f : Fmt) (tab : Arr) (e : Entry1) (ho : e.Ok) (hx : e.exts ≠ []) (h : Hdr) (hm : h.method.length = 5) (hn : e.name.length ≤ h.name.length) (R : List Nat) :
    ∀ r, getHeader f tab h (e.bytes ++ R) = .ok r → r = .bad := by
  intro r hg
  obtain ⟨hs, w, T, hs0, hw, h0, h1, hr⟩ := level1_read f tab h hm e ho hn R
  rw [hr] at hg
  obtain ⟨o, ho1, hg⟩ := bind_ok hg
  obtain ⟨nm, _, ho1⟩ := bind_ok ho1
  simp only [] at ho1
  have hw0 : w % 65536 > 0 := by have := h1 hx; omega
  rw [if_pos hw0] at ho1
  obtain ⟨o', ho2, ho1⟩ := bind_ok ho1
  cases o' with
  | none => cases ho1; cases hg; rfl
  | some y => exact absurd ho2 (extLoop_never _ _ _ _ _ hs0)

/-- **C105 is false with extended headers**: an entry that has one, and all behind it, are not listed, and `Headers` reports no error (if it does not crash). -/
theorem C105_false_ext (f : Fmt) (tab : Arr) (ht : makeCrcTable = .ok tab) (l : List Entry1) (hl : ∀ e ∈ l, Kept1 f e) (e : Entry1) (ho : e.Ok) (hx : e.exts ≠ []) (R : List Nat)
    (hf : Hf) (hok : GOk hf) (r : HeadersOut) (hr : headers f (others tab) tab Opts.default hf (some (l.flatMap Entry1.bytes ++ (e.bytes ++ R))) = .ok r) :
    r.err = false ∧ List.Forall₂ (Read1 f) l r.headers := by
  have hlen := entries1_length l (e.bytes ++ R)
  obtain ⟨k, hs, hf', k1, k2, k3, k4⟩ := lists_loop (f := f) (tab := tab) Entry1.bytes (Read1 f) (e.bytes ++ R) l ((l.flatMap Entry1.bytes ++ (e.bytes ++ R)).length + 1) hf [] (by omega)
    (fun e he => (hl e he).lists ht) hok
  obtain ⟨k, rfl⟩ : ∃ j, k = j + 1 := ⟨k - 1, by omega⟩
  unfold headers at hr
  simp only [] at hr
  rw [k4] at hr
  unfold headersLoop at hr
  obtain ⟨q, h1, h2⟩ := bind_ok hr
  cases level1_ext f tab e ho hx newHdr newHdr_method (by rw [newHdr_name]; have := ho.name; omega) R q h1
  cases h2
  exact ⟨rfl, by simpa using k3⟩

/-! ## Reading -/

/-- The names do not get longer (see C30). -/
def Fits1 : Nat → List Entry1 → Prop
  | _, [] => True
  | n, e :: l => e.name.length ≤ n ∧ Fits1 e.name.length l

def last1 (f : Fmt) (want d : List Nat) (l : List Entry1) : List Nat := l.foldl (fun d e => if Entry1.cut f e = want then e.content else d) d

theorem Read1.nameLen {f : Fmt} {e : Entry1} {g : Hdr} (h : Read1 f e g) (hb : Bare e) : g.name.length = e.name.length := by
  have := List.length_pos_iff.2 hb.name
  rw [h.name, List.length_append, Entry1.cut_length]
  simp; omega

theorem extractBytesLoop_1 (f : Fmt) {tab : Arr} (ht : makeCrcTable = .ok tab) (want : List Nat) {t : List Nat} (htl : Tail t) (l : List Entry1) :
    ∀ (n : Nat) (h : Hdr) (hf : Hf) (data : List Nat), l.length < n → (∀ e ∈ l, Bare e ∧ (Entry1.cut f e = want → Kept1 f e)) →
      GOk hf → h.method.length = 5 → Fits1 h.name.length l →
      ∃ hf', GOk hf' ∧ extractBytesLoop f (others tab) tab (want ++ [0]) n h hf data (l.flatMap Entry1.bytes ++ t) = .ok ⟨false, last1 f want data l, hf'⟩ := by
  induction l with
  | nil =>
    intro n h hf data hn _ hok _ _
    obtain ⟨n, rfl⟩ : ∃ k, n = k + 1 := ⟨n - 1, by simp at hn; omega⟩
    refine ⟨hf, hok, ?_⟩
    unfold extractBytesLoop
    show (getHeader f tab h t >>= _) = _
    rcases tail_end f tab h htl with e | e
    · rw [e, ok_bind]; rfl
    · rw [e, ok_bind]; rfl
  | cons i l ih =>
    intro n h hf data hn hgood hok hm hinc
    obtain ⟨n, rfl⟩ : ∃ k, n = k + 1 := ⟨n - 1, by simp at hn; omega⟩
    obtain ⟨hv, hw⟩ := hgood i List.mem_cons_self
    obtain ⟨g, e1, K⟩ := level1_parse f tab i hv h hm hinc.1 (l.flatMap Entry1.bytes ++ t)
    have p1 := K.packed
    have p2 := K.name
    have p3 : g.method.length = 5 := by rw [K.method]; exact hv.ok.method
    have hgood' := fun e' he' => hgood e' (List.mem_cons_of_mem i he')
    have hn' : l.length < n := by simp at hn; omega
    have hinc' : Fits1 g.name.length l := by rw [K.nameLen hv]; exact hinc.2
    by_cases hwant : Entry1.cut f i = want
    · have hk := hw hwant
      obtain ⟨m, hidx, hp⟩ := hk.packed
      have hreg : fileType g.mode = 0o100000 := by rw [K.mode]; decide
      obtain ⟨hf1, ok1, hdec⟩ := hp.decodes ht hf hok (l.flatMap Entry1.bytes ++ t)
      have hx : extractOneStream (others tab) tab hf g (i.packed ++ (l.flatMap Entry1.bytes ++ t)) =
          .ok (.ok ⟨i.content, crc16 0 i.content, i.packed.length, l.flatMap Entry1.bytes ++ t, hf1⟩) := by
        unfold extractOneStream
        simp only [K.method, hidx]
        rw [if_pos ⟨hreg, hp.ndir⟩, K.original, p1, hdec, ok_bind]
        simp only []
        rw [if_neg (by rw [K.crc, hk.crc]; simp)]
      obtain ⟨hf2, ok2, hr⟩ := ih n g hf1 i.content hn' hgood' ok1 p3 hinc'
      refine ⟨hf2, ok2, ?_⟩
      unfold extractBytesLoop
      rw [List.flatMap_cons, List.append_assoc, e1, ok_bind]
      simp only []
      rw [if_pos (by rw [p2, hwant]), hx, ok_bind]
      simp only []
      rw [if_neg (by rw [p1]; simp), hr]
      unfold last1
      rw [List.foldl_cons, if_pos hwant]
    · obtain ⟨hf2, ok2, hr⟩ := ih n g hf data hn' hgood' hok p3 hinc'
      refine ⟨hf2, ok2, ?_⟩
      unfold extractBytesLoop
      rw [List.flatMap_cons, List.append_assoc, e1, ok_bind]
      simp only []
      rw [if_neg (by rw [p2]; intro hc; exact hwant (List.append_cancel_right hc)), p1, skip_packed, hr]
      unfold last1
      rw [List.foldl_cons, if_neg hwant]

theorem last1_none (f : Fmt) (want : List Nat) (l : List Entry1) : ∀ d, (∀ x ∈ l, Entry1.cut f x ≠ want) → last1 f want d l = d := by
  induction l with
  | nil => intro d _; rfl
  | cons x l ih =>
    intro d hx
    unfold last1
    rw [List.foldl_cons, if_neg (hx x List.mem_cons_self)]
    exact ih d (fun y hy => hx y (List.mem_cons_of_mem _ hy))

/-- Reading by a name returns the content of the last entry whose name, without the last byte, is that name. -/
theorem read1 (f : Fmt) (tab : Arr) (ht : makeCrcTable = .ok tab) (l1 l2 : List Entry1) (e : Entry1)
    (hv : ∀ x ∈ l1 ++ e :: l2, Bare x) (hw : ∀ x ∈ l1 ++ e :: l2, Entry1.cut f x = Entry1.cut f e → Kept1 f x) (hlast : ∀ x ∈ l2, Entry1.cut f x ≠ Entry1.cut f e)
    (hinc : Fits1 1024 (l1 ++ e :: l2)) (t : List Nat) (htl : Tail t) (hf : Hf) (hok : GOk hf) :
    ∃ hf', GOk hf' ∧ decompresBytes f (others tab) tab false (Entry1.cut f e ++ [0]) hf (some ((l1 ++ e :: l2).flatMap Entry1.bytes ++ t)) = .ok ⟨false, e.content, hf'⟩ := by
  obtain ⟨hf', ok', h⟩ := extractBytesLoop_1 f ht (Entry1.cut f e) htl (l1 ++ e :: l2)
    (((l1 ++ e :: l2).flatMap Entry1.bytes ++ t).length + 1) newHdr hf [] (by have := entries1_length (l1 ++ e :: l2) t; omega)
    (fun x hx => ⟨hv x hx, hw x hx⟩) hok newHdr_method (by rw [newHdr_name]; exact hinc)
  refine ⟨hf', ok', ?_⟩
  unfold decompresBytes
  simp only [Bool.false_eq_true, if_false]
  rw [ok_bind, h]
  have : last1 f (Entry1.cut f e) [] (l1 ++ e :: l2) = e.content := by
    unfold last1
    rw [List.foldl_append, List.foldl_cons, if_pos rfl]
    exact last1_none f _ l2 _ hlast
  rw [this]

theorem forall2_split {α β : Type} {R : α → β → Prop} (l1 : List α) {l2 : List α} : ∀ {m : List β}, List.Forall₂ R (l1 ++ l2) m →
    ∃ m1 m2, m = m1 ++ m2 ∧ List.Forall₂ R l1 m1 ∧ List.Forall₂ R l2 m2 := by
  induction l1 with
  | nil => intro m h; exact ⟨[], m, rfl, .nil, h⟩
  | cons a l ih =>
    intro m h
    cases h with
    | cons h1 h2 =>
      obtain ⟨m1, m2, rfl, h3, h4⟩ := ih h2
      exact ⟨_ :: m1, m2, rfl, .cons h1 h3, h4⟩

/-- **C105 (partial), reading.**  Full statement: the content of every entry can be read with `DecompresBytes` by the header `Headers` returns for it.  Proved without extended
headers, if the names do not get longer (C30) and no later name is the same but for its last byte (`C105_false_twins`). -/
theorem C105_partial (f : Fmt) (tab : Arr) (ht : makeCrcTable = .ok tab) (l1 l2 : List Entry1) (e : Entry1) (hv : ∀ x ∈ l1 ++ e :: l2, Kept1 f x)
    (hlast : ∀ x ∈ l2, Entry1.cut f x ≠ Entry1.cut f e) (hinc : Fits1 1024 (l1 ++ e :: l2)) (t : List Nat) (htl : Tail t) (hf : Hf) (hok : GOk hf) :
    ∃ hs1 g hs2 hf1 hf2, headers f (others tab) tab Opts.default hf (some ((l1 ++ e :: l2).flatMap Entry1.bytes ++ t)) = .ok ⟨false, hs1 ++ g :: hs2, hf1⟩ ∧
      hs1.length = l1.length ∧ hs2.length = l2.length ∧ Read1 f e g ∧
      decompresBytes f (others tab) tab false g.name hf1 (some ((l1 ++ e :: l2).flatMap Entry1.bytes ++ t)) = .ok ⟨false, e.content, hf2⟩ := by
  obtain ⟨hs, hf1, ok1, h, P⟩ := C105_list_partial f tab ht (l1 ++ e :: l2) hv t htl hf hok
  obtain ⟨hs1, hs2', rfl, P1, P2⟩ := forall2_split l1 P
  cases P2 with
  | @cons _ g _ hs2 hP P2 =>
    obtain ⟨hf2, _, h2⟩ := read1 f tab ht l1 l2 e (fun x hx => (hv x hx).bare) (fun x hx _ => hv x hx) hlast hinc t htl hf1 ok1
    exact ⟨hs1, g, hs2, hf1, hf2, h, P1.length_eq.symm, P2.length_eq.symm, hP, by rw [hP.name]; exact h2⟩

/-- **C105 is false of names that differ in their last byte only**: both are listed under the same name, and by the header of the first the content of the second is read. -/
theorem C105_false_twins (f : Fmt) (tab : Arr) (ht : makeCrcTable = .ok tab) (e1 e2 : Entry1) (h1 : Kept1 f e1) (h2 : Kept1 f e2) (hlen : e2.name.length ≤ e1.name.length)
    (hcut : Entry1.cut f e1 = Entry1.cut f e2) (t : List Nat) (htl : Tail t) (hf : Hf) (hok : GOk hf) :
    ∃ g1 g2 hf1 hf2, headers f (others tab) tab Opts.default hf (some ([e1, e2].flatMap Entry1.bytes ++ t)) = .ok ⟨false, [g1, g2], hf1⟩ ∧
      Read1 f e1 g1 ∧ Read1 f e2 g2 ∧ g1.name = g2.name ∧
      decompresBytes f (others tab) tab false g1.name hf1 (some ([e1, e2].flatMap Entry1.bytes ++ t)) = .ok ⟨false, e2.content, hf2⟩ := by
  have hv : ∀ x ∈ [e1, e2], Kept1 f x := by
    intro x hx
    simp only [List.mem_cons, List.not_mem_nil, or_false] at hx
    rcases hx with rfl | rfl
    · exact h1
    · exact h2
  obtain ⟨hs, hf1, ok1, h, P⟩ := C105_list_partial f tab ht [e1, e2] hv t htl hf hok
  cases P with
  | cons a P => cases P with
    | cons b P =>
      cases P
      obtain ⟨hf2, _, hr⟩ := read1 f tab ht [e1] [] e2 (fun x hx => (hv x hx).bare) (fun x hx _ => hv x hx) (by simp)
        ⟨by have := h1.bare.ok.name; omega, hlen, trivial⟩ t htl hf1 ok1
      exact ⟨_, _, hf1, hf2, h, a, b, by rw [a.name, b.name, hcut], by rw [a.name, hcut]; exact hr⟩

/-! ## Extraction -/

theorem extractLoop_1 (f : Fmt) {tab : Arr} (ht : makeCrcTable = .ok tab) {t : List Nat} (htl : Tail t) (l : List Entry1) :
    ∀ (n : Nat) (h : Hdr) (hf : Hf) (s : Sys), l.length < n → (∀ e ∈ l, Kept1 f e) → GOk hf → h.method.length = 5 → Fits1 h.name.length l →
      (∀ e ∈ l, s.Creatable (lastName (Entry1.cut f e)) ∧ s.node (lastName (Entry1.cut f e)) = none) →
      (l.Pairwise fun a b => lastName (Entry1.cut f a) ≠ lastName (Entry1.cut f b)) →
      ∃ hf' s', GOk hf' ∧ extractLoopD f (others tab) tab Opts.default (needFile Opts.default) n h hf s (l.flatMap Entry1.bytes ++ t) = .ok (false, s', hf') ∧
        (∀ e ∈ l, s'.node (lastName (Entry1.cut f e)) = some (.file e.content s.fresh)) ∧
        (∀ n, (∀ e ∈ l, lastName (Entry1.cut f e) ≠ n) → s'.node n = s.node n) ∧ s'.outside = s.outside ∧ s'.answers = s.answers := by
  induction l with
  | nil =>
    intro n h hf s hn _ hok _ _ _ _
    obtain ⟨n, rfl⟩ : ∃ k, n = k + 1 := ⟨n - 1, by simp at hn; omega⟩
    refine ⟨hf, s, hok, ?_, by simp, fun _ _ => rfl, rfl, rfl⟩
    unfold extractLoopD
    show (getHeader f tab h t >>= _) = _
    rcases tail_end f tab h htl with e | e
    · rw [e, ok_bind]
    · rw [e, ok_bind]
  | cons i l ih =>
    intro n h hf s hn hgood hok hm hinc hnew hdist
    obtain ⟨n, rfl⟩ : ∃ k, n = k + 1 := ⟨n - 1, by simp at hn; omega⟩
    rw [List.pairwise_cons] at hdist
    have hk := hgood i List.mem_cons_self
    obtain ⟨hc, hnn⟩ := hnew i List.mem_cons_self
    obtain ⟨g, e1, K⟩ := level1_parse f tab i hk.bare h hm hinc.1 (l.flatMap Entry1.bytes ++ t)
    have p3 : g.method.length = 5 := by rw [K.method]; exact hk.bare.ok.method
    have hinc' : Fits1 g.name.length l := by rw [K.nameLen hk.bare]; exact hinc.2
    obtain ⟨m, hidx, hpk⟩ := hk.packed
    have hreg : fileType g.mode = 0o100000 := by rw [K.mode]; decide
    obtain ⟨hf1, ok1, hdec⟩ := hpk.decodes ht hf hok (l.flatMap Entry1.bytes ++ t)
    have hx : extractOneD (others tab) tab Opts.default s hf g (i.packed ++ (l.flatMap Entry1.bytes ++ t)) =
        .ok (some ⟨i.packed.length, l.flatMap Entry1.bytes ++ t, hf1, g.name, some (lastName (Entry1.cut f i), i.content)⟩,
          s.set (lastName (Entry1.cut f i)) (.file i.content s.fresh)) := by
      unfold extractOneD
      rw [K.entryName hk.osk, ok_bind]
      simp only [K.method, hidx]
      rw [if_pos ⟨hreg, hpk.ndir⟩]
      rw [show Opts.default.force = false from rfl, show inquireExtract s false (lastName (Entry1.cut f i)) = .ok (true, s) by
        unfold inquireExtract; rw [lstat_of hc, hnn], ok_bind]
      simp only [Bool.true_eq_false, false_and, if_false]
      rw [if_pos (canCreate_of hc (Or.inl hnn)), K.original, K.packed, hdec, ok_bind]
      simp only []
      unfold Sys.write
      rw [hnn]
    have hnode : ∀ j ∈ l, (s.set (lastName (Entry1.cut f i)) (.file i.content s.fresh)).node (lastName (Entry1.cut f j)) = s.node (lastName (Entry1.cut f j)) := by
      intro j hj
      show (if lastName (Entry1.cut f j) = lastName (Entry1.cut f i) then _ else s.node (lastName (Entry1.cut f j))) = _
      rw [if_neg (fun h => hdist.1 j hj h.symm)]
    obtain ⟨hf', s', ok', r1, r2, r3, r4, r5⟩ := ih n { g with name := g.name } hf1 (s.set (lastName (Entry1.cut f i)) (.file i.content s.fresh))
      (by simp at hn; omega) (fun j hj => hgood j (List.mem_cons_of_mem _ hj)) ok1 p3 hinc'
      (fun j hj => ⟨(hnew j (List.mem_cons_of_mem _ hj)).1, by rw [hnode j hj]; exact (hnew j (List.mem_cons_of_mem _ hj)).2⟩) hdist.2
    refine ⟨hf', s', ok', ?_, ?_, ?_, r4, r5⟩
    · conv in extractLoopD _ _ _ _ _ (n + 1) _ _ _ _ => unfold extractLoopD
      rw [List.flatMap_cons, List.append_assoc, e1, ok_bind]
      simp only []
      rw [if_pos (by simp [needFile, Opts.default]), hx, ok_bind]
      simp only []
      rw [if_neg (by rw [K.packed]; simp)]
      exact r1
    · intro j hj
      rcases List.mem_cons.mp hj with rfl | hj
      · rw [r3 _ (fun k hk hc => hdist.1 k hk hc.symm)]
        show (if lastName (Entry1.cut f j) = lastName (Entry1.cut f j) then some (Node.file j.content s.fresh) else _) = _
        rw [if_pos rfl]
      · exact r2 j hj
    · intro x hx
      rw [r3 x (fun j hj => hx j (List.mem_cons_of_mem _ hj))]
      show (if x = lastName (Entry1.cut f i) then _ else s.node x) = s.node x
      rw [if_neg (fun hc => hx i List.mem_cons_self hc.symm)]

/-- **C105 (partial), extraction.**  Full statement: `CommandExtract` extracts every entry of an archive with level-1 headers, under its name.  Proved without extended headers, for
names that do not get longer (C30) and whose last components are new and differ even without the last byte: the contents are right, the names lack their last byte. -/
theorem C105_extract_partial (f : Fmt) (tab : Arr) (ht : makeCrcTable = .ok tab) (t : List Nat) (htl : Tail t) (l : List Entry1) (hl : ∀ e ∈ l, Kept1 f e) (hf : Hf) (hok : GOk hf)
    (s : Sys) (hinc : Fits1 1024 l) (hnew : ∀ e ∈ l, s.Creatable (lastName (Entry1.cut f e)) ∧ s.node (lastName (Entry1.cut f e)) = none)
    (hdist : l.Pairwise fun a b => lastName (Entry1.cut f a) ≠ lastName (Entry1.cut f b)) :
    ∃ hf' s', GOk hf' ∧ commandExtractD f (others tab) tab Opts.default false hf s (some (l.flatMap Entry1.bytes ++ t)) = .ok (false, s', hf') ∧
      (∀ e ∈ l, s'.node (lastName (Entry1.cut f e)) = some (.file e.content s.fresh)) ∧
      (∀ n, (∀ e ∈ l, lastName (Entry1.cut f e) ≠ n) → s'.node n = s.node n) ∧ s'.outside = s.outside ∧ s'.answers = s.answers := by
  obtain ⟨hf', s', ok', h, r⟩ := extractLoop_1 f ht htl l ((l.flatMap Entry1.bytes ++ t).length + 1) newHdr hf s (by have := entries1_length l t; omega) hl hok newHdr_method
    (by rw [newHdr_name]; exact hinc) hnew hdist
  refine ⟨hf', s', ok', ?_, r⟩
  unfold commandExtractD
  simp only [Bool.false_eq_true, if_false]
  rw [ok_bind, h]

/-! ## Examples -/

/-- A level-1 file that holds `A`; an empty one. -/
def full1 (name : List Nat) : Entry1 := ⟨[45, 108, 122, 115, 45], name, [65], [0xa0, 0x80], crc16 0 [65], 677209180, 0x20, 0x55, []⟩
def void1 (name : List Nat) : Entry1 := ⟨[45, 108, 104, 48, 45], name, [], [], 0, 677209180, 0x20, 0x4d, []⟩

theorem full1_kept (f : Fmt) (name : List Nat) (h1 : name.length ≤ 230) (h2 : 0 ∉ name) (h3 : 0xff ∉ name) (h4 : name ≠ []) : Kept1 f (full1 name) := by
  have hc : crc16 0 [65] < 2 ^ 16 := by decide +kernel
  refine ⟨⟨⟨rfl, h1, h2, (by decide : 2 + (2 - 2) < 2 ^ 32), (by decide : 1 < 2 ^ 32), hc, (by decide : 677209180 < 2 ^ 32), (by simp [full1])⟩, h4, h3, rfl⟩, ?_, rfl,
    (fun h => by simp [full1] at h)⟩
  exact (sample_sound [65] (by decide) (by decide) (by decide)).packed

theorem void1_kept (f : Fmt) (name : List Nat) (h1 : name.length ≤ 230) (h2 : 0 ∉ name) (h3 : 0xff ∉ name) (h4 : name ≠ []) : Kept1 f (void1 name) := by
  refine ⟨⟨⟨rfl, h1, h2, (by decide : 0 + (2 - 2) < 2 ^ 32), (by decide : 0 < 2 ^ 32), (by decide : 0 < 2 ^ 16), (by decide : 677209180 < 2 ^ 32), (by simp [void1])⟩, h4, h3, rfl⟩,
    ⟨0, (by decide : methods.findIdx? (· = [45, 108, 104, 48, 45]) = some 0), .empty (Or.inl rfl)⟩, (by decide : 0 = crc16 0 []), (fun h => by simp [void1] at h)⟩

/-- The hypotheses of the theorems on listing, reading and extraction are met by `x/ab` and `Qc` (an MS-DOS file); the second is read. -/
example (tab : Arr) (ht : makeCrcTable = .ok tab) (hf : Hf) (hok : GOk hf) : ∃ hs1 g hs2 hf1 hf2,
    headers ⟨false, true⟩ (others tab) tab Opts.default hf (some (([full1 [120, 47, 97, 98]] ++ void1 [81, 99] :: []).flatMap Entry1.bytes ++ [0])) = .ok ⟨false, hs1 ++ g :: hs2, hf1⟩ ∧
      g.name = [113, 0] ∧ decompresBytes ⟨false, true⟩ (others tab) tab false g.name hf1 (some (([full1 [120, 47, 97, 98]] ++ void1 [81, 99] :: []).flatMap Entry1.bytes ++ [0])) =
        .ok ⟨false, [], hf2⟩ := by
  obtain ⟨hs1, g, hs2, hf1, hf2, h1, _, _, h2, h3⟩ := C105_partial ⟨false, true⟩ tab ht [full1 [120, 47, 97, 98]] [] (void1 [81, 99])
    (by
      intro x hx
      simp only [List.mem_append, List.mem_cons, List.not_mem_nil, or_false] at hx
      rcases hx with rfl | rfl
      · exact full1_kept _ _ (by decide) (by decide) (by decide) (by decide)
      · exact void1_kept _ _ (by decide) (by decide) (by decide) (by decide))
    (by simp) ⟨by decide, by decide, trivial⟩ [0] (Or.inr ⟨[], rfl⟩) hf hok
  exact ⟨hs1, g, hs2, hf1, hf2, h1, by rw [h2.name]; decide, h3⟩

example (tab : Arr) (ht : makeCrcTable = .ok tab) (hf : Hf) (hok : GOk hf) : ∃ hf' s', GOk hf' ∧ commandExtractD ⟨false, true⟩ (others tab) tab Opts.default false hf Sys.sample
    (some ([full1 [120, 47, 102, 98], void1 [81, 99]].flatMap Entry1.bytes ++ [0])) = .ok (false, s', hf') ∧
      s'.node [102] = some (.file [65] Sys.sample.fresh) := by
  obtain ⟨hf', s', a1, a2, a3, _⟩ := C105_extract_partial ⟨false, true⟩ tab ht [0] (Or.inr ⟨[], rfl⟩) [full1 [120, 47, 102, 98], void1 [81, 99]]
    (by
      intro x hx
      simp only [List.mem_cons, List.not_mem_nil, or_false] at hx
      rcases hx with rfl | rfl
      · exact full1_kept _ _ (by decide) (by decide) (by decide) (by decide)
      · exact void1_kept _ _ (by decide) (by decide) (by decide) (by decide))
    hf hok Sys.sample ⟨by decide, by decide, trivial⟩
    (by
      intro x hx
      simp only [List.mem_cons, List.not_mem_nil, or_false] at hx
      rcases hx with rfl | rfl
      · exact ⟨⟨by decide, by decide, rfl⟩, rfl⟩
      · exact ⟨⟨by decide, by decide, rfl⟩, rfl⟩)
    (by decide)
  exact ⟨hf', s', a1, a2, a3 (full1 [120, 47, 102, 98]) (by simp)⟩

/-- `f1`, which holds `A`, and `f2`, which is empty: by the header of `f1` nothing is read. -/
example (tab : Arr) (ht : makeCrcTable = .ok tab) (hf : Hf) (hok : GOk hf) : ∃ g1 g2 hf1 hf2,
    headers ⟨false, false⟩ (others tab) tab Opts.default hf (some ([full1 [102, 49], void1 [102, 50]].flatMap Entry1.bytes ++ [0])) = .ok ⟨false, [g1, g2], hf1⟩ ∧
      g1.originalSize = 1 ∧ decompresBytes ⟨false, false⟩ (others tab) tab false g1.name hf1 (some ([full1 [102, 49], void1 [102, 50]].flatMap Entry1.bytes ++ [0])) = .ok ⟨false, [], hf2⟩ := by
  obtain ⟨g1, g2, hf1, hf2, h, a, _, _, h2⟩ := C105_false_twins ⟨false, false⟩ tab ht (full1 [102, 49]) (void1 [102, 50])
    (full1_kept _ _ (by decide) (by decide) (by decide) (by decide)) (void1_kept _ _ (by decide) (by decide) (by decide) (by decide)) (by decide) (by decide)
    [0] (Or.inr ⟨[], rfl⟩) hf hok
  exact ⟨g1, g2, hf1, hf2, h, a.original, h2⟩

theorem getHeader_tab1 (f : Fmt) (tab tab' : Arr) (h : Hdr) (inp : List Nat) (hl : 21 ≤ inp.length) (h20 : inp.getD 20 0 = 1) :
    getHeader f tab h inp = getHeader f tab' h inp := by
  unfold getHeader
  split
  · rfl
  · rename_i b inp
    split
    · rfl
    · split
      · rfl
      · rename_i x inp' hx
        have : (b :: x ++ List.replicate (20 - x.length) 0).getD 20 0 = 1 := by
          obtain ⟨rfl, _⟩ := readF_some hx
          rw [List.length_cons] at hl
          rw [List.cons_append, List.getD_cons_succ] at *
          simp only [List.getD_eq_getElem?_getD] at *
          rw [List.getElem?_append_left (by rw [List.length_take]; omega), List.getElem?_take_of_lt (by omega)]
          exact h20
        unfold byLevel
        simp only [this]

/-- An archive of a file with its time in an extended header: `Headers` returns an empty list and no error. -/
theorem C105_false_witness (tab : Arr) (hf : Hf) :
    headers ⟨false, false⟩ (others tab) tab Opts.default hf (some ((sample1 [(0x54, [0, 0, 0, 0])]).bytes ++ [0])) = .ok ⟨false, [], hf⟩ := by
  have e1 : getHeader ⟨false, false⟩ tab newHdr ((sample1 [(0x54, [0, 0, 0, 0])]).bytes ++ [0]) = .ok .bad := by
    rw [getHeader_tab1 _ tab (Arr.mk' 256 0) newHdr _ (by decide +kernel) (by decide +kernel)]
    decide +kernel
  unfold headers
  simp only []
  unfold headersLoop
  rw [e1, ok_bind]

/-- The hypotheses of `C105_false_ext` are met. -/
example (tab : Arr) (ht : makeCrcTable = .ok tab) (hf : Hf) (hok : GOk hf) (R : List Nat) (r : HeadersOut)
    (hr : headers ⟨false, false⟩ (others tab) tab Opts.default hf (some ([full1 [102, 49]].flatMap Entry1.bytes ++ ((sample1 [(0x54, [0, 0, 0, 0])]).bytes ++ R))) = .ok r) :
    r.err = false ∧ r.headers.length = 1 := by
  obtain ⟨h1, h2⟩ := C105_false_ext ⟨false, false⟩ tab ht [full1 [102, 49]]
    (by
      intro x hx
      simp only [List.mem_cons, List.not_mem_nil, or_false] at hx
      subst hx
      exact full1_kept _ _ (by decide) (by decide) (by decide) (by decide))
    (sample1 [(0x54, [0, 0, 0, 0])]) ⟨rfl, by decide, by decide, by decide, by decide, by decide, by decide, by decide⟩ (by decide) R hf hok r hr
  exact ⟨h1, h2.length_eq.symm⟩

end Lha
