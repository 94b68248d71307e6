import Verif.Spec.Old
import Verif.Props.C100
import Verif.Props.C102
/-!
# C120: archives without checksums
-/

namespace Lha

open Spec

/-- What is known about the header read for an entry without a checksum. -/
structure SeenOld (f : Fmt) (a : Old) (g : Hdr) : Prop where
  method : g.method = a.method
  packed : g.packedSize = a.packed.length
  original : g.originalSize = a.content.length
  name : g.name = a.shown f.convertCase ++ [0]
  hasCrc : g.hasCrc = false
  mode : g.mode = 0o100666
  level : g.level = 0
  attr : g.attr = a.attr
  system : g.extendType = 0

theorem getByte_pad (d : List Nat) (p : Nat) : getByte (d ++ [0]) p = getByte d p := by
  unfold getByte
  split
  · congr 1
    simp only [List.getD_eq_getElem?_getD]
    by_cases h : p < d.length
    · rw [List.getElem?_append_left h]
    · rw [List.getElem?_append_right (by omega), List.getElem?_eq_none (l := d) (by omega)]
      by_cases h0 : p - d.length = 0
      · rw [h0]; rfl
      · rw [List.getElem?_eq_none (by simp; omega)]
  · rfl

theorem getMany_pad (d : List Nat) : ∀ (n p : Nat), getMany (d ++ [0]) p n = getMany d p n
  | 0, _ => rfl
  | n + 1, p => by
    unfold getMany
    rw [getByte_pad, getMany_pad d n (p + 1)]

theorem getBytes_pad (d : List Nat) (p n size : Nat) : getBytes (d ++ [0]) p n size = getBytes d p n size := by
  unfold getBytes
  rw [getMany_pad]

/-- Reading the header of an entry without a checksum, whatever the header was used for before. -/
theorem old_parse (f : Fmt) (tab : Arr) (a : Old) (ho : a.Ok) (hff : 0xff ∉ a.name) (h : Hdr) (hm : h.method.length = 5) (hn : a.name.length < h.name.length) (R : List Nat) :
    ∃ g, getHeader f tab h (a.bytes ++ R) = .ok (.got g (a.packed ++ R)) ∧ SeenOld f a g := by
  have hnl := ho.name
  generalize hB : a.body = B
  have hB' : B = a.method ++ (le32 a.packed.length ++ (le32 a.content.length ++ (le32 a.dosTime ++ ([a.attr, 0, a.name.length] ++ a.name)))) := by
    rw [← hB]; unfold Old.body; simp only [le_four]; simp
  have hbl : B.length = 20 + a.name.length := by rw [hB']; simp [le32, ho.method]; omega
  have hlv : B.getD 18 0 = 0 := by
    have : B = (a.method ++ le32 a.packed.length ++ le32 a.content.length ++ le32 a.dosTime ++ [a.attr]) ++ (0 :: (a.name.length :: a.name)) := by
      rw [hB']; simp
    rw [this, List.getD_eq_getElem?_getD, List.getElem?_append_right (by simp [le32, ho.method])]
    simp [le32, ho.method]
  have e0 : a.bytes ++ R = B.length :: (B.sum % 256) :: B ++ (a.packed ++ R) := by
    unfold Old.bytes; rw [hB]; simp
  rw [e0, getHeader_level0 f tab h B.length _ B (a.packed ++ R) (by omega) rfl (by omega) hlv rfl]
  generalize hd : B.length :: B.sum % 256 :: B = d
  have d2 : d.drop 2 = a.method ++ (le32 a.packed.length ++ (le32 a.content.length ++ (le32 a.dosTime ++ ([a.attr, 0, a.name.length] ++ a.name)))) := by
    rw [← hd, ← hB']; rfl
  have d7 : d.drop 7 = _ := drop_add_of (n := 5) d2 ho.method
  have d11 : d.drop 11 = _ := drop_add_of (n := 4) d7 rfl
  have d15 : d.drop 15 = _ := drop_add_of (n := 4) d11 rfl
  have d19 : d.drop 19 = a.attr :: 0 :: a.name.length :: a.name := drop_add_of (n := 4) d15 rfl
  have d20 : d.drop 20 = 0 :: a.name.length :: a.name := drop_succ_of d19
  have d21 : d.drop 21 = a.name.length :: a.name := drop_succ_of d20
  have d22 : d.drop 22 = a.name := drop_succ_of d21
  have hdl : d.length = 22 + a.name.length := by rw [← hd]; simp [hbl]; omega
  have d22' : (d ++ [0]).drop 22 = (a.name ++ [0]) ++ [] := by
    rw [List.drop_append_of_le_length (by omega), d22, List.append_nil]
  unfold parseLevel0
  rw [getBytes_drop d2 ho.method (by omega) (by omega), ok_bind]
  simp only []
  rw [getLong_drop d7 (by omega), ok_bind, getLong_drop d11 (by omega), ok_bind, getLong_drop d15 (by omega), ok_bind,
    getByte_drop d19 (by omega), ok_bind, getByte_drop d20 (by omega), ok_bind, getByte_drop d21 (by omega), ok_bind,
    ← getBytes_pad, getBytes_drop d22' (by simp) (by omega) (by omega), ok_bind]
  simp only []
  rw [zeroAt_append a.name _ _ rfl, ok_bind, if_pos (by omega), if_pos (by omega), ok_bind]
  simp only []
  rw [finishHdr_name f _ ⟨a.method, a.name, a.content, a.packed, 0, a.dosTime, a.attr, []⟩ rfl hff (Or.inr ⟨rfl, rfl⟩) (by simp) (by show isSymlinkMode 0o100666 = false; decide)]
  exact ⟨_, rfl, rfl, Nat.mod_eq_of_lt ho.packed, Nat.mod_eq_of_lt ho.content, rfl, rfl, rfl, rfl, rfl, rfl⟩

theorem SeenOld.entryName {f : Fmt} {a : Old} {g : Hdr} (h : SeenOld f a g) : entryName Opts.default g = .ok (some (lastName (a.shown f.convertCase), g.name)) := by
  obtain ⟨n, h1, h2, h3⟩ := entryName_default g (a.shown f.convertCase) h.name (Or.inl h.system)
  rw [h1, lastName_of h2]
  have h4 : g.name = n ++ [0] ∨ ∃ A, g.name = A ++ 0x2f :: n ++ [0] := h3
  rw [h.name] at h4
  rcases h4 with h4 | ⟨A, h4⟩
  · exact Or.inl (List.append_cancel_right h4)
  · exact Or.inr ⟨A, List.append_cancel_right h4⟩

/-- An entry without a checksum, of a known method, whose packed data are right. -/
structure OldSound (a : Old) : Prop where
  ok : a.Ok
  ff : 0xff ∉ a.name
  packed : ∃ m, methods.findIdx? (· = a.method) = some m ∧ Packed m a.packed a.content

/-- Unix entries with checksums and entries without. -/
abbrev Part := Entry ⊕ Old

def Part.bytes : Part → List Nat
  | .inl e => e.bytes
  | .inr a => a.bytes

def Part.name (f : Fmt) : Part → List Nat
  | .inl e => e.name
  | .inr a => a.shown f.convertCase

def Part.content : Part → List Nat
  | .inl e => e.content
  | .inr a => a.content

def Part.packed : Part → List Nat
  | .inl e => e.packed
  | .inr a => a.packed

def Part.Good : Part → Prop
  | .inl e => Sound e ∧ e.crc = crc16 0 e.content
  | .inr a => OldSound a

def Part.Listed (f : Fmt) : Part → Hdr → Prop
  | .inl e => Parsed e
  | .inr a => SeenOld f a

theorem OldSound.lists {f : Fmt} {tab : Arr} (ht : makeCrcTable = .ok tab) {a : Old} (h : OldSound a) : Lists f tab a.bytes (SeenOld f a) := by
  refine verified_lists f tab (packed := a.packed) ?_
  intro hf T hok
  obtain ⟨g, e1, S⟩ := old_parse f tab a h.ok h.ff newHdr newHdr_method (by rw [newHdr_name]; have := h.ok.name; omega) T
  have hreg : fileType g.mode = 0o100000 := by rw [S.mode]; decide
  obtain ⟨m, hidx, hp⟩ := h.packed
  obtain ⟨hf1, ok1, hdec⟩ := hp.decodes ht hf hok T
  refine ⟨g, ⟨a.packed.length, T, hf1, g.name, none⟩, e1, S.packed, S, ?_, ok1, rfl, Or.inl ⟨rfl, rfl⟩⟩
  unfold verifyOne
  rw [S.entryName, ok_bind]
  simp only [S.method, hidx]
  rw [if_pos ⟨hreg, hp.ndir⟩, S.original, S.packed, hdec, ok_bind]
  simp only []
  rw [if_neg (by rw [S.hasCrc]; simp)]

theorem parts_length (l : List Part) (t : List Nat) : l.length ≤ (l.flatMap Part.bytes ++ t).length := by
  induction l with
  | nil => simp
  | cons x l ih =>
    rw [List.flatMap_cons, List.append_assoc, List.length_append, List.length_cons]
    have : 0 < x.bytes.length := by
      cases x with
      | inl e => exact header_length e
      | inr a => simp [Part.bytes, Old.bytes]
    omega

/-- **C120 (partial), listing.**  Full statement: entries whose headers have no checksum are listed by `Headers`, among others or not, with name, method and sizes, and as having no checksum.
Proved for the packing methods of C42 and names without byte 0xff. -/
theorem C120_list_partial (f : Fmt) (hg : f.generic = false) (tab : Arr) (ht : makeCrcTable = .ok tab) (l : List Part) (hl : ∀ x ∈ l, x.Good)
    (t : List Nat) (htl : Tail t) (hf : Hf) (hok : GOk hf) :
    ∃ hs hf', GOk hf' ∧ headers f (others tab) tab Opts.default hf (some (l.flatMap Part.bytes ++ t)) = .ok ⟨false, hs, hf'⟩ ∧
      List.Forall₂ (Part.Listed f) l hs := by
  have hlen := parts_length l t
  obtain ⟨k, hs, hf', k1, k2, k3, k4⟩ := lists_loop (f := f) (tab := tab) Part.bytes (Part.Listed f) t l ((l.flatMap Part.bytes ++ t).length + 1) hf [] (by omega)
    (fun x hx => by
      have := hl x hx
      cases x with
      | inl e => exact (Sound.passed ht this.1 this.2).lists hg this.1.ok
      | inr a => exact OldSound.lists ht this) hok
  obtain ⟨k, rfl⟩ : ∃ j, k = j + 1 := ⟨k - 1, by omega⟩
  refine ⟨hs, hf', k2, ?_, k3⟩
  unfold headers
  simp only []
  rw [k4]
  unfold headersLoop
  rcases tail_end f tab newHdr htl with e | e <;> rw [e, ok_bind] <;> simp

/-- The names do not get longer (see C30). -/
def FitsP (f : Fmt) : Nat → List Part → Prop
  | _, [] => True
  | n, x :: l => (x.name f).length < n ∧ FitsP f ((x.name f).length + 1) l

/-- What `GetHeader` and `extractOneStream` make of a part, whatever the header was used for before. -/
theorem Part.read (f : Fmt) (hg : f.generic = false) {tab : Arr} (ht : makeCrcTable = .ok tab) (x : Part) (hv : x.Good) (h : Hdr) (hm : h.method.length = 5)
    (hn : (x.name f).length < h.name.length) (hf : Hf) (hok : GOk hf) (T : List Nat) :
    ∃ g hf1, getHeader f tab h (x.bytes ++ T) = .ok (.got g (x.packed ++ T)) ∧ g.packedSize = x.packed.length ∧ g.name = x.name f ++ [0] ∧ g.method.length = 5 ∧ GOk hf1 ∧
      extractOneStream (others tab) tab hf g (x.packed ++ T) = .ok (.ok ⟨x.content, crc16 0 x.content, x.packed.length, T, hf1⟩) := by
  cases x with
  | inl e =>
    obtain ⟨⟨ho, hk, m, hidx, hp⟩, hcrc⟩ := hv
    obtain ⟨g, e1, P⟩ := entry_parse f hg tab e ho h hm hn T
    obtain ⟨hf1, ok1, hdec⟩ := hp.decodes ht hf hok T
    refine ⟨g, hf1, e1, P.packed, P.name, by rw [P.method]; exact ho.method, ok1, ?_⟩
    unfold extractOneStream
    simp only [P.method, hidx]
    rw [if_pos ⟨(P.fileType ho).trans hk, hp.ndir⟩, P.original, P.packed]
    show (decodeLzhuf (others tab) tab m hf e.content.length e.packed.length (e.packed ++ T) >>= _) = _
    rw [hdec, ok_bind]
    simp only []
    rw [if_neg (by rw [P.crc, hcrc]; simp)]
    rfl
  | inr a =>
    obtain ⟨ho, hff, m, hidx, hp⟩ := hv
    have hl : (a.shown f.convertCase).length = a.name.length := by unfold Old.shown Alien.shown; rw [List.length_map]
    obtain ⟨g, e1, S⟩ := old_parse f tab a ho hff h hm (by rw [← hl]; exact hn) T
    obtain ⟨hf1, ok1, hdec⟩ := hp.decodes ht hf hok T
    refine ⟨g, hf1, e1, S.packed, S.name, by rw [S.method]; exact ho.method, ok1, ?_⟩
    unfold extractOneStream
    simp only [S.method, hidx]
    rw [if_pos ⟨by rw [S.mode]; decide, hp.ndir⟩, S.original, S.packed]
    show (decodeLzhuf (others tab) tab m hf a.content.length a.packed.length (a.packed ++ T) >>= _) = _
    rw [hdec, ok_bind]
    simp only []
    rw [if_neg (by rw [S.hasCrc]; simp)]
    rfl

/-- The content of the last part of that name; `d` if there is none. -/
def lastPart (f : Fmt) (want d : List Nat) (l : List Part) : List Nat := l.foldl (fun d x => if x.name f = want then x.content else d) d

theorem extractBytesLoop_parts (f : Fmt) (hg : f.generic = false) {tab : Arr} (ht : makeCrcTable = .ok tab) (want : List Nat) {t : List Nat} (htl : Tail t) (l : List Part) :
    ∀ (n : Nat) (h : Hdr) (hf : Hf) (data : List Nat), l.length < n → (∀ x ∈ l, x.Good) → GOk hf → h.method.length = 5 → FitsP f h.name.length l →
      ∃ hf', GOk hf' ∧ extractBytesLoop f (others tab) tab (want ++ [0]) n h hf data (l.flatMap Part.bytes ++ t) = .ok ⟨false, lastPart f want data l, hf'⟩ := by
  induction l with
  | nil =>
    intro n h hf data hn _ hok _ _
    obtain ⟨n, rfl⟩ : ∃ k, n = k + 1 := ⟨n - 1, by simp at hn; omega⟩
    refine ⟨hf, hok, ?_⟩
    unfold extractBytesLoop
    show (getHeader f tab h t >>= _) = _
    rcases tail_end f tab h htl with e | e
    · rw [e, ok_bind]; rfl
    · rw [e, ok_bind]; rfl
  | cons x l ih =>
    intro n h hf data hn hgood hok hm hinc
    obtain ⟨n, rfl⟩ : ∃ k, n = k + 1 := ⟨n - 1, by simp at hn; omega⟩
    obtain ⟨g, hf1, e1, p1, p2, p3, ok1, hx⟩ := x.read f hg ht (hgood x List.mem_cons_self) h hm hinc.1 hf hok (l.flatMap Part.bytes ++ t)
    have hgood' := fun y hy => hgood y (List.mem_cons_of_mem x hy)
    have hn' : l.length < n := by simp at hn; omega
    have hinc' : FitsP f g.name.length l := by rw [p2, List.length_append]; exact hinc.2
    by_cases hwant : x.name f = want
    · obtain ⟨hf2, ok2, hr⟩ := ih n g hf1 x.content hn' hgood' ok1 p3 hinc'
      refine ⟨hf2, ok2, ?_⟩
      unfold extractBytesLoop
      rw [List.flatMap_cons, List.append_assoc, e1, ok_bind]
      simp only []
      rw [if_pos (by rw [p2, hwant]), hx, ok_bind]
      simp only []
      rw [if_neg (by rw [p1]; simp), hr]
      unfold lastPart
      rw [List.foldl_cons, if_pos hwant]
    · obtain ⟨hf2, ok2, hr⟩ := ih n g hf data hn' hgood' hok p3 hinc'
      refine ⟨hf2, ok2, ?_⟩
      unfold extractBytesLoop
      rw [List.flatMap_cons, List.append_assoc, e1, ok_bind]
      simp only []
      rw [if_neg (by rw [p2]; intro hc; exact hwant (List.append_cancel_right hc)), p1, skip_packed, hr]
      unfold lastPart
      rw [List.foldl_cons, if_neg hwant]

theorem lastPart_none (f : Fmt) (want : List Nat) (l : List Part) : ∀ d, (∀ x ∈ l, x.name f ≠ want) → lastPart f want d l = d := by
  induction l with
  | nil => intro d _; rfl
  | cons x l ih =>
    intro d hx
    unfold lastPart
    rw [List.foldl_cons, if_neg (hx x List.mem_cons_self)]
    exact ih d (fun y hy => hx y (List.mem_cons_of_mem _ hy))

/-- **C120 (partial), reading.**  Full statement: every entry of an archive with entries without checksums can be read with `DecompresBytes` by the name it is listed under.
Proved for archives of such entries and Unix entries in any order, the methods of C42, names without byte 0xff, if names do not get longer (C30, necessary: `C120_false`) and no
later entry has the same name (C97). -/
theorem C120_partial (f : Fmt) (hg : f.generic = false) (tab : Arr) (ht : makeCrcTable = .ok tab) (l1 l2 : List Part) (x : Part)
    (hv : ∀ y ∈ l1 ++ x :: l2, y.Good) (hlast : ∀ y ∈ l2, y.name f ≠ x.name f) (hinc : FitsP f 1024 (l1 ++ x :: l2)) (t : List Nat) (htl : Tail t) (hf : Hf) (hok : GOk hf) :
    ∃ hf', GOk hf' ∧ decompresBytes f (others tab) tab false (x.name f ++ [0]) hf (some ((l1 ++ x :: l2).flatMap Part.bytes ++ t)) = .ok ⟨false, x.content, hf'⟩ := by
  obtain ⟨hf', ok', h⟩ := extractBytesLoop_parts f hg ht (x.name f) htl (l1 ++ x :: l2)
    (((l1 ++ x :: l2).flatMap Part.bytes ++ t).length + 1) newHdr hf [] (by have := parts_length (l1 ++ x :: l2) t; omega)
    hv hok newHdr_method (by rw [newHdr_name]; exact hinc)
  refine ⟨hf', ok', ?_⟩
  unfold decompresBytes
  simp only [Bool.false_eq_true, if_false]
  rw [ok_bind, h]
  have : lastPart f (x.name f) [] (l1 ++ x :: l2) = x.content := by
    unfold lastPart
    rw [List.foldl_append, List.foldl_cons, if_pos rfl]
    exact lastPart_none f _ l2 _ hlast
  rw [this]

/-- A file without a checksum that holds `A`. -/
def old1 (name : List Nat) : Old := ⟨[45, 108, 122, 115, 45], name, [65], [0xa0, 0x80], 0, 0x20⟩

theorem old1_sound (name : List Nat) (h1 : name.length ≤ 235) (h2 : 0 ∉ name) (h3 : 0xff ∉ name) : OldSound (old1 name) := by
  obtain ⟨_, _, m, hidx, hp⟩ := sample_sound [120] (by decide) (by decide) (by decide)
  exact ⟨⟨rfl, h1, h2, by simp [old1], by simp [old1]⟩, h3, m, hidx, hp⟩

/-- **C120 is false if names get longer**: of two files `a` and `ab` without checksums `Headers` lists both, but reading `ab` returns nothing, and no error. -/
def oldPair : List Nat := [Sum.inr (old1 [97]), Sum.inr (old1 [97, 98])].flatMap Part.bytes

theorem oldPair_good : ∀ x ∈ ([Sum.inr (old1 [97]), Sum.inr (old1 [97, 98])] : List Part), x.Good := by
  intro x hx
  simp only [List.mem_cons, List.not_mem_nil, or_false] at hx
  rcases hx with rfl | rfl
  · exact old1_sound _ (by decide) (by decide) (by decide)
  · exact old1_sound _ (by decide) (by decide) (by decide)

theorem C120_false (tab : Arr) (ht : makeCrcTable = .ok tab) (hf : Hf) (hok : GOk hf) :
    (∃ g1 g2 hf', headers ⟨false, false⟩ (others tab) tab Opts.default hf (some oldPair) = .ok ⟨false, [g1, g2], hf'⟩ ∧ g2.name = [97, 98, 0] ∧ g2.originalSize = 1) ∧
    decompresBytes ⟨false, false⟩ (others tab) tab false [97, 98, 0] hf (some oldPair) = .ok ⟨false, [], hf⟩ := by
  constructor
  · obtain ⟨hs, hf', _, h, P⟩ := C120_list_partial ⟨false, false⟩ rfl tab ht _ oldPair_good [] (Or.inl rfl) hf hok
    rw [List.append_nil] at h
    cases P with
    | cons a P => cases P with
      | cons b P =>
        cases P
        have b' : SeenOld ⟨false, false⟩ _ _ := b
        refine ⟨_, _, hf', h, ?_, ?_⟩
        · rw [b'.name]; decide
        · rw [b'.original]; rfl
  · have e1 : getHeader ⟨false, false⟩ tab newHdr oldPair = .ok (.got (gotHdr (getHeader ⟨false, false⟩ (Arr.mk' 256 0) newHdr oldPair)).1
        (gotHdr (getHeader ⟨false, false⟩ (Arr.mk' 256 0) newHdr oldPair)).2) := by
      rw [getHeader_tab _ tab (Arr.mk' 256 0) newHdr oldPair (by decide +kernel)]
      decide +kernel
    generalize hq : gotHdr (getHeader ⟨false, false⟩ (Arr.mk' 256 0) newHdr oldPair) = q at e1
    have d1 : q.1.name ≠ [97, 98, 0] := by rw [← hq]; decide +kernel
    have e2 : getHeader ⟨false, false⟩ tab q.1 ((skipTo q.1.packedSize q.2).getD []) =
        .ok (.got (gotHdr (getHeader ⟨false, false⟩ (Arr.mk' 256 0) q.1 ((skipTo q.1.packedSize q.2).getD []))).1
          (gotHdr (getHeader ⟨false, false⟩ (Arr.mk' 256 0) q.1 ((skipTo q.1.packedSize q.2).getD []))).2) := by
      rw [← hq, getHeader_tab _ tab (Arr.mk' 256 0) _ _ (by decide +kernel)]
      decide +kernel
    generalize hr : gotHdr (getHeader ⟨false, false⟩ (Arr.mk' 256 0) q.1 ((skipTo q.1.packedSize q.2).getD [])) = r at e2
    have d2 : r.1.name ≠ [97, 98, 0] := by rw [← hr, ← hq]; decide +kernel
    have d3 : (skipTo r.1.packedSize r.2).getD [] = [] := by rw [← hr, ← hq]; decide +kernel
    have hlen : oldPair.length + 1 = 2 + 1 + 1 + (oldPair.length - 3) := by decide +kernel
    unfold decompresBytes
    simp only [Bool.false_eq_true, if_false]
    rw [ok_bind, hlen]
    generalize oldPair.length - 3 = k
    rw [show 2 + 1 + 1 + k = k + 1 + 1 + 1 + 1 by omega]
    unfold extractBytesLoop
    rw [e1, ok_bind]
    simp only []
    rw [if_neg d1]
    unfold extractBytesLoop
    rw [e2, ok_bind]
    simp only []
    rw [if_neg d2, d3]
    unfold extractBytesLoop
    rfl

/-- Case covered: a Unix file `x/e` and behind it `q` without a checksum, which is read. -/
example (tab : Arr) (ht : makeCrcTable = .ok tab) (hf : Hf) (hok : GOk hf) : ∃ hf', decompresBytes ⟨false, true⟩ (others tab) tab false [113, 0] hf
    (some (([Sum.inl (sampleEntry [45, 108, 122, 115, 45] [120, 47, 101] [0xa0, 0x80] [65])] ++ Sum.inr (old1 [81]) :: []).flatMap Part.bytes ++ [0])) = .ok ⟨false, [65], hf'⟩ := by
  obtain ⟨hf', _, h⟩ := C120_partial ⟨false, true⟩ rfl tab ht [Sum.inl (sampleEntry [45, 108, 122, 115, 45] [120, 47, 101] [0xa0, 0x80] [65])] [] (Sum.inr (old1 [81]))
    (by
      intro x hx
      simp only [List.mem_append, List.mem_cons, List.not_mem_nil, or_false] at hx
      rcases hx with rfl | rfl
      · exact ⟨sample_sound [120, 47, 101] (by decide) (by decide) (by decide), rfl⟩
      · exact old1_sound _ (by decide) (by decide) (by decide))
    (by simp) ⟨by decide, by decide, trivial⟩ [0] (Or.inr ⟨[], rfl⟩) hf hok
  exact ⟨hf', h⟩

end Lha
