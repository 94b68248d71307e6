import Verif.Props.C100
/-!
# C102: the entries of archives made under other systems can be read
-/

namespace Lha

open Spec

/-- The name under which an entry is listed. -/
def Item.name (f : Fmt) : Item → List Nat
  | .inl e => e.name
  | .inr a => a.shown f.convertCase

def Item.content : Item → List Nat
  | .inl e => e.content
  | .inr a => a.content

def Item.packed : Item → List Nat
  | .inl e => e.packed
  | .inr a => a.packed

def Item.method : Item → List Nat
  | .inl e => e.method
  | .inr a => a.method

/-- Valid headers. -/
def Item.Valid : Item → Prop
  | .inl e => e.Ok
  | .inr a => a.Ok ∧ 0xff ∉ a.name

/-- Known method, packed data and checksum are right. -/
def Item.Right : Item → Prop
  | .inl e => Sound e ∧ e.crc = crc16 0 e.content
  | .inr a => ∃ m, methods.findIdx? (· = a.method) = some m ∧ Packed m a.packed a.content ∧ a.crc = crc16 0 a.content

/-- The system, 0 if it is not recorded. -/
def Item.system : Item → Nat
  | .inl _ => 0x55
  | .inr a => a.os.head?.getD 0

/-- The system is not recorded. -/
def Item.Silent : Item → Prop
  | .inl _ => False
  | .inr a => a.os = []

/-- The names do not get longer (see C30), and there are no entries without a record of the system (see `C102_false`) behind an entry with such a record. -/
def FitsI (f : Fmt) : Nat → Nat → List Item → Prop
  | _, _, [] => True
  | x, n, i :: l => (i.name f).length < n ∧ (i.Silent → x = 0) ∧ FitsI f i.system ((i.name f).length + 1) l

/-- What is known of the header read for an item. -/
structure Known (f : Fmt) (i : Item) (g : Hdr) : Prop where
  packed : g.packedSize = i.packed.length
  original : g.originalSize = i.content.length
  name : g.name = i.name f ++ [0]
  method : g.method = i.method
  system : g.extendType = i.system
  listed : i.Listed f g

theorem Item.Valid.method {i : Item} (h : i.Valid) : i.method.length = 5 := by
  cases i with
  | inl e => exact Entry.Ok.method h
  | inr a => exact h.1.method

/-- What `GetHeader` makes of the header of an item. -/
theorem Item.parse (f : Fmt) (hg : f.generic = false) (tab : Arr) (i : Item) (hv : i.Valid) (h : Hdr) (hm : h.method.length = 5)
    (hn : (i.name f).length < h.name.length) (hs : i.Silent → h.extendType = 0) (T : List Nat) :
    ∃ g, getHeader f tab h (i.bytes ++ T) = .ok (.got g (i.packed ++ T)) ∧ Known f i g := by
  cases i with
  | inl e =>
    have hv : e.Ok := hv
    obtain ⟨g, e1, P⟩ := entry_parse f hg tab e hv h hm hn T
    exact ⟨g, e1, P.packed, P.original, P.name, P.method, P.ext, P⟩
  | inr a =>
    obtain ⟨ho, hff⟩ := hv
    have hl : (a.shown f.convertCase).length = a.name.length := by unfold Alien.shown; rw [List.length_map]
    obtain ⟨g, e1, S, hx⟩ := alien_parse f tab a ho hff h hm (by rw [← hl]; exact hn) hs T
    refine ⟨g, e1, S.packed, S.original, S.name, S.method, ?_, S⟩
    show _ = a.os.head?.getD 0
    rcases hx with hx | ⟨hx, hx2⟩
    · rw [hx]; rfl
    · rw [hx]; exact hx2

theorem Known.right {f : Fmt} {i : Item} {g : Hdr} (h : Known f i g) (hv : i.Valid) (hr : i.Right) :
    ∃ m, methods.findIdx? (· = g.method) = some m ∧ Packed m i.packed i.content ∧ fileType g.mode = 0o100000 ∧ g.crc = crc16 0 i.content := by
  have hl := h.listed
  have hm := h.method
  cases i with
  | inl e =>
    have hl : Parsed e g := hl
    obtain ⟨⟨ho, hk, m, hidx, hp⟩, hcrc⟩ := hr
    exact ⟨m, by rw [hm]; exact hidx, hp, (hl.fileType ho).trans hk, hl.crc.trans hcrc⟩
  | inr a =>
    have hl : Seen f a g := hl
    obtain ⟨m, hidx, hp, hcrc⟩ := hr
    exact ⟨m, by rw [hm]; exact hidx, hp, by rw [hl.mode]; decide, hl.crc.trans hcrc⟩

theorem Known.fits {f : Fmt} {i : Item} {g : Hdr} (h : Known f i g) {l : List Item} (hl : FitsI f i.system ((i.name f).length + 1) l) :
    FitsI f g.extendType g.name.length l := by
  rw [h.system, h.name, List.length_append]; exact hl

/-- The content of the last entry of that name; `d` if there is none. -/
def lastItem (f : Fmt) (want d : List Nat) (l : List Item) : List Nat := l.foldl (fun d i => if i.name f = want then i.content else d) d

theorem extractBytesLoop_items (f : Fmt) (hg : f.generic = false) {tab : Arr} (ht : makeCrcTable = .ok tab) (want : List Nat) {t : List Nat}
    (htl : Tail t) (l : List Item) :
    ∀ (n : Nat) (h : Hdr) (hf : Hf) (data : List Nat), l.length < n → (∀ i ∈ l, i.Valid ∧ (i.name f = want → i.Right)) →
      GOk hf → h.method.length = 5 → FitsI f h.extendType h.name.length l →
      ∃ hf', GOk hf' ∧ extractBytesLoop f (others tab) tab (want ++ [0]) n h hf data (l.flatMap Item.bytes ++ t) = .ok ⟨false, lastItem f want data l, hf'⟩ := by
  induction l with
  | nil =>
    intro n h hf data hn _ hok _ _
    obtain ⟨n, rfl⟩ : ∃ k, n = k + 1 := ⟨n - 1, by simp at hn; omega⟩
    refine ⟨hf, hok, ?_⟩
    unfold extractBytesLoop
    show (getHeader f tab h t >>= _) = _
    rcases tail_end f tab h htl with e | e
    · rw [e, ok_bind]; rfl
    · rw [e, ok_bind]; rfl
  | cons i l ih =>
    intro n h hf data hn hgood hok hm hinc
    obtain ⟨n, rfl⟩ : ∃ k, n = k + 1 := ⟨n - 1, by simp at hn; omega⟩
    obtain ⟨hv, hw⟩ := hgood i List.mem_cons_self
    obtain ⟨g, e1, K⟩ := i.parse f hg tab hv h hm hinc.1 hinc.2.1 (l.flatMap Item.bytes ++ t)
    have p1 := K.packed
    have p2 := K.name
    have p3 : g.method.length = 5 := by rw [K.method]; exact hv.method
    have hgood' := fun e' he' => hgood e' (List.mem_cons_of_mem i he')
    have hn' : l.length < n := by simp at hn; omega
    have hinc' := K.fits hinc.2.2
    by_cases hwant : i.name f = want
    · obtain ⟨m, hidx, hp, hk, hcrc⟩ := K.right hv (hw hwant)
      have horig := K.original
      obtain ⟨hf1, ok1, hdec⟩ := hp.decodes ht hf hok (l.flatMap Item.bytes ++ t)
      have hx : extractOneStream (others tab) tab hf g (i.packed ++ (l.flatMap Item.bytes ++ t)) =
          .ok (.ok ⟨i.content, crc16 0 i.content, i.packed.length, l.flatMap Item.bytes ++ t, hf1⟩) := by
        unfold extractOneStream
        simp only [hidx]
        rw [if_pos ⟨hk, hp.ndir⟩, horig, p1, hdec, ok_bind]
        simp only []
        rw [if_neg (by rw [hcrc]; simp)]
      obtain ⟨hf2, ok2, hr⟩ := ih n g hf1 i.content hn' hgood' ok1 p3 hinc'
      refine ⟨hf2, ok2, ?_⟩
      unfold extractBytesLoop
      rw [List.flatMap_cons, List.append_assoc, e1, ok_bind]
      simp only []
      rw [if_pos (by rw [p2, hwant]), hx, ok_bind]
      simp only []
      rw [if_neg (by rw [p1]; simp), hr]
      unfold lastItem
      rw [List.foldl_cons, if_pos hwant]
    · obtain ⟨hf2, ok2, hr⟩ := ih n g hf data hn' hgood' hok p3 hinc'
      refine ⟨hf2, ok2, ?_⟩
      unfold extractBytesLoop
      rw [List.flatMap_cons, List.append_assoc, e1, ok_bind]
      simp only []
      rw [if_neg (by rw [p2]; intro hc; exact hwant (List.append_cancel_right hc)), p1, skip_packed, hr]
      unfold lastItem
      rw [List.foldl_cons, if_neg hwant]

theorem lastItem_none (f : Fmt) (want : List Nat) (l : List Item) : ∀ d, (∀ x ∈ l, x.name f ≠ want) → lastItem f want d l = d := by
  induction l with
  | nil => intro d _; rfl
  | cons x l ih =>
    intro d hx
    unfold lastItem
    rw [List.foldl_cons, if_neg (hx x List.mem_cons_self)]
    exact ih d (fun y hy => hx y (List.mem_cons_of_mem _ hy))

/-- **C102 (partial).** Full statement: in every archive with entries made under other systems, each entry can be read with `DecompresBytes` by the name it is listed under.
Proved for level 0 (OS-9 with directories included), the methods of C42, if names do not get longer (C30), no later entry has the same name (C97), and entries that do not
record the system are not behind others (`C102_false`). -/
theorem C102_partial (f : Fmt) (hg : f.generic = false) (tab : Arr) (ht : makeCrcTable = .ok tab) (l1 l2 : List Item) (i : Item)
    (hv : ∀ x ∈ l1 ++ i :: l2, x.Valid) (hw : ∀ x ∈ l1 ++ i :: l2, x.name f = i.name f → x.Right) (hlast : ∀ x ∈ l2, x.name f ≠ i.name f)
    (hinc : FitsI f 0 1024 (l1 ++ i :: l2)) (t : List Nat) (htl : Tail t) (hf : Hf) (hok : GOk hf) :
    ∃ hf', GOk hf' ∧ decompresBytes f (others tab) tab false (i.name f ++ [0]) hf (some ((l1 ++ i :: l2).flatMap Item.bytes ++ t)) =
      .ok ⟨false, i.content, hf'⟩ := by
  obtain ⟨hf', ok', h⟩ := extractBytesLoop_items f hg ht (i.name f) htl (l1 ++ i :: l2)
    (((l1 ++ i :: l2).flatMap Item.bytes ++ t).length + 1) newHdr hf [] (by have := items_length (l1 ++ i :: l2) t; omega)
    (fun x hx => ⟨hv x hx, hw x hx⟩) hok newHdr_method (by rw [newHdr_name]; exact hinc)
  refine ⟨hf', ok', ?_⟩
  unfold decompresBytes
  simp only [Bool.false_eq_true, if_false]
  rw [ok_bind, h]
  have : lastItem f (i.name f) [] (l1 ++ i :: l2) = i.content := by
    unfold lastItem
    rw [List.foldl_append, List.foldl_cons, if_pos rfl]
    exact lastItem_none f _ l2 _ hlast
  rw [this]

/-- A Unix file `ab`, then a file `A` of which the system is not recorded; both hold `A`. -/
def mixedItems : List Item :=
  [.inl (sampleEntry [45, 108, 122, 115, 45] [97, 98] [0xa0, 0x80] [65]), .inr ⟨[45, 108, 122, 115, 45], [65], [65], [0xa0, 0x80], crc16 0 [65], 0, 0x20, []⟩]

def mixed : List Nat := mixedItems.flatMap Item.bytes

/-- The header read, and what follows. -/
def gotHdr : G HdrRes → Hdr × List Nat
  | .ok (.got h r) => (h, r)
  | _ => (newHdr, [])

/-- **C102 is false of entries without a record of the system**: with `ConvertCase`, `Headers` lists `ab` and `a`, but reading `a` returns nothing, and no error.  (The system of the entry before it
is taken.) -/
theorem C102_false (tab : Arr) (ht : makeCrcTable = .ok tab) (hf : Hf) (hok : GOk hf) :
    (∃ g1 g2 hf', headers ⟨false, true⟩ (others tab) tab Opts.default hf (some mixed) = .ok ⟨false, [g1, g2], hf'⟩ ∧ g2.name = [97, 0] ∧ g2.originalSize = 1) ∧
    decompresBytes ⟨false, true⟩ (others tab) tab false [97, 0] hf (some mixed) = .ok ⟨false, [], hf⟩ := by
  constructor
  · have hgood : ∀ i ∈ mixedItems, Item.Good ⟨false, true⟩ i := by
      have h1 := sample_sound [97, 98] (by decide) (by decide) (by decide)
      intro i hi
      simp only [mixedItems, List.mem_cons, List.not_mem_nil, or_false] at hi
      rcases hi with rfl | rfl
      · exact Or.inl ⟨h1, rfl⟩
      · refine ⟨⟨by decide, by decide, by decide, by decide, by decide, (by decide +kernel : crc16 0 [65] < 2 ^ 16), by decide⟩, by decide, by simp [Alien.Osk], Or.inl ?_⟩
        obtain ⟨_, _, m, hidx, hp⟩ := h1
        exact ⟨m, hidx, hp, rfl⟩
    obtain ⟨hs, hf', _, h, P⟩ := C100_partial ⟨false, true⟩ rfl tab ht mixedItems hgood [] (Or.inl rfl) hf hok
    rw [List.append_nil] at h
    cases P with
    | cons a P => cases P with
      | cons b P =>
        cases P
        have b' : Seen ⟨false, true⟩ _ _ := b
        refine ⟨_, _, hf', h, ?_, ?_⟩
        · rw [b'.name]; decide
        · rw [b'.original]; rfl
  · have e1 : getHeader ⟨false, true⟩ tab newHdr mixed = .ok (.got (gotHdr (getHeader ⟨false, true⟩ (Arr.mk' 256 0) newHdr mixed)).1
        (gotHdr (getHeader ⟨false, true⟩ (Arr.mk' 256 0) newHdr mixed)).2) := by
      rw [getHeader_tab _ tab (Arr.mk' 256 0) newHdr mixed (by decide +kernel)]
      decide +kernel
    generalize hq : gotHdr (getHeader ⟨false, true⟩ (Arr.mk' 256 0) newHdr mixed) = q at e1
    have d1 : q.1.name ≠ [97, 0] := by rw [← hq]; decide +kernel
    have e2 : getHeader ⟨false, true⟩ tab q.1 ((skipTo q.1.packedSize q.2).getD []) =
        .ok (.got (gotHdr (getHeader ⟨false, true⟩ (Arr.mk' 256 0) q.1 ((skipTo q.1.packedSize q.2).getD []))).1
          (gotHdr (getHeader ⟨false, true⟩ (Arr.mk' 256 0) q.1 ((skipTo q.1.packedSize q.2).getD []))).2) := by
      rw [← hq, getHeader_tab _ tab (Arr.mk' 256 0) _ _ (by decide +kernel)]
      decide +kernel
    generalize hr : gotHdr (getHeader ⟨false, true⟩ (Arr.mk' 256 0) q.1 ((skipTo q.1.packedSize q.2).getD [])) = r at e2
    have d2 : r.1.name ≠ [97, 0] := by rw [← hr, ← hq]; decide +kernel
    have d3 : (skipTo r.1.packedSize r.2).getD [] = [] := by rw [← hr, ← hq]; decide +kernel
    have hlen : mixed.length + 1 = 2 + 1 + 1 + (mixed.length - 3) := by decide +kernel
    unfold decompresBytes
    simp only [Bool.false_eq_true, if_false]
    rw [ok_bind, hlen]
    generalize mixed.length - 3 = k
    rw [show 2 + 1 + 1 + k = k + 1 + 1 + 1 + 1 by omega]
    unfold extractBytesLoop
    rw [e1, ok_bind]
    simp only []
    rw [if_neg d1]
    unfold extractBytesLoop
    rw [e2, ok_bind]
    simp only []
    rw [if_neg d2, d3]
    unfold extractBytesLoop
    rfl

/-- The hypotheses of `C102_partial` are met: the OS-9 file `d/f` of C100, behind a Unix file. -/
example (tab : Arr) (ht : makeCrcTable = .ok tab) (hf : Hf) (hok : GOk hf) : ∃ hf', decompresBytes ⟨false, true⟩ (others tab) tab false [100, 47, 102, 0] hf
    (some (([.inl (sampleEntry [45, 108, 122, 115, 45] [120, 47, 101] [0xa0, 0x80] [65]), .inr alien3] : List Item).flatMap Item.bytes ++ [0])) = .ok ⟨false, [65], hf'⟩ := by
  have h1 := sample_sound [120, 47, 101] (by decide) (by decide) (by decide)
  have ho : alien3.Ok := ⟨by decide, by decide, by decide, by decide, by decide, (by decide +kernel : crc16 0 [65] < 2 ^ 16), by decide⟩
  obtain ⟨hf', _, h⟩ := C102_partial ⟨false, true⟩ rfl tab ht [.inl (sampleEntry [45, 108, 122, 115, 45] [120, 47, 101] [0xa0, 0x80] [65])] [] (.inr alien3)
    (by
      intro x hx
      simp only [List.mem_append, List.mem_cons, List.not_mem_nil, or_false] at hx
      rcases hx with rfl | rfl
      · exact h1.ok
      · exact ⟨ho, by decide⟩)
    (by
      intro x hx _
      simp only [List.mem_append, List.mem_cons, List.not_mem_nil, or_false] at hx
      rcases hx with rfl | rfl
      · exact ⟨h1, rfl⟩
      · obtain ⟨_, _, m, hidx, hp⟩ := h1
        exact ⟨m, hidx, hp, rfl⟩)
    (by simp) ⟨by decide, False.elim, by decide, (fun h => by cases h), trivial⟩ [0] (Or.inr ⟨[], rfl⟩) hf hok
  exact ⟨hf', h⟩

end Lha
