import Verif.Props.C44
import Verif.Props.C61
import Verif.Proof.RunD
/-!
# C99: `Headers` lists the entries whatever they contain
-/

namespace Lha

open Spec

/-- `Headers` gets past the entry `e`. -/
def Passed (tab : Arr) (e : Entry) : Prop :=
  ∀ (g : Hdr) (hf : Hf) (T : List Nat), GOk hf → Parsed e g → ∃ d : OneOut, GOk d.hf ∧ d.name = g.name ∧
    verifyOne (others tab) tab Opts.default hf g (e.packed ++ T) = .ok (.ok d) ∧
    ((d.readSize = e.packed.length ∧ d.rest = T) ∨ (d.readSize ≠ e.packed.length ∧ skipTo e.packed.length d.rest = some T))

theorem Sound.passed {tab : Arr} (ht : makeCrcTable = .ok tab) {e : Entry} (h : Sound e) (hcrc : e.crc = crc16 0 e.content) : Passed tab e := by
  intro g hf T hok P
  obtain ⟨hf1, ok1, hv⟩ := h.verify ht hcrc P hf hok T
  exact ⟨_, ok1, rfl, hv, Or.inl ⟨rfl, rfl⟩⟩

theorem DirEntry.passed {tab : Arr} {e : Entry} (h : DirEntry e) : Passed tab e := by
  intro g hf T hok P
  have hd : fileType g.mode = 0o040000 := (P.fileType h.ok).trans h.kind
  refine ⟨⟨0, e.packed ++ T, hf, g.name, none⟩, hok, rfl, ?_, ?_⟩
  · unfold verifyOne
    rw [P.entryName, ok_bind]
    simp only [P.method, h.method, lhd_idx]
    rw [if_neg (by simp), if_pos (Or.inl hd)]
  · by_cases hp : e.packed = []
    · exact Or.inl ⟨by rw [hp]; rfl, by rw [hp]; rfl⟩
    · have : 0 < e.packed.length := List.length_pos_iff.2 hp
      refine Or.inr ⟨by simp only []; omega, ?_⟩
      unfold skipTo readF
      simp only []
      rw [if_neg (by simp [hp])]
      simp

/-- Entries it gets past are listed; what follows them is looked at in some state. -/
theorem headersLoop_passed (f : Fmt) (hg : f.generic = false) {tab : Arr} (X : List Nat) (es : List Entry) :
    ∀ (n : Nat) (hf : Hf) (acc : List Hdr), es.length < n → (∀ e ∈ es, e.Ok ∧ Passed tab e) → GOk hf →
      ∃ k hs hf', n = es.length + k ∧ GOk hf' ∧ List.Forall₂ Parsed es hs ∧
        headersLoop f (others tab) tab Opts.default n hf acc (archive es X) = headersLoop f (others tab) tab Opts.default k hf' (acc ++ hs) X := by
  induction es with
  | nil =>
    intro n hf acc hn _ hok
    exact ⟨n, [], hf, by simp, hok, .nil, by simp [archive]⟩
  | cons e es ih =>
    intro n hf acc hn hgood hok
    obtain ⟨n, rfl⟩ : ∃ k, n = k + 1 := ⟨n - 1, by simp at hn; omega⟩
    obtain ⟨ho, hp⟩ := hgood e List.mem_cons_self
    obtain ⟨g, e1, P⟩ := entry_parse f hg tab e ho newHdr newHdr_method (by rw [newHdr_name]; have := ho.name; omega) (archive es X)
    obtain ⟨d, ok1, dn, hv, hr⟩ := hp g hf (archive es X) hok P
    obtain ⟨k, l, hf', k1, k2, k3, k5⟩ := ih n d.hf (acc ++ [{ g with name := d.name }]) (by simp at hn; omega)
      (fun e' he' => hgood e' (List.mem_cons_of_mem _ he')) ok1
    refine ⟨k, { g with name := d.name } :: l, hf', by simp; omega, k2, .cons (by rw [dn]; exact P) k3, ?_⟩
    conv_lhs => unfold headersLoop
    rw [archive_cons, e1, ok_bind]
    simp only []
    rw [if_pos (by simp [needFile, Opts.default]), hv, ok_bind]
    simp only []
    rcases hr with ⟨r1, r2⟩ | ⟨r1, r2⟩
    · rw [if_neg (by rw [P.packed, r1]; simp), r2, k5]
      simp
    · have hpk := P.packed
      rw [if_pos (by rw [hpk]; exact r1), show skipTo g.packedSize d.rest = some (archive es X) by rw [hpk]; exact r2]
      simp only []
      rw [k5]
      simp

/-- **C99 (partial).** Full statement: for every archive whose headers are intact `Headers` returns a header for every entry, whatever the entries contain.  Proved for any number
of files as in C42 with right checksums, and directories. -/
theorem C99_partial (f : Fmt) (hg : f.generic = false) (tab : Arr) (ht : makeCrcTable = .ok tab) (es : List Entry)
    (hes : ∀ e ∈ es, (Sound e ∧ e.crc = crc16 0 e.content) ∨ DirEntry e) (t : List Nat) (htl : Tail t) (hf : Hf) (hok : GOk hf) :
    ∃ hs hf', GOk hf' ∧ headers f (others tab) tab Opts.default hf (some (archive es t)) = .ok ⟨false, hs, hf'⟩ ∧ List.Forall₂ Parsed es hs := by
  have hl := archive_length es t
  obtain ⟨k, hs, hf', k1, k2, k3, k4⟩ := headersLoop_passed f hg (tab := tab) t es ((archive es t).length + 1) hf [] (by omega)
    (fun e he => (hes e he).elim (fun h => ⟨h.1.ok, h.1.passed ht h.2⟩) (fun h => ⟨h.ok, h.passed⟩)) hok
  obtain ⟨k, rfl⟩ : ∃ j, k = j + 1 := ⟨k - 1, by omega⟩
  refine ⟨hs, hf', k2, ?_, k3⟩
  unfold headers
  simp only []
  rw [k4]
  unfold headersLoop
  rcases tail_end f tab newHdr htl with e | e <;> rw [e, ok_bind] <;> simp

/-- **C99 is false**, one entry `e` being enough, wherever it is: the entries behind it are not listed, and an error is returned, if the error comes from looking at the contents
of `e`. -/
theorem C99_stops (f : Fmt) (hg : f.generic = false) (tab : Arr) (ht : makeCrcTable = .ok tab) (es : List Entry)
    (hes : ∀ e ∈ es, (Sound e ∧ e.crc = crc16 0 e.content) ∨ DirEntry e) (e : Entry) (ho : e.Ok) (R : List Nat)
    (hbad : ∀ g hf1, GOk hf1 → Parsed e g → ∃ hf2, verifyOne (others tab) tab Opts.default hf1 g (e.packed ++ R) = .ok (.error hf2))
    (hf : Hf) (hok : GOk hf) :
    ∃ hs hf', headers f (others tab) tab Opts.default hf (some (archive es (e.bytes ++ R))) = .ok ⟨true, hs, hf'⟩ ∧ List.Forall₂ Parsed (es ++ [e]) hs := by
  have hl := archive_length es (e.bytes ++ R)
  obtain ⟨k, hs, hf', k1, k2, k3, k4⟩ := headersLoop_passed f hg (tab := tab) (e.bytes ++ R) es ((archive es (e.bytes ++ R)).length + 1) hf [] (by omega)
    (fun e he => (hes e he).elim (fun h => ⟨h.1.ok, h.1.passed ht h.2⟩) (fun h => ⟨h.ok, h.passed⟩)) hok
  obtain ⟨k, rfl⟩ : ∃ j, k = j + 1 := ⟨k - 1, by omega⟩
  obtain ⟨g, e1, P⟩ := entry_parse f hg tab e ho newHdr newHdr_method (by rw [newHdr_name]; have := ho.name; omega) R
  obtain ⟨hf2, hv⟩ := hbad g hf' k2 P
  refine ⟨hs ++ [g], hf2, ?_, List.rel_append k3 (.cons P .nil)⟩
  unfold headers
  simp only []
  rw [k4]
  unfold headersLoop
  rw [e1, ok_bind]
  simp only []
  rw [if_pos (by simp [needFile, Opts.default]), hv, ok_bind]
  simp

/-- **C99 is false** of intact stored files: every archive with one (not empty, checksum not 0) has an incomplete list. -/
theorem C99_false_stored (f : Fmt) (hg : f.generic = false) (tab : Arr) (ht : makeCrcTable = .ok tab) (es : List Entry)
    (hes : ∀ e ∈ es, (Sound e ∧ e.crc = crc16 0 e.content) ∨ DirEntry e) (e : Entry) (ho : e.Ok) (hk : e.kind = 0o100000)
    (hl0 : e.method = lh0) (_hp : e.packed = e.content) (hne : e.content ≠ []) (_hcrc : e.crc = crc16 0 e.content) (hnz : e.crc ≠ 0)
    (R : List Nat) (hf : Hf) (hok : GOk hf) :
    ∃ hs hf', headers f (others tab) tab Opts.default hf (some (archive es (e.bytes ++ R))) = .ok ⟨true, hs, hf'⟩ ∧ List.Forall₂ Parsed (es ++ [e]) hs := by
  refine C99_stops f hg tab ht es hes e ho R ?_ hf hok
  intro g hf1 _ P
  have hidx : methods.findIdx? (· = e.method) = some 0 := by rw [hl0]; decide
  obtain ⟨pad, c1, _⟩ := copyfile_ok e.content.length (List.length_pos_iff.2 hne) (e.packed ++ R)
  refine ⟨hf1, ?_⟩
  unfold verifyOne
  rw [P.entryName, ok_bind]
  simp only [P.method, hidx]
  rw [if_pos ⟨(P.fileType ho).trans hk, by omega⟩, P.original]
  unfold decodeLzhuf
  rw [if_pos (Or.inl rfl), c1, ok_bind, ok_bind]
  simp only []
  rw [if_pos ⟨P.hasCrc, by rw [P.crc]; exact Ne.symm hnz⟩]

/-- It is false of damaged contents, too: a file that is as in C42 but for its checksum. -/
theorem C99_false_damaged (f : Fmt) (hg : f.generic = false) (tab : Arr) (ht : makeCrcTable = .ok tab) (es : List Entry)
    (hes : ∀ e ∈ es, (Sound e ∧ e.crc = crc16 0 e.content) ∨ DirEntry e) (e : Entry) (hs : Sound e) (hcrc : e.crc ≠ crc16 0 e.content)
    (R : List Nat) (hf : Hf) (hok : GOk hf) :
    ∃ l hf', headers f (others tab) tab Opts.default hf (some (archive es (e.bytes ++ R))) = .ok ⟨true, l, hf'⟩ ∧ List.Forall₂ Parsed (es ++ [e]) l := by
  refine C99_stops f hg tab ht es hes e hs.ok R ?_ hf hok
  intro g hf1 ok1 P
  obtain ⟨ho, hk, m, hidx, hp⟩ := hs
  obtain ⟨hf2, ok2, hdec⟩ := hp.decodes ht hf1 ok1 R
  refine ⟨hf2, ?_⟩
  unfold verifyOne
  rw [P.entryName, ok_bind]
  simp only [P.method, hidx]
  rw [if_pos ⟨(P.fileType ho).trans hk, hp.ndir⟩, P.original, P.packed, hdec, ok_bind]
  simp only []
  rw [if_pos ⟨P.hasCrc, by rw [P.crc]; exact Ne.symm hcrc⟩]

/-- And of files packed by a method the library does not know. -/
theorem C99_false_method (f : Fmt) (hg : f.generic = false) (tab : Arr) (ht : makeCrcTable = .ok tab) (es : List Entry)
    (hes : ∀ e ∈ es, (Sound e ∧ e.crc = crc16 0 e.content) ∨ DirEntry e) (e : Entry) (ho : e.Ok) (hm : methods.findIdx? (· = e.method) = none)
    (R : List Nat) (hf : Hf) (hok : GOk hf) :
    ∃ l hf', headers f (others tab) tab Opts.default hf (some (archive es (e.bytes ++ R))) = .ok ⟨true, l, hf'⟩ ∧ List.Forall₂ Parsed (es ++ [e]) l := by
  refine C99_stops f hg tab ht es hes e ho R ?_ hf hok
  intro g hf1 ok1 P
  refine ⟨hf1, ?_⟩
  unfold verifyOne
  rw [P.entryName, ok_bind]
  simp only [P.method, hm]

/-- The hypotheses are met: a directory, a stored file `b` holding `A`; an entry packed by `-lh8-`. -/
example (tab : Arr) (ht : makeCrcTable = .ok tab) (hf : Hf) (hok : GOk hf) : ∃ hs hf', headers ⟨false, false⟩ (others tab) tab Opts.default hf
    (some (archive [{ sampleEntry [45, 108, 104, 100, 45] [120, 47, 101] [] [] with kind := 0o040000 }]
      ((sampleEntry lh0 [98] [65] [65]).bytes ++ (sampleEntry [45, 108, 122, 115, 45] [99] [0xa0, 0x80] [65]).bytes ++ [0]))) = .ok ⟨true, hs, hf'⟩ ∧ hs.length = 2 := by
  obtain ⟨hs, hf', h, P⟩ := C99_false_stored ⟨false, false⟩ rfl tab ht [{ sampleEntry [45, 108, 104, 100, 45] [120, 47, 101] [] [] with kind := 0o040000 }]
    (by
      intro e he
      rw [List.mem_singleton] at he
      subst he
      exact Or.inr ⟨⟨rfl, (by decide : 3 ≤ 221), (by decide : 0 ∉ [120, 47, 101]), (by decide : 0x5c ∉ [120, 47, 101]), (by decide : 0 < 2 ^ 32), (by decide : 0 < 2 ^ 32),
        sampleEntry_crc [45, 108, 104, 100, 45] [120, 47, 101] [] [], (by decide : 0o644 < 2 ^ 12), Or.inr rfl⟩, rfl, rfl⟩)
    (sampleEntry lh0 [98] [65] [65])
    ⟨rfl, (by decide : 1 ≤ 221), (by decide : 0 ∉ [98]), (by decide : 0x5c ∉ [98]), (by decide : 1 < 2 ^ 32), (by decide : 1 < 2 ^ 32),
        sampleEntry_crc lh0 [98] [65] [65], (by decide : 0o644 < 2 ^ 12), Or.inl rfl⟩ rfl rfl rfl (by decide : ([65] : List Nat) ≠ []) rfl
    (by show crc16 0 [65] ≠ 0; decide +kernel) ((sampleEntry [45, 108, 122, 115, 45] [99] [0xa0, 0x80] [65]).bytes ++ [0]) hf hok
  rw [List.append_assoc]
  exact ⟨hs, hf', h, P.length_eq.symm⟩

example : methods.findIdx? (· = (sampleEntry [45, 108, 104, 56, 45] [98] [65] [65]).method) = none := by decide

end Lha
