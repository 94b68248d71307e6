import Verif.Props.C44
import Verif.Props.C66
/-!
# C98: what `Headers` returns without an error is the whole archive
-/

namespace Lha

open Spec

/-- Sound entries are listed; what follows them is looked at in some state. -/
theorem headersLoop_sound (f : Fmt) (hg : f.generic = false) {tab : Arr} (ht : makeCrcTable = .ok tab) (X : List Nat) (es : List Entry) :
    ∀ (n : Nat) (hf : Hf) (acc : List Hdr), es.length < n → (∀ e ∈ es, Sound e ∧ e.crc = crc16 0 e.content) → GOk hf →
      ∃ k hs hf', n = es.length + k ∧ GOk hf' ∧ List.Forall₂ Parsed es hs ∧
        headersLoop f (others tab) tab Opts.default n hf acc (archive es X) = headersLoop f (others tab) tab Opts.default k hf' (acc ++ hs) X := by
  induction es with
  | nil =>
    intro n hf acc hn _ hok
    exact ⟨n, [], hf, by simp, hok, .nil, by simp [archive]⟩
  | cons e es ih =>
    intro n hf acc hn hgood hok
    obtain ⟨n, rfl⟩ : ∃ k, n = k + 1 := ⟨n - 1, by simp at hn; omega⟩
    obtain ⟨hs, hcrc⟩ := hgood e List.mem_cons_self
    obtain ⟨g, e1, P⟩ := entry_parse f hg tab e hs.ok newHdr newHdr_method (by rw [newHdr_name]; have := hs.ok.name; omega) (archive es X)
    obtain ⟨hf1, ok1, hv⟩ := hs.verify ht hcrc P hf hok (archive es X)
    obtain ⟨k, l, hf', k1, k2, k3, k5⟩ := ih n hf1 (acc ++ [{ g with name := g.name }]) (by simp at hn; omega)
      (fun e' he' => hgood e' (List.mem_cons_of_mem _ he')) ok1
    refine ⟨k, { g with name := g.name } :: l, hf', by simp; omega, k2, .cons P k3, ?_⟩
    conv_lhs => unfold headersLoop
    rw [archive_cons, e1, ok_bind]
    simp only []
    rw [if_pos (by simp [needFile, Opts.default]), hv, ok_bind]
    simp only []
    rw [if_neg (by rw [P.packed]; simp), k5]
    simp

/-- **C98 is false**, for every archive: if a byte of the header of some entry is damaged (compare C66), `Headers` returns the entries before it, and no error: the damaged entry
and all that follow it are silently missing. -/
theorem C98_false (f : Fmt) (hg : f.generic = false) (tab : Arr) (ht : makeCrcTable = .ok tab) (es : List Entry)
    (hes : ∀ e ∈ es, Sound e ∧ e.crc = crc16 0 e.content) (e : Entry) (ho : e.Ok) (X Y : List Nat) (hX : IsBytes X) (hd : Damaged e X Y)
    (hf : Hf) (hok : GOk hf) :
    ∃ hs hf', GOk hf' ∧ List.Forall₂ Parsed es hs ∧ headers f (others tab) tab Opts.default hf (some (archive es Y)) = .ok ⟨false, hs, hf'⟩ := by
  have hl := archive_length es Y
  obtain ⟨k, hs, hf', k1, k2, k3, k4⟩ := headersLoop_sound f hg ht Y es ((archive es Y).length + 1) hf [] (by omega) hes hok
  obtain ⟨k, rfl⟩ : ∃ j, k = j + 1 := ⟨k - 1, by omega⟩
  refine ⟨hs, hf', k2, k3, ?_⟩
  unfold headers
  simp only []
  rw [k4]
  unfold headersLoop
  rw [hd.bad f hg ho hX newHdr_method (by rw [newHdr_name]; have := ho.name; omega), ok_bind]
  simp

/-- **C98 (partial).** Full statement: if `Headers` returns no error, its list has a header for every entry of the archive.  Proved: damage to the *contents* is not passed over in
silence.  If there is no error, the first entry that is not sound (whatever follows it; a file, not stored) was decoded, and what came out has the checksum in its header; it is
listed, after those before it. -/
theorem C98_partial (f : Fmt) (hg : f.generic = false) (tab : Arr) (ht : makeCrcTable = .ok tab) (es : List Entry)
    (hes : ∀ e ∈ es, Sound e ∧ e.crc = crc16 0 e.content) (e : Entry) (ho : e.Ok) (hk : e.kind = 0o100000)
    (m : Nat) (hidx : methods.findIdx? (· = e.method) = some m) (hm : m ≠ 0 ∧ m ≠ 10 ∧ m ≠ 12 ∧ m ≠ 11)
    (R : List Nat) (hf : Hf) (hok : GOk hf) (hs : List Hdr) (hf' : Hf)
    (h : headers f (others tab) tab Opts.default hf (some (archive es (e.bytes ++ R))) = .ok ⟨false, hs, hf'⟩) :
    (∃ hf1 d, GOk hf1 ∧ decodeLzhuf (others tab) tab m hf1 e.content.length e.packed.length (e.packed ++ R) = .ok d ∧ crc16 0 d.out = e.crc) ∧
      ∃ hs1 hs2, hs = hs1 ++ hs2 ∧ List.Forall₂ Parsed (es ++ [e]) hs1 := by
  have hl := archive_length es (e.bytes ++ R)
  obtain ⟨k, hs0, hf1, k1, ok1, k3, k4⟩ := headersLoop_sound f hg ht (e.bytes ++ R) es ((archive es (e.bytes ++ R)).length + 1) hf [] (by omega) hes hok
  obtain ⟨k, rfl⟩ : ∃ j, k = j + 1 := ⟨k - 1, by omega⟩
  obtain ⟨g, e1, P⟩ := entry_parse f hg tab e ho newHdr newHdr_method (by rw [newHdr_name]; have := ho.name; omega) R
  unfold headers at h
  simp only [] at h
  rw [k4] at h
  unfold headersLoop at h
  rw [e1, ok_bind] at h
  simp only [] at h
  rw [if_pos (by simp [needFile, Opts.default])] at h
  obtain ⟨y, hy, h⟩ := bind_ok h
  unfold verifyOne at hy
  rw [P.entryName, ok_bind] at hy
  simp only [P.method, hidx] at hy
  rw [if_pos ⟨(P.fileType ho).trans hk, hm.2.2.2⟩, P.original, P.packed] at hy
  obtain ⟨d, hdd, hy⟩ := bind_ok hy
  obtain ⟨tab', ht1, ht2⟩ := makeCrcTable_ok
  have ht' := ht
  rw [ht1] at ht'
  cases ht'
  have hdec := decodeLzhuf_crc (fun m h o p inp d hd => others_crc ht2 m h o p inp d hd) ht2 ⟨hm.1, hm.2.1, hm.2.2.1⟩ hdd
  split at hy
  · cases hy
    cases h
  · rename_i hc
    rw [P.hasCrc, P.crc] at hc
    have hcc : d.crc = e.crc := by
      by_cases hcc : d.crc = e.crc
      · exact hcc
      · exact absurd ⟨rfl, hcc⟩ hc
    refine ⟨⟨hf1, d, ok1, hdd, by rw [← hdec]; exact hcc⟩, ?_⟩
    cases hy
    simp only [List.nil_append] at h
    have hpre : ∀ {n hf inp} {r : HeadersOut}, headersLoop f (others tab) tab Opts.default n hf (hs0 ++ [{ g with name := g.name }]) inp = .ok r →
        ∃ l, r.headers = (hs0 ++ [{ g with name := g.name }]) ++ l := by
      intro n hf inp r hr
      exact headersLoop_prefix f (others tab) tab Opts.default n hf _ inp r hr
    have fin : ∀ {l}, hs = (hs0 ++ [{ g with name := g.name }]) ++ l → ∃ hs1 hs2, hs = hs1 ++ hs2 ∧ List.Forall₂ Parsed (es ++ [e]) hs1 := by
      intro l hl
      refine ⟨_, l, hl, ?_⟩
      exact List.rel_append k3 (.cons P .nil)
    split at h
    · split at h
      · cases h
      · obtain ⟨l, hl⟩ := hpre h
        exact fin hl
    · obtain ⟨l, hl⟩ := hpre h
      exact fin hl

/-- The hypotheses of `C98_false` are met: `x/e`, then `x/a` whose header has a wrong byte; only `x/e` is listed. -/
example (tab : Arr) (ht : makeCrcTable = .ok tab) (hf : Hf) (hok : GOk hf) : ∃ h hf', headers ⟨false, false⟩ (others tab) tab Opts.default hf
    (some (archive [sampleEntry [45, 108, 122, 115, 45] [120, 47, 101] [0xa0, 0x80] [65]]
      (((sampleEntry [45, 108, 122, 115, 45] [120, 47, 97] [0xa0, 0x80] [65]).bytes ++ [0]).set 22 0x30))) = .ok ⟨false, [h], hf'⟩ := by
  obtain ⟨hs, hf', _, P, h⟩ := C98_false ⟨false, false⟩ rfl tab ht [sampleEntry [45, 108, 122, 115, 45] [120, 47, 101] [0xa0, 0x80] [65]]
    (by intro e he; rw [List.mem_singleton] at he; subst he; exact ⟨sample_sound _ (by decide) (by decide) (by decide), rfl⟩)
    (sampleEntry [45, 108, 122, 115, 45] [120, 47, 97] [0xa0, 0x80] [65]) (sample_sound _ (by decide) (by decide) (by decide)).ok
    ((sampleEntry [45, 108, 122, 115, 45] [120, 47, 97] [0xa0, 0x80] [65]).bytes ++ [0]) _ (by unfold IsBytes; decide +kernel)
    ⟨⟨_, rfl⟩, 22, 0x30, by decide, by decide, by decide, by decide, by decide, rfl⟩ hf hok
  cases P with
  | cons _ P => cases P; exact ⟨_, hf', h⟩

/-- The hypotheses of `C98_partial` are met by a sound entry followed by one with a wrong checksum: there is an error. -/
example (tab : Arr) (ht : makeCrcTable = .ok tab) (hf hf' : Hf) (hok : GOk hf) (R : List Nat) (hs : List Hdr) :
    headers ⟨false, false⟩ (others tab) tab Opts.default hf (some (archive [sampleEntry [45, 108, 122, 115, 45] [98] [0xa0, 0x80] [65]]
      (({ sampleEntry [45, 108, 122, 115, 45] [98] [0xa0, 0x80] [65] with crc := 7 } : Entry).bytes ++ R))) ≠ .ok ⟨false, hs, hf'⟩ := by
  intro hc
  have h1 := sample_sound [98] (by decide) (by decide) (by decide)
  obtain ⟨⟨hf1, d, ok1, hd, hcrc⟩, _⟩ := C98_partial ⟨false, false⟩ rfl tab ht [sampleEntry [45, 108, 122, 115, 45] [98] [0xa0, 0x80] [65]]
    (by intro e he; rw [List.mem_singleton] at he; subst he; exact ⟨h1, rfl⟩) _
    ⟨rfl, by decide, by decide, by decide, by decide, by decide, by decide, by decide, Or.inl rfl⟩ rfl 8 (by decide) (by omega)
    R hf hok hs hf' hc
  obtain ⟨_, _, m, hidx, hp⟩ := h1
  have : m = 8 := by
    have h8 : methods.findIdx? (· = [45, 108, 122, 115, 45]) = some 8 := by decide
    exact Option.some.inj (hidx.symm.trans h8)
  subst this
  obtain ⟨hf2, _, hdec⟩ := hp.decodes ht hf1 ok1 R
  have hdd := hdec.symm.trans hd
  cases hdd
  have : crc16 0 [65] ≠ 7 := by decide +kernel
  exact this hcrc

end Lha
