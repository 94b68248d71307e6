import Verif.Props.C58
import Verif.Props.C60
import Verif.Props.C61
import Verif.Props.C63
import Verif.Props.C14
/-!
# C66: a damaged header is reported, and what comes before it is still processed
-/

namespace Lha

open Spec

/-- The bytes `X`, starting with a header, with one byte of that header changed: not the first one (its length), and the level (byte 20)
does not become 2 or 3 (see C14). -/
structure Damaged (e : Entry) (X Y : List Nat) : Prop where
  starts : ∃ R, X = e.bytes ++ R
  changed : ∃ i v, 1 ≤ i ∧ i < e.header.length ∧ v < 256 ∧ v ≠ X.getD i 0 ∧ (i = 20 → v ≠ 2 ∧ v ≠ 3) ∧ Y = X.set i v

theorem NonInc.left {fs : List Entry} : ∀ {es : List Entry} {n : Nat}, NonInc n (es ++ fs) → NonInc n es
  | [], _, _ => trivial
  | _ :: _, _, h => ⟨h.1, NonInc.left h.2⟩

/-- Such a header is refused. -/
theorem Damaged.bad (f : Fmt) (hg : f.generic = false) {tab : Arr} {e : Entry} (ho : e.Ok) {X Y : List Nat} (hX : IsBytes X) (h : Damaged e X Y)
    {r : Hdr} (hm : r.method.length = 5) (hn : e.name.length < r.name.length) : getHeader f tab r Y = .ok .bad := by
  obtain ⟨⟨R, rfl⟩, i, v, i1, i2, i3, i4, i5, rfl⟩ := h
  obtain ⟨g, e1, _⟩ := entry_parse f hg tab e ho r hm hn R
  have h0 : (e.bytes ++ R).getD 0 0 + 2 = e.header.length := by
    unfold Entry.bytes Entry.header
    simp
  have hl : i < (e.bytes ++ R).length := by
    have : e.header.length ≤ e.bytes.length := by
      unfold Entry.bytes
      rw [List.length_append]; omega
    rw [List.length_append]; omega
  exact C14_corruption_detected f tab r g _ _ i v hX e1 i1 (by omega) hl i3 i4 i5

/-- **C66** for extraction: an error is returned, and the files before the damaged header are there, with their contents; nothing else is
changed. -/
theorem C66_extract_partial (f : Fmt) (hg : f.generic = false) (tab : Arr) (ht : makeCrcTable = .ok tab) (hf : Hf)
    (hok : GOk hf) (s : Sys) (es : List Entry) (hes : ∀ e ∈ es, Sound e ∨ DirEntry e) (e : Entry) (ho : e.Ok) (hinc : NonInc 1024 (es ++ [e]))
    (hcan : ∀ e ∈ es, s.Creatable (lastName e.name)) (hnew : ∀ e ∈ es, s.node (lastName e.name) = none)
    (hdist : es.Pairwise fun a b => lastName a.name ≠ lastName b.name) (X Y : List Nat) (hX : IsBytes X) (hd : Damaged e X Y) :
    ∃ hf' s', GOk hf' ∧ commandExtractD f (others tab) tab Opts.default false hf s (some (archive es Y)) = .ok (true, s', hf') ∧
      (∀ e ∈ es, Sound e → s'.node (lastName e.name) = some (.file e.content s.fresh)) ∧
      (∀ n, (∀ e ∈ es, Sound e → lastName e.name ≠ n) → s'.node n = s.node n) ∧ s'.outside = s.outside ∧ s'.answers = s.answers := by
  obtain ⟨s', r1, r2, r3, r4, r5⟩ := files_run ht es s hes hcan hnew hdist
  have hl := archive_length es Y
  obtain ⟨k, h', hf', k1, k2, k4, k5, k3⟩ := r1.prefix f hg Y ((archive es Y).length + 1) newHdr hf (by omega)
    (fun e he => (hes e he).elim (·.ok) (·.ok)) hok newHdr_method (by rw [newHdr_name]; exact hinc.left)
  obtain ⟨k, rfl⟩ : ∃ j, k = j + 1 := ⟨k - 1, by omega⟩
  refine ⟨hf', s', k2, ?_, r2, r3, r4, r5⟩
  unfold commandExtractD
  simp only [Bool.false_eq_true, if_false]
  rw [ok_bind, k3]
  unfold extractLoopD
  rw [hd.bad f hg ho hX k4 (k5 [e] (by rw [newHdr_name]; exact hinc)).1, ok_bind]

/-- **C66** for testing. -/
theorem C66_test_partial (f : Fmt) (hg : f.generic = false) (tab : Arr) (ht : makeCrcTable = .ok tab) (es : List Entry)
    (hes : ∀ e ∈ es, Sound e ∧ e.crc = crc16 0 e.content) (e : Entry) (ho : e.Ok) (hinc : NonInc 1024 (es ++ [e]))
    (X Y : List Nat) (hX : IsBytes X) (hd : Damaged e X Y) (hf : Hf) (hok : GOk hf) :
    ∃ hf', GOk hf' ∧ commandTest f (others tab) tab Opts.default false hf (some (archive es Y)) = .ok (true, hf') := by
  have hl := archive_length es Y
  obtain ⟨k, h', hf', k1, k2, k3, k4, k5⟩ := testLoop_prefix f hg ht Y es ((archive es Y).length + 1) newHdr hf (by omega) hes hok newHdr_method
    (by rw [newHdr_name]; exact hinc.left)
  refine ⟨hf', k2, ?_⟩
  unfold commandTest
  simp only [Bool.false_eq_true, if_false]
  rw [ok_bind, k5]
  obtain ⟨k, rfl⟩ : ∃ j, k = j + 1 := ⟨k - 1, by omega⟩
  unfold testLoop
  rw [hd.bad f hg ho hX k3 (k4 [e] (by rw [newHdr_name]; exact hinc)).1, ok_bind]

/-- **C66** for listing: the entries before the damaged header are listed. -/
theorem C66_list_partial (f : Fmt) (hg : f.generic = false) (tab : Arr) (es : List Entry) (hes : ∀ e ∈ es, e.Ok) (e : Entry) (ho : e.Ok)
    (hinc : NonInc 1024 (es ++ [e])) (X Y : List Nat) (hX : IsBytes X) (hd : Damaged e X Y) :
    commandList f tab Opts.default (some (archive es Y)) =
      .ok ⟨true, es.map Entry.row, es.length, (es.map (·.packed.length)).sum, (es.map (·.content.length)).sum⟩ := by
  have hl := archive_length es Y
  obtain ⟨k, h', _, _, k3, k5, k6, k4⟩ := listLoop_entries f hg tab Y es ((archive es Y).length + 1) newHdr ⟨false, [], 0, 0, 0⟩ (by omega) hes
    noNames_new newHdr_method (by rw [newHdr_name]; exact hinc.left)
  unfold commandList
  simp only []
  rw [k4]
  obtain ⟨k, rfl⟩ : ∃ j, k = j + 1 := ⟨k - 1, by omega⟩
  unfold listLoop
  rw [hd.bad f hg ho hX k5 (k6 [e] (by rw [newHdr_name]; exact hinc)).1, ok_bind]
  simp only [List.nil_append, Nat.zero_add]

/-- **C66** of the program: the exit status of `-t` and `-l` is 1 for such an archive. -/
theorem C66_cli_partial (tab : Arr) (ht : makeCrcTable = .ok tab) (env : Env) (up : List Nat → List Nat) (fs : Fs) (body : List Nat → Option (List Nat))
    (arc : List Nat) (harc : arc ≠ []) (es : List Entry) (hes : ∀ e ∈ es, Sound e ∧ e.crc = crc16 0 e.content) (e : Entry) (ho : e.Ok)
    (hinc : NonInc 1024 (es ++ [e])) (X Y : List Nat) (hX : IsBytes X) (hd : Damaged e X Y) :
    lharc (others tab) tab env up fs body { archive := arc, test := true, generic := 5 } (some (archive es Y)) = .ok (some ⟨1, some (archive es Y), [], [], []⟩) ∧
    lharc (others tab) tab env up fs body { archive := arc, list := true } (some (archive es Y)) =
      .ok (some ⟨1, some (archive es Y), [], [], es.map Entry.row⟩) := by
  constructor
  · obtain ⟨hf', _, h⟩ := C66_test_partial ⟨false, false⟩ rfl tab ht es hes e ho hinc X Y hX hd Hf.fresh ⟨by constructor <;> rfl, by constructor <;> rfl⟩
    unfold lharc
    rw [if_neg harc]
    have h1 : parseOption { archive := arc, test := true, generic := 5 } = { Settings.init with cmd := .extract, verify := true } := by
      simp [parseOption, parseSubOption, parseCommand, onlyIf, Settings.init]
    simp only [h1]
    rw [show (⟨false, Settings.init.force, [], sortFiles Settings.init.files⟩ : Opts) = Opts.default from rfl,
      show Settings.init.generic = false from rfl, show (true || Settings.init.stdout) = true from rfl, if_pos rfl, h, ok_bind]
    rfl
  · have h := C66_list_partial ⟨false, false⟩ rfl tab es (fun e he => (hes e he).1.ok) e ho hinc X Y hX hd
    unfold lharc
    rw [if_neg harc]
    have h1 : parseOption { archive := arc, list := true } = { Settings.init with cmd := .list } := rfl
    simp only [h1]
    rw [show (⟨false, Settings.init.force, [], sortFiles Settings.init.files⟩ : Opts) = Opts.default from rfl,
      show Settings.init.generic = false from rfl, h, ok_bind]
    rfl

/-- **C66 is false** of the first byte: if it becomes zero, this and all later entries are dropped and no error is returned. -/
theorem C66_false (f : Fmt) (hg : f.generic = false) (tab : Arr) (ht : makeCrcTable = .ok tab) (hf : Hf)
    (hok : GOk hf) (s : Sys) (es : List Entry) (hes : ∀ e ∈ es, Sound e ∧ e.crc = crc16 0 e.content) (e : Entry) (hinc : NonInc 1024 es)
    (hcan : ∀ e ∈ es, s.Creatable (lastName e.name)) (hnew : ∀ e ∈ es, s.node (lastName e.name) = none)
    (hdist : es.Pairwise fun a b => lastName a.name ≠ lastName b.name) (R : List Nat) :
    (∃ hf' s', commandExtractD f (others tab) tab Opts.default false hf s (some (archive es ((e.bytes ++ R).set 0 0))) = .ok (false, s', hf') ∧
      ∀ n, (∀ e ∈ es, lastName e.name ≠ n) → s'.node n = s.node n) ∧
    (∃ hf', commandTest f (others tab) tab Opts.default false hf (some (archive es ((e.bytes ++ R).set 0 0))) = .ok (false, hf')) ∧
    commandList f tab Opts.default (some (archive es ((e.bytes ++ R).set 0 0))) =
      .ok ⟨false, es.map Entry.row, es.length, (es.map (·.packed.length)).sum, (es.map (·.content.length)).sum⟩ := by
  obtain ⟨T, hT⟩ : ∃ T, (e.bytes ++ R).set 0 0 = 0 :: T := by
    unfold Entry.bytes Entry.header
    exact ⟨_, rfl⟩
  rw [hT]
  refine ⟨?_, ?_, C60_partial f hg tab es (fun e he => (hes e he).1.ok) hinc T⟩
  · obtain ⟨hf', s', _, h, _, h2, _⟩ := C58_partial f hg tab ht _ (Or.inr ⟨T, rfl⟩) hf hok s es (fun e he => Or.inl (hes e he).1) hinc hcan hnew hdist
    exact ⟨hf', s', h, fun n hn => h2 n fun e he _ => hn e he⟩
  · obtain ⟨hf', _, h⟩ := C61_sound_partial f hg tab ht es hes hinc _ (Or.inr ⟨T, rfl⟩) hf hok
    exact ⟨hf', h⟩

/-- An archive that cannot be opened is reported by all of them. -/
theorem C66_missing (f : Fmt) (oth : Oth) (tab : Arr) (o : Opts) (sfx : Bool) (hf : Hf) (s : Sys) (fs : Fs) (want : List Nat) :
    commandExtractD f oth tab o sfx hf s none = .ok (true, s, hf) ∧ decompressD f oth tab o sfx want hf s none = .ok (true, s, hf) ∧
    commandTest f oth tab o sfx hf none = .ok (true, hf) ∧ commandList f tab o none = .ok ⟨true, [], 0, 0, 0⟩ ∧
    commandExtract f oth tab o fs sfx hf none = .ok ⟨true, [], hf⟩ := ⟨rfl, rfl, rfl, rfl, rfl⟩

/-- The hypotheses are met by `x/e` and `x/a`, the sum of whose header is wrong by one. -/
example : Sound (sampleEntry [45, 108, 122, 115, 45] [120, 47, 101] [0xa0, 0x80] [65]) ∧
    (sampleEntry [45, 108, 122, 115, 45] [120, 47, 97] [0xa0, 0x80] [65]).Ok ∧
    NonInc 1024 ([sampleEntry [45, 108, 122, 115, 45] [120, 47, 101] [0xa0, 0x80] [65]] ++
      [sampleEntry [45, 108, 122, 115, 45] [120, 47, 97] [0xa0, 0x80] [65]]) ∧
    Damaged (sampleEntry [45, 108, 122, 115, 45] [120, 47, 97] [0xa0, 0x80] [65])
      ((sampleEntry [45, 108, 122, 115, 45] [120, 47, 97] [0xa0, 0x80] [65]).bytes ++ [0])
      (((sampleEntry [45, 108, 122, 115, 45] [120, 47, 97] [0xa0, 0x80] [65]).bytes ++ [0]).set 22 0x30) :=
  ⟨sample_sound _ (by decide) (by decide) (by decide), (sample_sound _ (by decide) (by decide) (by decide)).ok, ⟨by decide, by decide, trivial⟩,
    ⟨_, rfl⟩, 22, 0x30, by decide, by decide, by decide, by decide, by decide, rfl⟩

end Lha
