import Verif.Props.C42
import Verif.Props.C44
import Verif.Props.C45
/-!
# C117: archives can be joined
-/

namespace Lha

open Spec

theorem joined_end (es : List Entry) (B : List Nat) : archive es [0] ++ B = archive es (0 :: B) := by
  unfold archive
  simp

theorem joined_cut (es1 es2 : List Entry) (t : List Nat) : (archive es1 [0]).dropLast ++ archive es2 t = archive (es1 ++ es2) t := by
  unfold archive
  rw [List.dropLast_concat]
  simp

/-- **C117 (partial).**  Full statement: of two archives, the second written behind the first, all files of both are listed, extracted and read.  Proved here if the end mark (the last byte) of the
first archive is taken away before, for archives of valid entries with level-0 headers (packed by lh1, lh4 to lh7 or lzs, or empty), names not getting longer (only for extraction and reading). -/
theorem C117_partial (f : Fmt) (hg : f.generic = false) (tab : Arr) (ht : makeCrcTable = .ok tab) (es1 es2 : List Entry)
    (hes : ∀ e ∈ es1 ++ es2, Sound e ∧ e.crc = crc16 0 e.content) (t : List Nat) (htl : Tail t) (hf : Hf) (hok : GOk hf) :
    (∃ hs hf', headers f (others tab) tab Opts.default hf (some ((archive es1 [0]).dropLast ++ archive es2 t)) = .ok ⟨false, hs, hf'⟩ ∧ List.Forall₂ Parsed (es1 ++ es2) hs) ∧
    (NonInc 1024 (es1 ++ es2) → (∀ fs : Fs, (∀ n, fs.can n = true) →
      ∃ hf', commandExtract f (others tab) tab Opts.default fs false hf (some ((archive es1 [0]).dropLast ++ archive es2 t)) =
        .ok ⟨false, es1.map (fun e => (lastName e.name, e.content)) ++ es2.map (fun e => (lastName e.name, e.content)), hf'⟩) ∧
      ∀ e ∈ es1 ++ es2, (∀ x ∈ es1 ++ es2, x.name = e.name → x = e) →
        ∃ hf', decompresBytes f (others tab) tab false (e.name ++ [0]) hf (some ((archive es1 [0]).dropLast ++ archive es2 t)) = .ok ⟨false, e.content, hf'⟩) := by
  rw [joined_cut]
  refine ⟨?_, fun hinc => ⟨fun fs hcan => ?_, fun e he huniq => ?_⟩⟩
  · obtain ⟨hs, hf', _, h1, h2⟩ := C44_partial f hg tab ht (es1 ++ es2) hes t htl hf hok
    exact ⟨hs, hf', h1, h2⟩
  · obtain ⟨hf', _, h⟩ := C42_partial f hg tab ht fs hcan (es1 ++ es2) (fun e he => (hes e he).1) hinc t htl hf hok
    exact ⟨hf', by rw [h, List.map_append]⟩
  · have hl : ∀ (es : List Entry) (d : List Nat), (∀ x ∈ es, x.name = e.name → x = e) → d = e.content ∨ e ∈ es → lastOf e.name d es = e.content := by
      intro es
      induction es with
      | nil =>
        intro d _ hd
        rcases hd with h | h
        · exact h
        · cases h
      | cons y es ih =>
        intro d hu hd
        unfold lastOf
        rw [List.foldl_cons]
        refine ih _ (fun x hx => hu x (List.mem_cons_of_mem _ hx)) ?_
        by_cases hy : y.name = e.name
        · rw [if_pos hy, hu y List.mem_cons_self hy]
          exact Or.inl rfl
        · rw [if_neg hy]
          rcases hd with h | h
          · exact Or.inl h
          · rcases List.mem_cons.mp h with rfl | h
            · exact absurd rfl hy
            · exact Or.inr h
    obtain ⟨hf', _, h⟩ := extractBytesLoop_good f hg ht e.name htl (es1 ++ es2) ((archive (es1 ++ es2) t).length + 1) newHdr hf []
      (by have := archive_length (es1 ++ es2) t; omega) (fun x hx => ⟨(hes x hx).1.ok, fun _ => hes x hx⟩) hok newHdr_method (by rw [newHdr_name]; exact hinc)
    refine ⟨hf', ?_⟩
    unfold decompresBytes
    simp only [Bool.false_eq_true, if_false]
    rw [ok_bind, h, hl _ _ huniq (Or.inr he)]

/-- **C117 is false** if the archives are joined as they are: whatever is written behind the end mark of an archive is not there for the library.  Only the first archive is listed and extracted, no
call returns an error, and of a file that is only in the second one nothing is returned. -/
theorem C117_false (f : Fmt) (hg : f.generic = false) (tab : Arr) (ht : makeCrcTable = .ok tab) (es1 es2 : List Entry)
    (hes : ∀ e ∈ es1, Sound e ∧ e.crc = crc16 0 e.content) (t : List Nat) (hf : Hf) (hok : GOk hf) :
    (∃ hs hf', headers f (others tab) tab Opts.default hf (some (archive es1 [0] ++ archive es2 t)) = .ok ⟨false, hs, hf'⟩ ∧ List.Forall₂ Parsed es1 hs) ∧
    (NonInc 1024 es1 → (∀ fs : Fs, (∀ n, fs.can n = true) →
      ∃ hf', commandExtract f (others tab) tab Opts.default fs false hf (some (archive es1 [0] ++ archive es2 t)) =
        .ok ⟨false, es1.map (fun e => (lastName e.name, e.content)), hf'⟩) ∧
      ∀ e ∈ es2, (∀ x ∈ es1, x.name ≠ e.name) →
        ∃ hf', decompresBytes f (others tab) tab false (e.name ++ [0]) hf (some (archive es1 [0] ++ archive es2 t)) = .ok ⟨false, [], hf'⟩) := by
  rw [joined_end]
  have htl : Tail (0 :: archive es2 t) := Or.inr ⟨_, rfl⟩
  refine ⟨?_, fun hinc => ⟨fun fs hcan => ?_, fun e _ hno => ?_⟩⟩
  · obtain ⟨hs, hf', _, h1, h2⟩ := C44_partial f hg tab ht es1 hes _ htl hf hok
    exact ⟨hs, hf', h1, h2⟩
  · obtain ⟨hf', _, h⟩ := C42_partial f hg tab ht fs hcan es1 (fun e he => (hes e he).1) hinc _ htl hf hok
    exact ⟨hf', h⟩
  · have hl : ∀ (es : List Entry) (d : List Nat), (∀ x ∈ es, x.name ≠ e.name) → lastOf e.name d es = d := by
      intro es
      induction es with
      | nil => intro d _; rfl
      | cons y es ih =>
        intro d hd
        unfold lastOf
        rw [List.foldl_cons, if_neg (hd y List.mem_cons_self)]
        exact ih d fun z hz => hd z (List.mem_cons_of_mem _ hz)
    obtain ⟨hf', _, h⟩ := extractBytesLoop_good f hg ht e.name htl es1 ((archive es1 (0 :: archive es2 t)).length + 1) newHdr hf []
      (by have := archive_length es1 (0 :: archive es2 t); omega) (fun x hx => ⟨(hes x hx).1.ok, fun _ => hes x hx⟩) hok newHdr_method (by rw [newHdr_name]; exact hinc)
    refine ⟨hf', ?_⟩
    unfold decompresBytes
    simp only [Bool.false_eq_true, if_false]
    rw [ok_bind, h, hl _ _ hno]

/-- The hypotheses are met: archives of one file each, with contents. -/
example : (∀ e ∈ [sampleEntry [45, 108, 122, 115, 45] [98] [0xa0, 0x80] [65]] ++ [sampleEntry [45, 108, 122, 115, 45] [99] [0xa0, 0x80] [65]], Sound e ∧ e.crc = crc16 0 e.content) ∧
    NonInc 1024 ([sampleEntry [45, 108, 122, 115, 45] [98] [0xa0, 0x80] [65]] ++ [sampleEntry [45, 108, 122, 115, 45] [99] [0xa0, 0x80] [65]]) ∧ Tail [0] ∧ GOk Hf.fresh := by
  refine ⟨?_, ⟨by decide, by decide, trivial⟩, Or.inr ⟨[], rfl⟩, by constructor <;> rfl, by constructor <;> rfl⟩
  intro e he
  simp only [List.cons_append, List.nil_append, List.mem_cons, List.not_mem_nil, or_false] at he
  rcases he with rfl | rfl
  · exact ⟨sample_sound _ (by decide) (by decide) (by decide), rfl⟩
  · exact ⟨sample_sound _ (by decide) (by decide) (by decide), rfl⟩

end Lha
