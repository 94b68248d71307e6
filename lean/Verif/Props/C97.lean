import Verif.Props.C44
import Verif.Props.C45
/-!
# C97: what `Headers` lists can be read with `DecompresBytes`
-/

namespace Lha

open Spec

/-- **C97 (partial).** Full statement: for every archive, `DecompresBytes` of each header that `Headers` lists returns the contents of that entry: as many bytes as the header says,
with the checksum it says.  Proved for archives of any number of entries as in C42 (right checksums, names not getting longer), no two of them with the same name; in any
order and any number of times (`hf`: whatever was decoded before).  False if a name occurs twice: `C97_false`. -/
theorem C97_partial (f : Fmt) (hg : f.generic = false) (tab : Arr) (ht : makeCrcTable = .ok tab) (es : List Entry)
    (hes : ∀ e ∈ es, Sound e ∧ e.crc = crc16 0 e.content) (hd : es.Pairwise fun a b => a.name ≠ b.name) (hinc : NonInc 1024 es)
    (t : List Nat) (htl : Tail t) (hf : Hf) (hok : GOk hf) :
    ∃ hs hf', GOk hf' ∧ headers f (others tab) tab Opts.default hf (some (archive es t)) = .ok ⟨false, hs, hf'⟩ ∧
      List.Forall₂ (fun e h => h.originalSize = e.content.length ∧ h.crc = crc16 0 e.content ∧ ∀ hf1, GOk hf1 → ∃ hf2, GOk hf2 ∧
        decompresBytes f (others tab) tab false h.name hf1 (some (archive es t)) = .ok ⟨false, e.content, hf2⟩) es hs := by
  obtain ⟨hs, hf', ok', h1, h2⟩ := C44_partial f hg tab ht es hes t htl hf hok
  refine ⟨hs, hf', ok', h1, ?_⟩
  have key : ∀ e ∈ es, ∀ h, Parsed e h → h.originalSize = e.content.length ∧ h.crc = crc16 0 e.content ∧ ∀ hf1, GOk hf1 → ∃ hf2, GOk hf2 ∧
        decompresBytes f (others tab) tab false h.name hf1 (some (archive es t)) = .ok ⟨false, e.content, hf2⟩ := by
    intro e he h P
    refine ⟨P.original, by rw [P.crc]; exact (hes e he).2, fun hf1 ok1 => ?_⟩
    obtain ⟨es1, es2, rfl⟩ := List.append_of_mem he
    rw [P.name]
    refine C45_partial f hg tab ht es1 es2 e (fun x hx => (hes x hx).1.ok) (fun x hx _ => hes x hx) ?_ hinc t htl hf1 ok1
    intro x hx hc
    exact ((List.pairwise_append.1 hd).2.1 |> List.pairwise_cons.1).1 x hx hc.symm
  clear h1 hd hinc
  generalize archive es t = A at key ⊢
  induction h2 with
  | nil => exact .nil
  | cons P _ ih =>
    exact .cons (key _ List.mem_cons_self _ P) (ih (fun e he => hes e (List.mem_cons_of_mem _ he)) (fun e he => key e (List.mem_cons_of_mem _ he)))

/-- What is returned in general: the contents of the last entry of that name. -/
theorem C97_last (f : Fmt) (hg : f.generic = false) (tab : Arr) (ht : makeCrcTable = .ok tab) (es : List Entry)
    (hes : ∀ e ∈ es, Sound e ∧ e.crc = crc16 0 e.content) (hinc : NonInc 1024 es) (t : List Nat) (htl : Tail t) (a b : Entry) (es1 es2 : List Entry)
    (he : es = es1 ++ b :: es2) (_ha : a ∈ es1) (hab : a.name = b.name) (hlast : ∀ x ∈ es2, x.name ≠ b.name) (hf : Hf) (hok : GOk hf) :
    ∃ hf', GOk hf' ∧ decompresBytes f (others tab) tab false (a.name ++ [0]) hf (some (archive es t)) = .ok ⟨false, b.content, hf'⟩ := by
  subst he
  rw [hab]
  exact C45_partial f hg tab ht es1 es2 b (fun x hx => (hes x hx).1.ok) (fun x hx _ => hes x hx) hlast hinc t htl hf hok

/-- Two entries of the same name: one letter (`A`), and nothing. -/
def twice : List Entry := [sampleEntry [45, 108, 122, 115, 45] [98] [0xa0, 0x80] [65], sampleEntry [45, 108, 104, 48, 45] [98] [] []]

theorem twice_sound : ∀ e ∈ twice, Sound e ∧ e.crc = crc16 0 e.content := by
  intro e he
  simp only [twice, List.mem_cons, List.not_mem_nil, or_false] at he
  rcases he with rfl | rfl
  · exact ⟨sample_sound _ (by decide) (by decide) (by decide), rfl⟩
  · exact ⟨⟨⟨rfl, (by decide : 1 ≤ 221), (by decide : 0 ∉ [98]), (by decide : 0x5c ∉ [98]), (by decide : 0 < 2 ^ 32), (by decide : 0 < 2 ^ 32),
        sampleEntry_crc _ _ _ _, (by decide : 0o644 < 2 ^ 12), Or.inl rfl⟩, rfl, 0, by decide, .empty (Or.inl rfl)⟩, rfl⟩

/-- **C97 is false**: `Headers` lists both entries, the first as one byte with the checksum of `A`; `DecompresBytes` of that header returns nothing, and no error. -/
theorem C97_false (f : Fmt) (hg : f.generic = false) (tab : Arr) (ht : makeCrcTable = .ok tab) (hf : Hf) (hok : GOk hf) :
    ∃ h1 h2 hf1, GOk hf1 ∧ headers f (others tab) tab Opts.default hf (some (archive twice [0])) = .ok ⟨false, [h1, h2], hf1⟩ ∧
      h1.originalSize = 1 ∧ h1.crc = crc16 0 [65] ∧
      ∃ hf2, decompresBytes f (others tab) tab false h1.name hf1 (some (archive twice [0])) = .ok ⟨false, [], hf2⟩ := by
  obtain ⟨hs, hf1, ok1, e1, P⟩ := C44_partial f hg tab ht twice twice_sound [0] (Or.inr ⟨[], rfl⟩) hf hok
  unfold twice at P
  cases P with
  | @cons _ h1 _ hs' P1 P =>
  cases P with
  | @cons _ h2 _ hs'' P2 P =>
  cases P
  refine ⟨h1, h2, hf1, ok1, e1, P1.original, P1.crc, ?_⟩
  obtain ⟨hf2, _, r⟩ := C97_last f hg tab ht twice twice_sound ⟨by decide, by decide, trivial⟩ [0] (Or.inr ⟨[], rfl⟩)
    (sampleEntry [45, 108, 122, 115, 45] [98] [0xa0, 0x80] [65]) (sampleEntry [45, 108, 104, 48, 45] [98] [] [])
    [sampleEntry [45, 108, 122, 115, 45] [98] [0xa0, 0x80] [65]] [] rfl List.mem_cons_self rfl (fun x hx => by cases hx) hf1 ok1
  rw [P1.name]
  exact ⟨hf2, r⟩

/-- The hypotheses of `C97_partial` are met: `d/ab`, then `b`. -/
example (tab : Arr) (ht : makeCrcTable = .ok tab) (hf : Hf) (hok : GOk hf) : ∃ hs hf', headers ⟨false, false⟩ (others tab) tab Opts.default hf
    (some (archive [sampleEntry [45, 108, 122, 115, 45] [100, 47, 97, 98] [0xa0, 0x80] [65], sampleEntry [45, 108, 122, 115, 45] [98] [0xa0, 0x80] [65]] [0])) =
      .ok ⟨false, hs, hf'⟩ ∧ hs.length = 2 := by
  obtain ⟨hs, hf', _, h1, h2⟩ := C97_partial ⟨false, false⟩ rfl tab ht
    [sampleEntry [45, 108, 122, 115, 45] [100, 47, 97, 98] [0xa0, 0x80] [65], sampleEntry [45, 108, 122, 115, 45] [98] [0xa0, 0x80] [65]] (by
    intro e he
    simp only [List.mem_cons, List.not_mem_nil, or_false] at he
    rcases he with rfl | rfl <;> exact ⟨sample_sound _ (by decide) (by decide) (by decide), rfl⟩)
    (List.pairwise_pair.2 (by decide)) ⟨by decide, by decide, trivial⟩ [0] (Or.inr ⟨[], rfl⟩) hf hok
  exact ⟨hs, hf', h1, h2.length_eq.symm⟩

end Lha
