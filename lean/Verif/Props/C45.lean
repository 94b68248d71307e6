import Verif.Props.C42
/-!
# C45: `DecompresBytes` finds its entry among several
-/

namespace Lha

open Spec

/-- **C45 (partial).** Full statement: the same for every archive of valid entries and every entry in it.  Proved here if names do not get longer
from one entry to the next.  The other entries may be packed by any method, valid or not; only those of the wanted name (usually one) have
to be of the formats of C42 with the right checksum.  If several have that name the last one is returned. -/
theorem C45_partial (f : Fmt) (hg : f.generic = false) (tab : Arr) (ht : makeCrcTable = .ok tab) (es1 es2 : List Entry) (e : Entry)
    (hok : ∀ x ∈ es1 ++ e :: es2, x.Ok) (hw : ∀ x ∈ es1 ++ e :: es2, x.name = e.name → Sound x ∧ x.crc = crc16 0 x.content)
    (hlast : ∀ x ∈ es2, x.name ≠ e.name) (hinc : NonInc 1024 (es1 ++ e :: es2)) (t : List Nat) (htl : Tail t) (hf : Hf) (hgk : GOk hf) :
    ∃ hf', GOk hf' ∧ decompresBytes f (others tab) tab false (e.name ++ [0]) hf (some (archive (es1 ++ e :: es2) t)) =
      .ok ⟨false, e.content, hf'⟩ := by
  obtain ⟨hf', ok', h⟩ := extractBytesLoop_good f hg ht e.name htl (es1 ++ e :: es2)
    ((archive (es1 ++ e :: es2) t).length + 1) newHdr hf [] (by have := archive_length (es1 ++ e :: es2) t; omega)
    (fun x hx => ⟨hok x hx, hw x hx⟩) hgk newHdr_method (by rw [newHdr_name]; exact hinc)
  refine ⟨hf', ok', ?_⟩
  unfold decompresBytes
  simp only [Bool.false_eq_true, if_false]
  rw [ok_bind, h]
  have hno : ∀ (es : List Entry) d, (∀ x ∈ es, x.name ≠ e.name) → lastOf e.name d es = d := by
    intro es
    induction es with
    | nil => intro d _; rfl
    | cons x es ih =>
      intro d hx
      unfold lastOf
      rw [List.foldl_cons, if_neg (hx x List.mem_cons_self)]
      exact ih d (fun y hy => hx y (List.mem_cons_of_mem _ hy))
  have : lastOf e.name [] (es1 ++ e :: es2) = e.content := by
    unfold lastOf
    rw [List.foldl_append, List.foldl_cons, if_pos rfl]
    exact hno es2 _ hlast
  rw [this]

/-- Level-0 headers are parsed without the table of checksums. -/
theorem getHeader_tab (f : Fmt) (tab tab' : Arr) (h : Hdr) (inp : List Nat) (h20 : inp.getD 20 0 = 0) :
    getHeader f tab h inp = getHeader f tab' h inp := by
  unfold getHeader
  split
  · rfl
  · rename_i b inp
    split
    · rfl
    · split
      · rfl
      · rename_i x inp' hx
        have : (b :: x ++ List.replicate (20 - x.length) 0).getD 20 0 = 0 := by
          obtain ⟨rfl, _⟩ := readF_some hx
          rw [List.cons_append, List.getD_cons_succ] at *
          simp only [List.getD_eq_getElem?_getD] at *
          by_cases hl : 20 ≤ inp.length
          · rw [List.getElem?_append_left (by rw [List.length_take]; omega), List.getElem?_take_of_lt (by omega)]
            exact h20
          · rw [List.getElem?_append_right (by rw [List.length_take]; omega)]
            cases hr : (List.replicate (20 - (inp.take 20).length) 0)[19 - (inp.take 20).length]? with
            | none => rfl
            | some v => exact List.eq_of_mem_replicate (List.mem_of_getElem? hr)
        unfold byLevel
        simp only [this]

/-- Two valid entries, `a` (empty) and `bcd` (one letter). -/
def twoEntries : List Entry :=
  [sampleEntry [45, 108, 104, 48, 45] [97] [] [], sampleEntry [45, 108, 122, 115, 45] [98, 99, 100] [0xa0, 0x80] [65]]

/-- The steps of `DecompresBytes` for `bcd` on this archive: neither header has that name. -/
def twoSteps : G Bool := do
  match ← getHeader ⟨false, false⟩ (Arr.mk' 256 0) newHdr (archive twoEntries []) with
  | .got g r =>
    let r1 := (skipTo g.packedSize r).getD []
    match ← getHeader ⟨false, false⟩ (Arr.mk' 256 0) g r1 with
    | .got g2 r2 => .ok (decide (g.name ≠ [98, 99, 100, 0] ∧ r1.getD 20 0 = 0 ∧ g2.name ≠ [98, 99, 100, 0] ∧ (skipTo g2.packedSize r2).getD [] = []))
    | _ => panic
  | _ => panic

theorem twoSteps_ok : twoSteps = .ok true := by decide +kernel

/-- **C45 is false**: `DecompresBytes` for `bcd` on the archive of `a` and `bcd` returns nothing, and no error. -/
theorem C45_false (tab : Arr) (hf : Hf) : (∀ e ∈ twoEntries, Sound e ∧ e.crc = crc16 0 e.content) ∧
    decompresBytes ⟨false, false⟩ (others tab) tab false [98, 99, 100, 0] hf (some (archive twoEntries [])) = .ok ⟨false, [], hf⟩ := by
  refine ⟨?_, ?_⟩
  · intro e he
    simp only [twoEntries, List.mem_cons, List.not_mem_nil, or_false] at he
    rcases he with rfl | rfl
    · exact ⟨⟨⟨rfl, (by decide : 1 ≤ 221), (by decide : 0 ∉ [97]), (by decide : 0x5c ∉ [97]), (by decide : 0 < 2 ^ 32), (by decide : 0 < 2 ^ 32),
        sampleEntry_crc _ _ _ _, (by decide : 0o644 < 2 ^ 12), Or.inl rfl⟩, rfl, 0, by decide, .empty (Or.inl rfl)⟩, rfl⟩
    · exact ⟨sample_sound _ (by decide) (by decide) (by decide), rfl⟩
  · have h := twoSteps_ok
    unfold twoSteps at h
    have h20 : (archive twoEntries []).getD 20 0 = 0 := by decide +kernel
    obtain ⟨x, h1, h⟩ := bind_ok h
    split at h
    · rename_i g r
      simp only [] at h
      obtain ⟨y, h2, h⟩ := bind_ok h
      split at h
      · rename_i g2 r2
        have hd := of_decide_eq_true (Except.ok.inj h)
        obtain ⟨d1, d2, d3, d4⟩ := hd
        have hlen : (archive twoEntries []).length + 1 = 76 + 3 := by decide +kernel
        unfold decompresBytes
        simp only [Bool.false_eq_true, if_false]
        rw [ok_bind, hlen]
        unfold extractBytesLoop
        rw [getHeader_tab _ tab (Arr.mk' 256 0) _ _ h20, h1, ok_bind]
        simp only []
        rw [if_neg d1]
        unfold extractBytesLoop
        rw [getHeader_tab _ tab (Arr.mk' 256 0) _ _ d2, h2, ok_bind]
        simp only []
        rw [if_neg d3, d4]
        unfold extractBytesLoop
        rfl
      · cases h
    · cases h

/-- The hypotheses of `C45_partial` are met: `b` between `d/ab` and `c`. -/
example (tab : Arr) : ∀ x ∈ [sampleEntry [45, 108, 122, 115, 45] [100, 47, 97, 98] [0xa0, 0x80] [65]] ++
      sampleEntry [45, 108, 122, 115, 45] [98] [0xa0, 0x80] [65] :: [sampleEntry [45, 108, 122, 115, 45] [99] [0xa0, 0x80] [65]],
    Sound x ∧ x.crc = crc16 0 x.content := by
  intro e he
  simp only [List.cons_append, List.nil_append, List.mem_cons, List.not_mem_nil, or_false] at he
  rcases he with rfl | rfl | rfl <;> exact ⟨sample_sound _ (by decide) (by decide) (by decide), rfl⟩

end Lha
