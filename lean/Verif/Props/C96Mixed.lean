import Verif.Props.C96
import Verif.Props.C114
import Verif.Spec.Systems
/-!
# C96, archives put together by different programs
-/

namespace Lha

open Spec

/-- An entry whose line is right: of level 0 or 1, not of OS-9/68K.  (What is packed does not matter.) -/
def Member.Listed : Member → Prop
  | .unix e => e.Ok
  | .other a => a.Ok ∧ 0xff ∉ a.name ∧ a.os ≠ [] ∧ ¬ a.Osk
  | .level1 e => Bare e ∧ e.os ≠ 0x4b ∧ e.os ≠ 0x58

/-- The line of an entry. -/
def Member.Line (f : Fmt) (full verbose : Bool) : Member → List Nat → Prop
  | .unix e, l => StyledLine full verbose e l
  | .other a, l => SystemLine full verbose (a.os.headD 0) (a.shown f.convertCase) a.method a.packed.length a.content.length a.crc 0 l
  | .level1 e, l => SystemLine full verbose e.os (Entry1.cut f e) e.method e.packed.length e.content.length e.crc 1 l

theorem systemLabel_eq (t : Nat) : systemLabel t = systemName t := by
  have key : ∀ n, n < 128 → systemLabel n = systemName n := by decide +kernel
  by_cases h : t < 128
  · exact key t h
  · unfold systemLabel systemName
    have : systems.find? (·.1 == t) = none := by
      rw [List.find?_eq_none]
      intro x hx
      have : x.1 < 128 := by revert x; decide
      simp; omega
    rw [this]
    iterate 12 rw [if_neg (by omega)]
    rfl

theorem label_len (t : Nat) : (str (systemName t)).length ≤ 11 := by
  have key : ∀ n, n < 128 → (str (systemName n)).length ≤ 11 := by decide +kernel
  by_cases h : t < 128
  · exact key t h
  · have : systemName t = "[unknown]" := by
      rw [← systemLabel_eq]
      unfold systemLabel
      iterate 12 rw [if_neg (by omega)]
    rw [this]
    decide

theorem label_length (t : Nat) : (systemName t).length ≤ 11 := by
  have := label_len t
  unfold str at this
  rwa [List.length_map, String.length_toList] at this

theorem front_row {g : Hdr} (hnn : NoNames g) (h9 : g.extendType ≠ 0x4b) (hx : g.extendType ≠ 0x58) (hmode : g.mode = 0o100666) (hu : g.extendType = 0x55 → g.uid = 0 ∧ g.gid = 0) :
    ∃ w front, ownerText g = .ok w ∧ permText g ++ w = front ∧ Front g.extendType front := by
  by_cases h : g.extendType = 0x55
  · refine ⟨padl 5 (dec g.uid) ++ [47] ++ padr 5 (dec g.gid) ++ [32], _, ?_, rfl, ?_⟩
    · unfold ownerText
      rw [if_pos (Or.inl h), ownerOf_zero hnn.1, ok_bind, ownerOf_zero hnn.2, ok_bind]
    · unfold Front permText
      rw [if_pos h, if_pos h, hmode, (hu h).1, (hu h).2]
      decide +kernel
  · refine ⟨List.replicate 12 32, _, by unfold ownerText; rw [if_neg (by tauto)], rfl, ?_⟩
    unfold Front permText
    have hl := label_len g.extendType
    have hl' := label_length g.extendType
    rw [if_neg h, if_neg h, if_neg h9, if_neg hx, systemLabel_eq, List.take_of_length_le hl]
    refine ⟨11 - (systemName g.extendType).length, by omega, ?_⟩
    unfold padr str
    rw [List.length_map, String.length_toList]

theorem system_row {g : Hdr} (k : Look) (hnn : NoNames g) (h9 : g.extendType ≠ 0x4b) (hx : g.extendType ≠ 0x58) (hmode : g.mode = 0o100666)
    (hu : g.extendType = 0x55 → g.uid = 0 ∧ g.gid = 0) {name : List Nat}
    (hname : g.name = name ++ [0]) (hm : g.method.length = 5) (hcrc : g.hasCrc = true) (hc : g.crc < 2 ^ 16) (hp : g.packedSize < 2 ^ 32) (ho : g.originalSize < 2 ^ 32) :
    ∃ l, rowText k g = .ok l ∧ SystemLine k.full k.verbose g.extendType name g.method g.packedSize g.originalSize g.crc g.level l := by
  have hm' : (g.method ++ List.replicate 5 0).take 5 = g.method := by rw [List.take_append_of_le_length (by rw [hm]), List.take_of_length_le (by rw [hm])]
  obtain ⟨w, front, w1, w2, w3⟩ := front_row hnn h9 hx hmode hu
  refine ⟨_, ?_, front, padl 7 (dec g.packedSize), padl 7 (dec g.originalSize),
    (if g.originalSize = 0 then str "******" else percentText (tenths g.packedSize g.originalSize)), hex4 g.crc, dec g.level, rfl, w3, padl_num _ _, padl_num _ _,
    ratio_text (by omega) (by omega), hex4_col hc, dec_digits _⟩
  unfold rowText
  rw [w1, ok_bind, ← w2]
  unfold nameText sizeText stampText
  simp only [if_pos (show g.mode &&& 0o120000 ≠ 0o120000 by rw [hmode]; decide), hname, hm', hcrc]
  have h0 : str " [" = [32, 91] := by decide
  have h00 : str "]" = [93] := by decide
  rw [h0, h00]
  obtain ⟨v, f, q⟩ := k
  cases v <;> cases f <;>
    simp only [Bool.false_eq_true, if_false, if_true, Bool.and_false, Bool.and_true, List.nil_append, List.append_assoc, List.append_nil,
      List.cons_append, and_self, and_false, false_and]

/-- The owner in the header read for a Unix entry with a level-1 header. -/
theorem level1_owner (f : Fmt) (tab : Arr) (e : Entry1) (hb : Bare e) (h : Hdr) (hm : h.method.length = 5) (hn : e.name.length ≤ h.name.length) (R : List Nat) {g : Hdr} {S : List Nat}
    (hgot : getHeader f tab h (e.bytes ++ R) = .ok (.got g S)) (h55 : e.os = 0x55) : g.uid = 0 ∧ g.gid = 0 := by
  obtain ⟨hs, w, T, hs0, hw, h0, h1, hr⟩ := level1_read f tab h hm e hb.ok hn R
  obtain ⟨rfl, rfl⟩ := h0 hb.exts
  rw [hr, zeroAt_last hb.name, ok_bind] at hgot
  simp only [] at hgot
  rw [if_neg (by omega), ok_bind] at hgot
  simp only [] at hgot
  have hff : 0xff ∉ e.name.dropLast := fun h => hb.ff (List.dropLast_subset _ h)
  have hsm : isSymlinkMode 0o100666 = false := by decide
  rw [finishHdr_unix f _ e.name.dropLast rfl hff (by show e.os = _; exact h55) hsm] at hgot
  injection hgot with hgot
  injection hgot with hgot
  subst hgot
  exact ⟨rfl, rfl⟩

theorem Member.row (f : Fmt) (hg : f.generic = false) (tab : Arr) (k : Look) (x : Member) (hx : x.Listed) (h : Hdr) (hm : h.method.length = 5) (hnn : NoNames h)
    (hn : x.room ≤ h.name.length) (R : List Nat) :
    ∃ g l, getHeader f tab h (x.bytes ++ R) = .ok (.got g (x.packed ++ R)) ∧ g.packedSize = x.packed.length ∧ g.originalSize = x.content.length ∧ g.name = x.name f ++ [0] ∧
      g.method.length = 5 ∧ NoNames g ∧ rowText k g = .ok l ∧ x.Line f k.full k.verbose l := by
  cases x with
  | unix e =>
    obtain ⟨g, e1, P⟩ := entry_parse f hg tab e hx h hm hn R
    obtain ⟨o1, o2⟩ := getHeader_owner e1
    have hnn' : NoNames g := ⟨by rw [o1]; exact hnn.1, by rw [o2]; exact hnn.2⟩
    exact ⟨g, _, e1, P.packed, P.original, P.name, by rw [P.method]; exact hx.method, hnn', P.styled hx hnn' k, styledOf_line k hx⟩
  | other a =>
    obtain ⟨ho, hff, hos, hosk⟩ := hx
    obtain ⟨g, e1, P, hsys⟩ := alien_parse f tab a ho hff h hm hn (fun h => absurd h hos) R
    obtain ⟨o1, o2⟩ := getHeader_owner e1
    have hsys := hsys.resolve_right (fun h => hos h.1)
    have hd : a.os.headD 0 = g.extendType := by
      cases hc : a.os with
      | nil => exact absurd hc hos
      | cons x l => rw [hc] at hsys; exact Option.some.inj hsys
    have hnn' : NoNames g := ⟨by rw [o1]; exact hnn.1, by rw [o2]; exact hnn.2⟩
    obtain ⟨l, l1, l2⟩ := system_row (g := g) k hnn' (fun h => hosk (Or.inl (by rw [hsys, h]))) (fun h => hosk (Or.inr (by rw [hsys, h]))) P.mode
      (fun h => absurd (by rw [hsys, h]) ho.os) P.name (by rw [P.method]; exact ho.method) P.hasCrc (by rw [P.crc]; exact ho.crc) (by rw [P.packed]; exact ho.packed)
      (by rw [P.original]; exact ho.content)
    refine ⟨g, l, e1, P.packed, P.original, P.name, by rw [P.method]; exact ho.method, hnn', l1, ?_⟩
    show SystemLine _ _ _ _ _ _ _ _ _ _
    rw [hd]
    rw [P.method, P.packed, P.original, P.crc, P.level] at l2
    exact l2
  | level1 e =>
    obtain ⟨hb, h2, h3⟩ := hx
    obtain ⟨g, e1, P⟩ := level1_parse f tab e hb h hm hn R
    obtain ⟨o1, o2⟩ := getHeader_owner e1
    have hnn' : NoNames g := ⟨by rw [o1]; exact hnn.1, by rw [o2]; exact hnn.2⟩
    obtain ⟨l, l1, l2⟩ := system_row (g := g) k hnn' (by rw [P.system]; exact h2) (by rw [P.system]; exact h3) P.mode
      (fun h55 => level1_owner f tab e hb h hm hn R e1 (by rw [← P.system]; exact h55)) P.name
      (by rw [P.method]; exact hb.ok.method) P.hasCrc (by rw [P.crc]; exact hb.ok.crc) (by rw [P.packed]; have := hb.ok.packed; omega)
      (by rw [P.original]; exact hb.ok.content)
    refine ⟨g, l, e1, P.packed, P.original, P.name, by rw [P.method]; exact hb.ok.method, hnn', l1, ?_⟩
    rw [P.method, P.packed, P.original, P.crc, P.level, P.system] at l2
    exact l2

theorem listLoopT_members (f : Fmt) (hg : f.generic = false) (tab : Arr) (k : Look) (r : List Nat) (l : List Member) :
    ∀ (n : Nat) (h : Hdr) (text : List Nat) (a b c : Nat), l.length < n → (∀ x ∈ l, x.Listed) → NoNames h → h.method.length = 5 → FitsM f h.name.length l →
      ∃ lines, List.Forall₂ (Member.Line f k.full k.verbose) l lines ∧ listLoopT f tab Opts.default k n h false text a b c (l.flatMap Member.bytes ++ 0 :: r) =
        .ok (false, text ++ lines.flatten, a + l.length, b + (l.map (·.packed.length)).sum, c + (l.map (·.content.length)).sum) := by
  induction l with
  | nil =>
    intro n h text a b c hn _ _ _ _
    obtain ⟨n, rfl⟩ : ∃ k, n = k + 1 := ⟨n - 1, by simp at hn; omega⟩
    refine ⟨[], .nil, ?_⟩
    unfold listLoopT
    rw [show getHeader f tab h (([] : List Member).flatMap Member.bytes ++ 0 :: r) = .ok .fin from rfl, ok_bind]
    simp
  | cons x l ih =>
    intro n h text a b c hn hl hnn hm hfit
    obtain ⟨n, rfl⟩ : ∃ k, n = k + 1 := ⟨n - 1, by simp at hn; omega⟩
    obtain ⟨g, row, e1, p1, p2, p3, p4, p5, p6, p7⟩ := x.row f hg tab k (hl x List.mem_cons_self) h hm hnn hfit.1 (l.flatMap Member.bytes ++ 0 :: r)
    obtain ⟨lines, k1, k2⟩ := ih n g (text ++ row) (a + 1) (b + x.packed.length) (c + x.content.length) (by simp at hn; omega)
      (fun y hy => hl y (List.mem_cons_of_mem _ hy)) p5 p4 (by rw [p3, List.length_append]; exact hfit.2)
    refine ⟨row :: lines, .cons p7 k1, ?_⟩
    unfold listLoopT
    rw [List.flatMap_cons, List.append_assoc, e1, ok_bind]
    simp only []
    rw [if_pos (by simp [needFile, Opts.default]), p6, ok_bind, p1, p2, List.drop_left, k2]
    simp only [List.map_cons, List.sum_cons, List.length_cons, List.append_assoc, List.flatten_cons, Nat.add_assoc, Nat.add_comm 1]

theorem Member.sizes {x : Member} (hx : x.Listed) : x.packed.length < 2 ^ 32 ∧ x.content.length < 2 ^ 32 := by
  cases x with
  | unix e => exact ⟨hx.packed, hx.content⟩
  | other a => exact ⟨hx.1.packed, hx.1.content⟩
  | level1 e => exact ⟨by have := hx.1.ok.packed; show e.packed.length < _; omega, hx.1.ok.content⟩

theorem members_sum {l : List Member} {w : Member → Nat} (h : ∀ x ∈ l, w x < 2 ^ 32) : (l.map w).sum ≤ l.length * 2 ^ 32 := by
  induction l with
  | nil => simp
  | cons e es ih =>
    have h1 := h e List.mem_cons_self
    have h2 := ih fun e' he' => h e' (List.mem_cons_of_mem e he')
    simp only [List.map_cons, List.sum_cons, List.length_cons, Nat.add_mul, Nat.one_mul]
    omega

/-- **C96 (partial), archives put together by different programs.**  As `C96_partial`, for entries of Unix and other systems with headers of level 0 and 1, in any order: where a header
tells neither permissions nor owner, the line begins with the name of the system.  Unix entries of level 1 are the exception: they are shown as files of user 0 and group 0 with permissions
no header tells of (`Front`).  Missing: OS-9/68K, of which the claim is false (`C96_false`), level-1 headers with extensions, level 2 and 3. -/
theorem C96_mixed_partial (f : Fmt) (hg : f.generic = false) (tab : Arr) (k : Look) (l : List Member) (hl : ∀ x ∈ l, x.Listed) (hfit : FitsM f 1024 l) (hn : l.length < 2 ^ 10)
    (r : List Nat) :
    ∃ text lines total, commandListT f tab Opts.default k (some (l.flatMap Member.bytes ++ 0 :: r)) = .ok (false, text) ∧
      List.Forall₂ (Member.Line f k.full k.verbose) l lines ∧
      StyledTotal k.full k.verbose l.length (l.map (·.packed.length)).sum (l.map (·.content.length)).sum total ∧
      text = if k.quiet then lines.flatten else
        (heading k.full k.verbose).toList.map Char.toNat ++ (bar k.full k.verbose).toList.map Char.toNat ++ lines.flatten ++
          (bar k.full k.verbose).toList.map Char.toNat ++ total := by
  obtain ⟨lines, k1, k2⟩ := listLoopT_members f hg tab k r l ((l.flatMap Member.bytes ++ 0 :: r).length + 1) newHdr (if k.quiet then [] else headText k) 0 0 0
    (by have := members_length l (0 :: r); omega) hl noNames_new newHdr_method (by rw [newHdr_name]; exact hfit)
  have hp := members_sum (l := l) (w := (·.packed.length)) fun x hx => (Member.sizes (hl x hx)).1
  have ho := members_sum (l := l) (w := (·.content.length)) fun x hx => (Member.sizes (hl x hx)).2
  have hb : l.length * 2 ^ 32 < 2 ^ 42 := by
    calc _ < 2 ^ 10 * 2 ^ 32 := Nat.mul_lt_mul_of_pos_right hn (by decide)
      _ = 2 ^ 42 := by rw [← Nat.pow_add]
  obtain ⟨total, t1, t2⟩ := tail_styled k (n := l.length) (Nat.lt_of_le_of_lt hp hb) (Nat.lt_of_le_of_lt ho (Nat.lt_trans hb (by decide)))
  refine ⟨_, lines, total, ?_, k1, t2, rfl⟩
  unfold commandListT
  simp only []
  rw [k2, ok_bind]
  simp only [Nat.zero_add]
  rw [t1, headText_eq]
  cases k.quiet
  · simp only [Bool.false_eq_true, if_false, List.append_assoc]
  · simp only [if_true, List.nil_append, List.append_nil]

/-- The hypotheses are met by the three entries of C114. -/
example : (∀ x ∈ trio, x.Listed) ∧ FitsM ⟨false, true⟩ 1024 trio := by
  have hcrc : crc16 0 [65] < 2 ^ 16 := by decide +kernel
  refine ⟨?_, by decide, by decide, by decide, trivial⟩
  intro x hx
  simp only [trio, List.mem_cons, List.not_mem_nil, or_false] at hx
  rcases hx with rfl | rfl | rfl
  · exact (sample_sound [120, 47, 101] (by decide) (by decide) (by decide)).ok
  · exact ⟨⟨by decide, by decide, by decide, by decide, by decide, hcrc, by decide⟩, by decide, by decide, by simp [Alien.Osk, alien1]⟩
  · exact ⟨(full1_kept ⟨false, true⟩ _ (by decide) (by decide) (by decide) (by decide)).bare, by decide, by decide⟩

end Lha
