import Verif.Props.C91
import Verif.Props.C93
/-!
# C94: the ratio shown in a listing
-/

namespace Lha

open Spec

/-! ## No size is too large -/

theorem parseLevel0_packed {h g : Hdr} {hs : Nat} {d : List Nat} (hd : IsBytes d) (hx : parseLevel0 h hs d = .ok (some g)) : g.packedSize < 2 ^ 32 := by
  unfold parseLevel0 at hx
  obtain ⟨_, _, hx⟩ := bind_ok hx
  obtain ⟨_, ho, hx⟩ := bind_ok hx
  obtain ⟨_, _, hx⟩ := bind_ok hx
  obtain ⟨_, _, hx⟩ := bind_ok hx
  obtain ⟨_, _, hx⟩ := bind_ok hx
  obtain ⟨_, _, hx⟩ := bind_ok hx
  obtain ⟨nl, hnl, hx⟩ := bind_ok hx
  obtain ⟨⟨nm, i⟩, hb, hx⟩ := bind_ok hx
  simp only [] at hx
  obtain ⟨nm', hz, hx⟩ := bind_ok hx
  have hm := getLong_small hd ho
  split at hx
  · split at hx
    · cases hx; exact hm
    · cases hx
  · obtain ⟨_, _, hx⟩ := bind_ok hx
    split at hx
    · cases hx; exact hm
    · obtain ⟨_, _, hx⟩ := bind_ok hx
      split at hx
      · split at hx
        · obtain ⟨_, _, hx⟩ := bind_ok hx
          obtain ⟨_, _, hx⟩ := bind_ok hx
          obtain ⟨_, _, hx⟩ := bind_ok hx
          obtain ⟨_, _, hx⟩ := bind_ok hx
          obtain ⟨_, _, hx⟩ := bind_ok hx
          cases hx; exact hm
        · cases hx; exact hm
      · cases hx; exact hm

theorem getLevel0_packed {h g : Hdr} {d inp rest : List Nat} (hd : IsBytes d) (hi : IsBytes inp) (hx : getLevel0 h d inp = .ok (some (g, rest))) :
    g.packedSize < 2 ^ 32 := by
  unfold getLevel0 at hx
  obtain ⟨hs, _, hx⟩ := bind_ok hx
  obtain ⟨sm, _, hx⟩ := bind_ok hx
  split at hx
  · cases hx
  · split at hx
    · cases hx
    · rename_i x r hr
      split at hx
      · cases hx
      · obtain ⟨y, hp, hx⟩ := bind_ok hx
        split at hx
        · cases hx
        · cases hx
          exact parseLevel0_packed (isBytes_append hd (by rw [(readF_some hr).1]; exact isBytes_take hi _)) hp

theorem getLevel1_packed {h g : Hdr} {d inp rest : List Nat} (hd : IsBytes d) (hi : IsBytes inp) (hx : getLevel1 h d inp = .ok (some (g, rest))) :
    g.packedSize < 2 ^ 32 := by
  unfold getLevel1 at hx
  obtain ⟨hs, _, hx⟩ := bind_ok hx
  obtain ⟨sm, _, hx⟩ := bind_ok hx
  split at hx
  · cases hx
  · rename_i hlt
    split at hx
    · cases hx
    · rename_i x r hr
      split at hx
      · cases hx
      · simp only [] at hx
        obtain ⟨_, _, hx⟩ := bind_ok hx
        obtain ⟨_, ho, hx⟩ := bind_ok hx
        obtain ⟨_, _, hx⟩ := bind_ok hx
        obtain ⟨_, _, hx⟩ := bind_ok hx
        obtain ⟨_, _, hx⟩ := bind_ok hx
        obtain ⟨_, _, hx⟩ := bind_ok hx
        obtain ⟨nl, hnl, hx⟩ := bind_ok hx
        obtain ⟨⟨nm, i⟩, hb, hx⟩ := bind_ok hx
        simp only [] at hx
        obtain ⟨nm', hz, hx⟩ := bind_ok hx
        have hm := getLong_small (isBytes_append hd (by rw [(readF_some hr).1]; exact isBytes_take hi _)) ho
        obtain ⟨_, _, hx⟩ := bind_ok hx
        obtain ⟨_, _, hx⟩ := bind_ok hx
        obtain ⟨_, _, hx⟩ := bind_ok hx
        split at hx
        · obtain ⟨y, hy, hx⟩ := bind_ok hx
          cases y with
          | none => cases hx
          | some y => exact absurd hy (extLoop_never _ _ _ _ _ (by show hs ≠ 0; omega))
        · cases hx
          exact hm

/-- No header announces 2^32 packed bytes. -/
theorem getHeader_packed {f : Fmt} {tab : Arr} {h g : Hdr} {inp rest : List Nat} (hi : IsBytes inp) (hx : getHeader f tab h inp = .ok (.got g rest)) :
    g.packedSize < 2 ^ 32 := by
  unfold getHeader at hx
  split at hx
  · cases hx
  · rename_i b inp
    split at hx
    · cases hx
    · split at hx
      · cases hx
      · rename_i x r hr1
        simp only [] at hx
        obtain ⟨y, hy, hx⟩ := bind_ok hx
        split at hx
        · cases hx
        · rename_i h1 r1
          have hx := Except.ok.inj hx
          have hin : IsBytes inp := fun x hx => hi x (List.mem_cons_of_mem _ hx)
          have hdd : IsBytes (b :: x ++ List.replicate (20 - x.length) 0) := by
            refine isBytes_append ?_ (fun z hz => by rw [List.eq_of_mem_replicate hz]; omega)
            intro z hz
            rcases List.mem_cons.mp hz with rfl | hz
            · exact hi _ List.mem_cons_self
            · rw [(readF_some hr1).1] at hz; exact isBytes_take hin _ z hz
          have hrr : IsBytes r := by rw [(readF_some hr1).2]; exact isBytes_drop hin _
          have key : h1.packedSize < 2 ^ 32 := by
            unfold byLevel at hy
            split at hy
            · exact getLevel0_packed hdd hrr hy
            · exact getLevel1_packed hdd hrr hy
            · rcases getLevel2_never tab _ r with e | e <;> rw [e] at hy <;> cases hy
            · rcases getLevel3_never tab _ r with e | e <;> rw [e] at hy <;> cases hy
            · cases hy
          unfold finishHdr at hx
          simp only [] at hx
          split at hx
          · split at hx
            · cases hx; exact key
            · cases hx
          · cases hx; exact key

/-! ## The column -/

theorem ratio_text {p o : Nat} (hp : p < 2 ^ 42) (ho : o < 2 ^ 53) : RatioText p o (if o = 0 then str "******" else percentText (tenths p o)) := by
  unfold RatioText
  by_cases h0 : o = 0
  · rw [if_pos h0, if_pos h0]
    rfl
  · rw [if_neg h0, if_neg h0]
    obtain ⟨t1, t2⟩ := tenths_le hp (Nat.pos_of_ne_zero h0) ho
    obtain ⟨d, hd⟩ := dec_digit (n := tenths p o % 10) (by omega)
    have hd' := dec_digits (tenths p o % 10)
    rw [hd] at hd'
    refine ⟨tenths p o, 5 - (dec (tenths p o / 10) ++ [46] ++ [d]).length, dec (tenths p o / 10), d, ?_, dec_digits _, hd', t1, t2⟩
    unfold percentText padl
    rw [hd]
    simp only [List.append_assoc, List.cons_append, List.nil_append]

theorem ends_blank (x : List Nat) (n : Nat) : ∃ y, x ++ [32] ++ List.replicate n 32 = y ++ [32] :=
  ⟨x ++ List.replicate n 32, by rw [List.append_assoc, List.append_assoc, ← List.replicate_succ', List.singleton_append, ← List.replicate_succ]⟩

theorem sizeText_shows (k : Look) {p o : Nat} (hp : p < 2 ^ 42) (ho : o < 2 ^ 53) (pre post : List Nat) :
    Shows p o (pre ++ ([32] ++ (sizeText k p o ++ ([32] ++ post)))) := by
  have : ∃ y, pre ++ [32] ++ ((if k.full then padl 7 (dec p) ++ [32] else []) ++ List.replicate (7 - (dec o).length) 32) = y ++ [32] := by
    by_cases hk : k.full
    · rw [if_pos hk, ← List.append_assoc, ← List.append_assoc]
      exact ends_blank _ _
    · rw [if_neg hk, List.nil_append]
      exact ends_blank _ _
  obtain ⟨y, hy⟩ := this
  refine ⟨y, dec o, _, post, ?_, dec_digits o, ratio_text hp ho⟩
  rw [← List.append_assoc y, ← hy]
  unfold sizeText padl
  simp only [List.append_assoc]

theorem ownerText_blank {h : Hdr} {w : List Nat} (hw : ownerText h = .ok w) : ∃ v, w = v ++ [32] := by
  unfold ownerText at hw
  split at hw
  · obtain ⟨_, _, hw⟩ := bind_ok hw
    obtain ⟨_, _, hw⟩ := bind_ok hw
    exact ⟨_, (Except.ok.inj hw).symm⟩
  · exact ⟨List.replicate 11 32, (Except.ok.inj hw).symm⟩

theorem rowText_shows {k : Look} {h : Hdr} {t : List Nat} (hp : h.packedSize < 2 ^ 32) (ho : h.originalSize < 2 ^ 32) (ht : rowText k h = .ok t) :
    Shows h.packedSize h.originalSize t := by
  unfold rowText at ht
  obtain ⟨w, hw, ht⟩ := bind_ok ht
  obtain ⟨w, rfl⟩ := ownerText_blank hw
  have ht := Except.ok.inj ht
  by_cases hk : k.full
  · have := sizeText_shows k (p := h.packedSize) (o := h.originalSize) (by omega) (by omega) ((if k.verbose then nameText h ++ [10] else []) ++ permText h ++ w)
      ((h.method ++ List.replicate 5 0).take 5 ++ [0] ++ [32] ++ (if h.hasCrc then hex4 h.crc else str "****") ++ [32] ++ stampText k ++
        (if k.verbose then [] else [32] ++ nameText h) ++ (if k.verbose then str " [" ++ dec h.level ++ str "]" else []) ++ [10])
    rw [if_pos hk] at ht
    rw [← ht]
    simpa only [List.append_assoc] using this
  · have := sizeText_shows k (p := h.packedSize) (o := h.originalSize) (by omega) (by omega) ((if k.verbose then nameText h ++ [10] else []) ++ permText h ++ w)
      (stampText k ++ (if k.verbose then [] else [32] ++ nameText h) ++ (if k.verbose then str " [" ++ dec h.level ++ str "]" else []) ++ [10])
    rw [if_neg hk] at ht
    rw [← ht]
    simpa only [List.append_assoc, List.nil_append] using this

theorem listOne_sizes {h : Hdr} {r : Row} (hr : listOne h = .ok r) : r.packed = h.packedSize ∧ r.original = h.originalSize := by
  unfold listOne at hr
  simp only [] at hr
  split at hr
  · obtain ⟨_, _, hr⟩ := bind_ok hr
    obtain ⟨_, _, hr⟩ := bind_ok hr
    cases hr
    exact ⟨rfl, rfl⟩
  · cases hr
    exact ⟨rfl, rfl⟩

/-! ## The loop -/

theorem listLoopT_shows (f : Fmt) (tab : Arr) (o : Opts) (k : Look) : ∀ (n : Nat) (h : Hdr) (out res : ListOut) (text inp : List Nat), IsBytes inp →
    listLoop f tab o n h out inp = .ok res → ∃ rows lines, res.rows = out.rows ++ rows ∧
      listLoopT f tab o k n h out.err text out.files out.packed out.original inp = .ok (res.err, text ++ lines.flatten, res.files, res.packed, res.original) ∧
      List.Forall₂ (fun r l => Shows r.packed r.original l) rows lines ∧ res.files = out.files + rows.length ∧
      res.packed = out.packed + (rows.map (·.packed)).sum ∧ res.original = out.original + (rows.map (·.original)).sum := by
  intro n
  induction n with
  | zero => intro h out res text inp _ hx; cases hx
  | succ n ih =>
    intro h out res text inp hi hx
    unfold listLoop at hx
    unfold listLoopT
    obtain ⟨x, hy, hx⟩ := bind_ok hx
    rw [hy, ok_bind]
    cases x with
    | eof => cases hx; exact ⟨[], [], by simp, by simp, .nil, rfl, rfl, rfl⟩
    | bad => cases hx; exact ⟨[], [], by simp, by simp, .nil, rfl, rfl, rfl⟩
    | fin => cases hx; exact ⟨[], [], by simp, by simp, .nil, rfl, rfl, rfl⟩
    | got g rest =>
      simp only [] at hx ⊢
      have ho := getHeader_orig hi hy
      have hp := getHeader_packed hi hy
      obtain ⟨_, j, _, hrest⟩ := getHeader_got hy
      have hb : IsBytes (rest.drop g.packedSize) := by rw [hrest]; exact isBytes_drop (isBytes_drop hi _) _
      by_cases hn : needFile o g.name
      · rw [if_pos hn] at hx ⊢
        have hr := rowText_listOne k g
        cases h1 : listOne g with
        | error x => rw [h1] at hx; cases hx
        | ok row =>
          rw [h1] at hr hx
          cases h2 : rowText k g with
          | error y => rw [h2] at hr; cases hr
          | ok t =>
            rw [ok_bind, ok_bind] at hx
            rw [ok_bind]
            obtain ⟨rows, lines, a1, a2, a3, a4, a5, a6⟩ := ih g _ res (text ++ t) _ hb hx
            obtain ⟨s1, s2⟩ := listOne_sizes h1
            refine ⟨row :: rows, t :: lines, ?_, ?_, .cons ?_ a3, ?_, ?_, ?_⟩
            · rw [a1]; simp
            · simp only [] at a2
              rw [a2]; simp
            · rw [s1, s2]; exact rowText_shows hp ho h2
            · rw [a4]; simp only [List.length_cons]; omega
            · rw [a5, List.map_cons, List.sum_cons, s1]; simp only []; omega
            · rw [a6, List.map_cons, List.sum_cons, s2]; simp only []; omega
      · rw [if_neg hn] at hx ⊢
        rw [ok_bind] at hx
        exact ih g out res text _ hb hx

/-- **C94.**  Whatever the archive contains: when a listing is printed, every line shows the original size of its entry and behind it the ratio of packed to
original size in percent, correctly rounded to tenths (or stars if the original size is 0), although it is computed with floating-point numbers;
and so does the line of the totals if less than 2^42 bytes packed and 2^53 bytes original are added up. -/
theorem C94 (f : Fmt) (tab : Arr) (o : Opts) (k : Look) (a : List Nat) (ha : IsBytes a) (out : ListOut) (h : commandList f tab o (some a) = .ok out) :
    ∃ head lines total, commandListT f tab o k (some a) = .ok (out.err, head ++ lines.flatten ++ total) ∧
      List.Forall₂ (fun r l => Shows r.packed r.original l) out.rows lines ∧
      (k.quiet = false → (out.rows.map (·.packed)).sum < 2 ^ 42 → (out.rows.map (·.original)).sum < 2 ^ 53 →
        Shows (out.rows.map (·.packed)).sum (out.rows.map (·.original)).sum total) := by
  unfold commandList at h
  simp only [] at h
  obtain ⟨rows, lines, a1, a2, a3, a4, a5, a6⟩ := listLoopT_shows f tab o k _ newHdr _ out (if k.quiet then [] else headText k) a ha h
  simp only [List.nil_append, Nat.zero_add] at a1 a2 a4 a5 a6
  refine ⟨if k.quiet then [] else headText k, lines, if k.quiet then [] else tailText k out.files out.packed out.original, ?_, by rw [a1]; exact a3, ?_⟩
  · unfold commandListT
    simp only []
    rw [a2, ok_bind]
  · intro hq hp ho
    rw [hq, a5, a6, ← a1]
    simp only [Bool.false_eq_true, if_false]
    have := sizeText_shows k hp ho (barText k ++ str " Total " ++ padl 9 (dec out.files) ++ str " file" ++ [if out.files = 1 then 32 else 115])
      ((if k.full then List.replicate 11 32 else []) ++ stampText k ++ [10])
    unfold tailText
    simpa only [List.append_assoc] using this

/-- The hypothesis is met, and there are lines, e.g. for one entry with 2 of 3 bytes: the ratio is 66.7%. -/
example : let e : Entry := ⟨[45, 108, 104, 53, 45], [97], [1, 2, 3], [1, 2], 0, 0, 0, 0o644, 0, 0, 0x20, 0o100000⟩
    IsBytes (archive [e] [0]) ∧
      (commandList ⟨false, false⟩ ⟨0, .leaf 0⟩ Opts.default (some (archive [e] [0]))).map (fun o => (o.err, o.rows.map fun r => (r.packed, r.original))) =
        .ok (false, [(2, 3)]) ∧ percentText (tenths 2 3) = [32, 54, 54, 46, 55, 37] := by
  refine ⟨?_, by decide +kernel, by decide +kernel⟩
  unfold IsBytes
  decide +kernel

end Lha
