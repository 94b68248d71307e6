import Verif.Proof.Foreign
import Verif.Props.C41
/-!
# C48: lh4, lh5, lh6 and lh7 streams decode as the format says, whoever wrote them
-/

namespace Lha

open Spec

/-- **C48 (partial).** Full statement: for the methods 4, 5, 6, 7, every list of tokens, every packed body `B` that holds blocks for them (any
codes, any division into blocks, any way of writing the codes the format allows) and any following bits `S`, and any bytes `T` after it in the
archive, whatever was decoded before (`h`): the decoder writes exactly the text of the tokens, reports its checksum, never reads beyond the body,
and has read all of it if only the padding of the last byte follows the blocks.  Proved here for the methods 5, 6 and 7, texts of less than
64 KiB for 7.  Both restrictions are needed: `C48_false_lh7`, `C48_false_lh4`. -/
theorem C48_partial (oth : Oth) (tab : Arr) (htab : makeCrcTable = .ok tab) (m : Nat) (hm : m = 5 ∨ m = 6 ∨ m = 7) {ts : List (Nat × Nat)}
    {bs S : List Bool} (hB : Blocks (classes m).1 (classes m).2 ts bs) (h7 : m = 7 → (expand 253 ts).length < 65536)
    {B T : List Nat} (hb : IsBytes B) (hbits : bytesBits B = bs ++ S) {h : Hf} (hok : HfOk h) :
    ∃ n h', n ≤ B.length ∧ decodeLzhuf oth tab m h (expand 253 ts).length B.length (B ++ T) =
      .ok ⟨expand 253 ts, crc16 0 (expand 253 ts), n, (B ++ T).drop n, h'⟩ ∧ (S.length < 8 → n = B.length) ∧ HfOk h' := by
  obtain ⟨tab', ht1, ht2⟩ := makeCrcTable_ok
  rw [ht1] at htab
  cases htab
  have key : ∀ {dicbit np pbit : Nat}, setNp dicbit h = { h with np := np, pbit := pbit } → np ≤ 17 → np < 2 ^ pbit → pbit ≤ 5 → np = dicbit + 1 →
      Blocks np pbit ts bs → DicOk (2 ^ dicbit) (expand 253 ts).length →
      ∃ n h', n ≤ B.length ∧ decodeSt1 dicbit tab h (expand 253 ts).length B.length (B ++ T) =
        .ok ⟨expand 253 ts, crc16 0 (expand 253 ts), n, (B ++ T).drop n, h'⟩ ∧ (S.length < 8 → n = B.length) ∧ HfOk h' := by
    intro dicbit np pbit h1 h2 h3 h4 h5 h6 h7
    subst h5
    obtain ⟨n, h', e1, e2, e3, e4, _⟩ := decodeSt1_blocks ht2 h1 h2 h3 h4 h6 (h6.dist h2 (by omega)) h7 (T := T) hb hbits hok
    exact ⟨n, h', e1, e2, e3, e4⟩
  rcases hm with rfl | rfl | rfl
  · exact key (dicbit := 13) (np := 14) (pbit := 4) rfl (by omega) (by omega) (by omega) rfl hB ⟨by decide, ⟨8, rfl⟩, fun h => by simp at h⟩
  · exact key (dicbit := 15) (np := 16) (pbit := 5) rfl (by omega) (by omega) (by omega) rfl hB ⟨by decide, ⟨2, rfl⟩, fun h => by simp at h⟩
  · exact key (dicbit := 16) (np := 17) (pbit := 5) rfl (by omega) (by omega) (by omega) rfl hB ⟨by decide, ⟨1, rfl⟩, fun _ => h7 rfl⟩

/-- lh4: the same holds if the last static operation of the process was an lh5 (or a correctly set up lh4) one. -/
theorem C48_lh4_partial (oth : Oth) (tab : Arr) (htab : makeCrcTable = .ok tab) {ts : List (Nat × Nat)}
    {bs S : List Bool} (hB : Blocks (classes 4).1 (classes 4).2 ts bs) (hw : ∀ t ∈ ts, 256 ≤ t.1 → t.2 < window 4)
    {B T : List Nat} (hb : IsBytes B) (hbits : bytesBits B = bs ++ S) {h : Hf} (hok : HfOk h) (hnp : h.np = 14) (hpb : h.pbit = 4) :
    ∃ n h', n ≤ B.length ∧ decodeLzhuf oth tab 4 h (expand 253 ts).length B.length (B ++ T) =
      .ok ⟨expand 253 ts, crc16 0 (expand 253 ts), n, (B ++ T).drop n, h'⟩ ∧ (S.length < 8 → n = B.length) ∧ HfOk h' ∧ h'.np = 14 ∧ h'.pbit = 4 := by
  obtain ⟨tab', ht1, ht2⟩ := makeCrcTable_ok
  rw [ht1] at htab
  cases htab
  have hset : setNp 12 h = { h with np := 14, pbit := 4 } := by
    rw [← hnp, ← hpb]; rfl
  exact decodeSt1_blocks ht2 hset (by omega) (by omega) (by omega) hB hw ⟨by decide, ⟨16, rfl⟩, fun h => by simp at h⟩ (T := T) hb hbits hok

/-- **C48 is false for lh7**: from *every* conforming stream of a text of 64 KiB or more only the end of the text is decoded. -/
theorem C48_lh7_truncated (oth : Oth) (tab : Arr) (htab : makeCrcTable = .ok tab) {ts : List (Nat × Nat)} {bs S : List Bool}
    (hB : Blocks (classes 7).1 (classes 7).2 ts bs) (hlen : 65536 ≤ (expand 253 ts).length) {B T : List Nat} (hb : IsBytes B)
    (hbits : bytesBits B = bs ++ S) {h : Hf} (hok : HfOk h) :
    ∃ o, decodeLzhuf oth tab 7 h (expand 253 ts).length B.length (B ++ T) = .ok o ∧
      o.out = (expand 253 ts).drop ((expand 253 ts).length / 65536 * 65536) ∧ o.out ≠ expand 253 ts := by
  obtain ⟨tab', ht1, ht2⟩ := makeCrcTable_ok
  rw [ht1] at htab
  cases htab
  obtain ⟨n, h', w, e1, e2⟩ := decodeSt1_blocks16 ht2 hB (T := T) hb hbits hok
  refine ⟨_, e2, e1, ?_⟩
  intro he
  simp only [] at he
  rw [e1] at he
  have hl := congrArg List.length he
  rw [List.length_drop] at hl
  omega

/-- Bits of a block whose three codes consist of one symbol each: `n` copies of 256 bytes from distance 1. -/
def copies (n : Nat) : List Bool := bits 16 n ++ (bits 5 0 ++ bits 5 0) ++ (bits 9 0 ++ bits 9 509) ++ (bits 5 0 ++ bits 5 0)

theorem flatMap_nil_of {α β : Type} (f : α → List β) (l : List α) (h : ∀ x ∈ l, f x = []) : l.flatMap f = [] := by
  rw [List.flatMap_eq_nil_iff]; exact h

theorem copies_blocks (n : Nat) (h0 : 0 < n) (hn : n < 65536) : Blocks 17 5 (List.replicate n (509, 0)) (copies n) := by
  have h : IsBlock 17 5 (List.replicate n (509, 0)) (copies n) := by
    refine ⟨.one 0, _, .one 509, _, .one 0, _, .one (by omega), .one (by omega), .one (by omega), ?_, by rw [List.length_replicate]; exact hn, ?_, ?_⟩
    · intro e
      have := congrArg List.length e
      rw [List.length_replicate, List.length_nil] at this
      omega
    · intro u hu
      rw [(List.mem_replicate.1 hu).2]
      exact ⟨⟨rfl, by decide⟩, fun _ => ⟨rfl, by decide⟩⟩
    · rw [flatMap_nil_of _ _ (fun x hx => by rw [(List.mem_replicate.1 hx).2]; rfl), List.append_nil, List.length_replicate]
      rfl
  have := Blocks.cons h .nil
  rwa [List.append_nil, List.append_nil] at this

theorem copies_length (n : Nat) : ∀ out, (expandFrom 253 out (List.replicate n (509, 0))).length = out.length + 256 * n := by
  induction n with
  | zero => intro out; simp [expandFrom]
  | succ n ih =>
    intro out
    rw [List.replicate_succ]
    have e : ∀ t ts, expandFrom 253 out (t :: ts) = expandFrom 253 (expandTok 253 out t) ts := fun t ts => by
      unfold expandFrom; rw [List.foldl_cons]
    rw [e, ih, expandTok_length, if_neg (by omega)]
    omega

/-- … and such a stream exists: seven bytes. -/
theorem C48_false_lh7 (oth : Oth) (tab : Arr) (htab : makeCrcTable = .ok tab) :
    ∃ ts bs S B, Blocks (classes 7).1 (classes 7).2 ts bs ∧ IsBytes B ∧ bytesBits B = bs ++ S ∧ S.length < 8 ∧
      ∀ h, HfOk h → ∃ o, decodeLzhuf oth tab 7 h (expand 253 ts).length B.length B = .ok o ∧ o.out ≠ expand 253 ts := by
  have hex : ∀ n, n = 257 → ∃ ts bs S B, Blocks (classes 7).1 (classes 7).2 ts bs ∧ IsBytes B ∧ bytesBits B = bs ++ S ∧ S.length < 8 ∧
      65536 ≤ (expand 253 ts).length := by
    intro n hn
    have hc : bytesBits [1, 1, 0, 0, 31, 208, 0] = copies 257 ++ [false, false] := by decide +kernel
    refine ⟨List.replicate n (509, 0), copies n, [false, false], [1, 1, 0, 0, 31, 208, 0], copies_blocks n (by omega) (by omega),
      by unfold IsBytes; decide, by rw [hn]; exact hc, by decide, ?_⟩
    unfold expand
    rw [copies_length, List.length_nil]
    omega
  obtain ⟨ts, bs, S, B, h1, h2, h3, h4, h5⟩ := hex 257 rfl
  refine ⟨ts, bs, S, B, h1, h2, h3, h4, fun h hok => ?_⟩
  obtain ⟨o, e1, _, e3⟩ := C48_lh7_truncated oth tab htab (T := []) h1 h5 h2 h3 hok
  rw [List.append_nil] at e1
  exact ⟨o, e1, e3⟩

/-- Bits of a block with the single letter `c`. -/
def oneLetter (pbit c : Nat) : List Bool := bits 16 1 ++ (bits 5 0 ++ bits 5 0) ++ (bits 9 0 ++ bits 9 c) ++ (bits pbit 0 ++ bits pbit 0)

theorem oneLetter_block (np pbit c : Nat) (hnp : 1 ≤ np) (hc : c < 256) : IsBlock np pbit [(c, 0)] (oneLetter pbit c) := by
  refine ⟨.one 0, _, .one c, _, .one 0, _, .one (by omega), .one (by omega), .one (by omega), by simp, by simp, ?_, ?_⟩
  · intro u hu
    rw [List.mem_singleton.1 hu]
    exact ⟨⟨rfl, by omega⟩, fun h => absurd h (by simp only []; omega)⟩
  · unfold oneLetter
    simp [tokenBits, BCode.word, hc]

/-- Two such blocks for lh4: `a`, then `b`. -/
def lh4Stream : List Nat := [0, 1, 0, 0, 6, 16, 0, 0, 16, 0, 0, 98, 0]

theorem lh4Stream_out : ((do
    let tab ← makeCrcTable
    let o ← decodeSt1 12 tab Hf.fresh 2 13 lh4Stream
    .ok (decide (o.out = [97, 98]))) : G Bool) ≠ .ok true := by decide +kernel

/-- **C48 is false for lh4** in a fresh process: nothing has set the number of classes, the count of distance lengths is read with five bits
instead of four. -/
theorem C48_false_lh4 (oth : Oth) (tab : Arr) (htab : makeCrcTable = .ok tab) :
    ∃ ts bs S, Blocks (classes 4).1 (classes 4).2 ts bs ∧ IsBytes lh4Stream ∧ bytesBits lh4Stream = bs ++ S ∧ S.length < 8 ∧
      ∀ o, decodeLzhuf oth tab 4 Hf.fresh (expand 253 ts).length lh4Stream.length lh4Stream = .ok o → o.out ≠ expand 253 ts := by
  refine ⟨[(97, 0)] ++ ([(98, 0)] ++ []), oneLetter 4 97 ++ (oneLetter 4 98 ++ []), _,
    .cons (oneLetter_block _ _ _ (by decide) (by decide)) (.cons (oneLetter_block _ _ _ (by decide) (by decide)) .nil),
    by unfold IsBytes; decide, (by decide +kernel : bytesBits lh4Stream = _ ++ []), by simp, ?_⟩
  intro o ho he
  have h := lh4Stream_out
  rw [htab, ok_bind] at h
  apply h
  have : decodeSt1 12 tab Hf.fresh 2 13 lh4Stream = .ok o := ho
  rw [this, ok_bind, he]
  rfl

/-- A block with proper codes: `A` 1 bit, `B` and the copy of 3 bytes 2 bits, two distance classes of 1 bit. -/
def smpLen (x : Nat) : Nat := if x = 65 then 1 else if x = 66 ∨ x = 256 then 2 else 0

/-- Its code of lengths. -/
def smpT (x : Nat) : Nat := if x = 2 then 1 else if x = 3 ∨ x = 4 then 2 else 0

def smpP (x : Nat) : Nat := if x < 2 then 1 else 0

theorem smpLen_complete : Complete smpLen 510 := ⟨by decide +kernel, by decide +kernel⟩

theorem smpItems : [LenItem.long 45, .len 1, .len 2, .long 169, .len 2].flatMap LenItem.lens = (List.range 257).map smpLen := by decide +kernel

/-- The hypotheses of `C48_partial` hold for a block with three proper codes, letters and copies. -/
example : ∃ bs, Blocks (classes 5).1 (classes 5).2 [(65, 0), (66, 0), (256, 1), (65, 0), (256, 0)] bs := by
  have h : ∃ bs, IsBlock 14 4 [(65, 0), (66, 0), (256, 1), (65, 0), (256, 0)] bs := by
    refine ⟨_, .lens smpT, _, .lens smpLen, _, .lens smpP, _,
      .skip (n := 5) (z := 0) ⟨by decide +kernel, by decide +kernel⟩ (by decide) (by decide +kernel) rfl (by decide) (by decide) (by decide),
      .lens (n := 257) (items := [.long 45, .len 1, .len 2, .long 169, .len 2]) smpLen_complete (by decide) (by decide +kernel) ?_ smpItems,
      .plain (n := 2) ⟨by decide +kernel, by decide +kernel⟩ (by decide) (by decide +kernel) (by simp), by simp, by simp, ?_, rfl⟩
    · intro it hit
      simp only [List.mem_cons, List.not_mem_nil, or_false] at hit
      rcases hit with rfl | rfl | rfl | rfl | rfl <;> exact ⟨by simp [LenItem.Ok], ⟨by decide, by decide⟩⟩
    · intro u hu
      simp only [List.mem_cons, List.not_mem_nil, or_false] at hu
      rcases hu with rfl | rfl | rfl | rfl | rfl <;> exact ⟨⟨by decide, by decide⟩, fun _ => ⟨by decide +kernel, by decide +kernel⟩⟩
  obtain ⟨bs, h⟩ := h
  have := Blocks.cons h .nil
  rw [List.append_nil, List.append_nil] at this
  exact ⟨bs, this⟩

end Lha
