import Verif.Proof.Pm2
/-!
# C73: pm2 streams decode as specified
-/

namespace Lha

open Spec

/-- **C73 (partial).** Full statement: for every sequence `ts` of pm2 tokens with any headers (`Pm2 (fun _ => True) PmState.start [] ts bs`), every packed body
`B` that holds the leading bit, their bits and any following bits `S`, any bytes `T` after it in the archive, and whatever was decoded before (`g`, `h`): the
decoder writes exactly the text of the tokens, reports its checksum, never reads beyond the body, and has read all of it if only the padding of the last
byte follows the tokens.
Proved here for streams in which every code word consists of ones only (such as the empty word of a code with one symbol).  Missing: code words with a zero,
which the decoder takes for something else (`C29_false`, `C73_false`).  Everything else is covered: the headers and when they come, the list of recent bytes,
the classes of letters, lengths and distances. -/
theorem C73_partial (tab : Arr) (htab : makeCrcTable = .ok tab) {ts : List (Nat × Nat)} {bs S : List Bool} {b : Bool}
    (P : Pm2 OnlyOnes PmState.start [] ts bs) {B T : List Nat} (hb : IsBytes B) (hbits : bytesBits B = b :: bs ++ S) {g : PmG} (hg : PmOk g) {h : Hf} :
    ∃ n g', n ≤ B.length ∧ decodePm2 tab g h (expand 254 ts).length B.length (B ++ T) =
      .ok (⟨expand 254 ts, crc16 0 (expand 254 ts), n, (B ++ T).drop n, h⟩, g') ∧ (S.length < 8 → n = B.length) ∧ PmOk g' := by
  obtain ⟨tab', ht1, ht2⟩ := makeCrcTable_ok
  rw [ht1] at htab
  cases htab
  exact decodePm2_ok ht2 P hb hbits hg

/-- Letters: a code for the classes 0 and 1, of which 1 is used: the ninth of the recent bytes, twice. -/
theorem pmLetters : ∃ bs, Pm2 OnlyOnes PmState.start [] [(40, 0), (39, 0)] bs := by
  have hd : PmTree1 _ 2 1 (.node (.leaf 0) (.leaf 1)) := .table (k := 1) (x := fun _ => 1) (by decide) (by decide) (by decide) (by decide) (by decide) (by decide)
    (by decide +kernel)
  have h1 : PmHeaders 0 PmState.start _ ⟨0x400, 2, 1, some _, none⟩ := .more (Nat.le_refl 0) (.first rfl hd (.absent (fun h => absurd h.1 (by decide)))) (.none (by decide))
  have hw : (PT.node (.leaf 0) (.leaf 1)).Word [true] 1 := fun rest => rfl
  have ho : OnlyOnes [true] := by unfold OnlyOnes; decide
  have t1 : PmTok OnlyOnes ⟨0x400, 2, 1, some (.node (.leaf 0) (.leaf 1)), none⟩ [] _ (40, 0) := .letter (g := 1) (n := 3) (first := 8) (x := 0) rfl hw ho rfl (by decide)
  have t2 : PmTok OnlyOnes ⟨0x400, 2, 1, some (.node (.leaf 0) (.leaf 1)), none⟩ [40] ([true] ++ bits 3 0) (39, 0) := by
    have := PmTok.letter (Q := OnlyOnes) (s := ⟨0x400, 2, 1, some (.node (.leaf 0) (.leaf 1)), none⟩) (out := [40]) (g := 1) (n := 3) (first := 8) (x := 0) rfl hw ho rfl
      (by decide)
    rw [show (mtfUses mtfStart [40]).getD (8 + 0) 0 = 39 by decide +kernel] at this
    exact this
  exact ⟨_, .tok h1 t1 (.tok (.none (by decide)) t2 .done)⟩

/-- Copies: the class 16 (ten bytes) alone, and distances of class 3 alone. -/
theorem pmCopies : ∃ bs, Pm2 OnlyOnes PmState.start [] [(264, 300), (264, 256)] bs := by
  have hd : PmTree1 _ 17 0 (.leaf 16) := .single (b := 17) (by decide) (by decide)
  have hd2 : PmTree2 5 17 0 none _ (some (.leaf 3)) := .single (i := 3) (d := 1) ⟨by decide, by decide⟩ (by decide) (by decide) (by decide)
  have h1 : PmHeaders 0 PmState.start _ ⟨0x400, 17, 0, some (.leaf 16), some (.leaf 3)⟩ := .more (Nat.le_refl 0) (.first rfl hd hd2) (.none (by decide))
  have tk : ∀ out x, x < 256 → ∃ b, PmTok OnlyOnes ⟨0x400, 17, 0, some (.leaf 16), some (.leaf 3)⟩ out b (264, 256 + x) := fun out x hx =>
    ⟨_, .copy (g := 16) (w := []) (T := .leaf 16) (len := 10) rfl (fun rest => rfl) (fun b hb => by cases hb) (.short (by decide) (by decide))
      (.far (T := .leaf 3) (w := []) (t := 3) (by decide) (by decide) rfl (fun rest => rfl) (fun b hb => by cases hb) (by decide) (by decide) (by omega))⟩
  obtain ⟨_, t1⟩ := tk [] 44 (by decide)
  obtain ⟨_, t2⟩ := tk (expandTok 254 [] (264, 300)) 0 (by decide)
  exact ⟨_, .tok h1 t1 (.tok (.none (by rw [expandTok_length]; decide)) t2 .done)⟩

/-- Non-vacuity of `C73_partial`: the streams above, in a fresh process. -/
example : (∃ bs, Pm2 OnlyOnes PmState.start [] [(40, 0), (39, 0)] bs) ∧ (∃ bs, Pm2 OnlyOnes PmState.start [] [(264, 300), (264, 256)] bs) ∧ PmOk PmG.fresh :=
  ⟨pmLetters, pmCopies, rfl, rfl, rfl, rfl⟩

/-- **C73 is false for words with a zero.** A body with the text of one space: a code of two classes with words `0` and `1`, the word `0`, the first of the recent
bytes.  The decoder panics. -/
theorem C73_false (tab : Arr) (ht : makeCrcTable = .ok tab) : ∃ bs S, Pm2 (fun _ => True) PmState.start [] [(32, 0)] bs ∧
    bytesBits [0b00001000, 0b10011100, 0b00000000] = false :: bs ++ S ∧ S.length < 8 ∧ expand 254 [(32, 0)] = [32] ∧
    decodePm2 tab PmG.fresh Hf.fresh 1 3 [0b00001000, 0b10011100, 0b00000000] = .error .panic := by
  have hd : PmTree1 _ 2 1 (.node (.leaf 0) (.leaf 1)) := .table (k := 1) (x := fun _ => 1) (by decide) (by decide) (by decide) (by decide) (by decide) (by decide)
    (by decide +kernel)
  have h1 : PmHeaders 0 PmState.start _ ⟨0x400, 2, 1, some _, none⟩ := .more (Nat.le_refl 0) (.first rfl hd (.absent (fun h => absurd h.1 (by decide)))) (.none (by decide))
  have hw : (PT.node (.leaf 0) (.leaf 1)).Word [false] 0 := fun rest => rfl
  have t1 : PmTok (fun _ => True) ⟨0x400, 2, 1, some (.node (.leaf 0) (.leaf 1)), none⟩ [] _ (32, 0) := .letter (g := 0) (n := 3) (first := 0) (x := 0) rfl hw trivial rfl (by decide)
  exact ⟨_, List.replicate 6 false, .tok h1 t1 .done, by decide +kernel, by decide, rfl, C29_stream_false tab ht⟩

end Lha
