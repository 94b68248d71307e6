import Verif.Proof.Lh3
import Verif.Proof.TextSize
import Verif.Proof.RelTree
/-!
# C71: lh3 streams decode as specified
-/

namespace Lha

open Spec

/-- **C71 (partial).** Full statement: for every sequence `ts` of lh3 tokens in blocks with any codes (`Lh3 (fun _ _ _ => True) ts bs`), every
packed body `B` that holds their bits and any following bits `S`, any bytes `T` after it in the archive, and whatever was decoded before
(`y`, `h`): the decoder writes exactly the text of the tokens, reports its checksum, never reads beyond the body, and has read all of it if only
the padding of the last byte follows the tokens.
Proved here for blocks whose letters have words of at most twelve bits and whose distances are coded with classes below 17 and words of at most
eight bits or with a single class (or do not occur), provided that no lh1 or lh2 entry was decoded before (`y.n1 = 286`) and that the previous entry ended with its
block.  Each of these restrictions is necessary: `C71_false_far`, `C71_false_long`, `C71_false_after_lh1`, `C71_after_lh2`, `C71_false_cut`. -/
theorem C71_partial (tab : Arr) (htab : makeCrcTable = .ok tab) {ts : List (Nat × Nat)} {bs S : List Bool}
    (L : Lh3 Lh3Easy ts bs) {B T : List Nat} (hb : IsBytes B) (hbits : bytesBits B = bs ++ S) {y : Dyn} (hy : y.n1 = 286) {h : Hf} (hok : HfOk h)
    (hbl : h.blocksize = 0) :
    ∃ n h', n ≤ B.length ∧ decodeShuf 3 tab y h (expand 253 ts).length B.length (B ++ T) =
      .ok (⟨expand 253 ts, crc16 0 (expand 253 ts), n, (B ++ T).drop n, h'⟩, { y with nMax := 286 }) ∧ (S.length < 8 → n = B.length) ∧ HfOk h' ∧
      h'.blocksize = 0 := by
  obtain ⟨tab', ht1, ht2⟩ := makeCrcTable_ok
  rw [ht1] at htab
  cases htab
  exact decodeLh3_ok ht2 L hb hbits hy hok hbl

/-- Three symbols with words `10`, `11` and `0`. -/
def lh3Abc (x : Nat) : Nat := if x = 65 ∨ x = 66 then 2 else if x = 270 then 1 else 0

theorem lh3Abc_complete : Complete lh3Abc 286 := ⟨by decide +kernel, by decide +kernel⟩

/-- The hypotheses of `C71_partial` hold for two blocks: `A`, `B`, a copy of 17 bytes from distance 2 in the first, a copy of 255 bytes (the longest is 256) from distance
8192 in the second; and in a fresh process. -/
example : (∃ bs, Lh3 Lh3Easy [(65, 0), (66, 0), (270, 1), (508, 8191)] bs) ∧ Dyn.fresh.n1 = 286 ∧ HfOk Hf.fresh ∧ Hf.fresh.blocksize = 0 := by
  refine ⟨⟨_, Lh3.block (cc := .lens lh3Abc) (dc := .one 0) (ts := [(65, 0), (66, 0), (270, 1)]) ⟨(by decide +kernel : ∀ x, x < 286 → lh3Abc x ≤ 12), Or.inl trivial⟩
    (by decide) (by decide) (.lens lh3Abc_complete) (.one (by decide)) ?_
    (Lh3.block (cc := .one 285) (dc := .one 127) (ts := [(508, 8191)]) ⟨trivial, Or.inl trivial⟩ (by decide) (by decide) (.one (by decide)) (.one (by decide)) ?_ .nil)⟩,
    rfl, by constructor <;> rfl, rfl⟩
  · simp [Lh3Tok, BCode.Has, lh3Abc]
  · simp [Lh3Tok, BCode.Has]

/-- What the decoder writes for an lh3 entry in a fresh process. -/
def lh3Out (original : Nat) (B : List Nat) : Option (List Nat) :=
  match (do let tab ← makeCrcTable; decodeShuf 3 tab Dyn.fresh Hf.fresh original B.length B : G (DecOut × Dyn)) with
  | .ok o => some o.1.out
  | .error _ => none

/-- What the decoder writes for an lh3 entry after another entry (method `m`, `o1` bytes, packed body `B1`). -/
def lh3After (m o1 : Nat) (B1 : List Nat) (original : Nat) (B : List Nat) : Option (List Nat) :=
  match (do
    let tab ← makeCrcTable
    let (o, y) ← decodeShuf m tab Dyn.fresh Hf.fresh o1 B1.length B1
    decodeShuf 3 tab y o.h original B.length B : G (DecOut × Dyn)) with
  | .ok o => some o.1.out
  | .error _ => none

/-- `A` and copies of three bytes. -/
def lh3Two (x : Nat) : Nat := if x = 65 ∨ x = 256 then 1 else 0

theorem lh3Two_complete : Complete lh3Two 286 := ⟨by decide +kernel, by decide +kernel⟩

/-- A block with `A` and a copy from distance 65, coded with the fixed code. -/
def lh3Far : List Nat := [0, 2] ++ List.replicate 8 0 ++ [64] ++ List.replicate 23 0 ++ [8, 0, 0, 0, 0, 160, 0]

theorem lh3Far_bits : bytesBits lh3Far = bits 16 2 ++
    (List.range 286).flatMap (fun x => if lh3Two x = 0 then [false] else true :: bits 4 (lh3Two x - 1)) ++ [false] ++
    [(65, 0), (256, 64)].flatMap (lh3Bits (.lens lh3Two) (.lens lh3Fixed)) ++ [] ++ List.replicate 5 false := by decide +kernel

theorem lh3Far_out : lh3Out 4 lh3Far = some [65, 65, 65, 65] := by decide +kernel

/-- **C71 is false for the fixed distance code.** The body holds the letter `A` and a copy of three bytes from distance 65, where there are the
spaces that precede every text.  The decoder copies the `A` instead.  (Its table is made from 17 of the 128 lengths and rejected.) -/
theorem C71_false_far : ∃ bs, Lh3 (fun _ _ _ => True) [(65, 0), (256, 64)] bs ∧ IsBytes lh3Far ∧ (∃ S, S.length < 8 ∧ bytesBits lh3Far = bs ++ S) ∧
    expand 253 [(65, 0), (256, 64)] = [65, 32, 32, 32] ∧ lh3Out 4 lh3Far = some [65, 65, 65, 65] := by
  refine ⟨_, Lh3.block (cc := .lens lh3Two) (dc := .lens lh3Fixed) (ts := [(65, 0), (256, 64)]) trivial (by decide) (by decide)
    (.lens lh3Two_complete) .fixed ?_ .nil, ?_, ⟨List.replicate 5 false, by decide, lh3Far_bits⟩, by decide +kernel, lh3Far_out⟩
  · simp [Lh3Tok, BCode.Has, lh3Two, lh3Fixed]
  · unfold IsBytes; decide

/-- A code with words of 1 to 13 bits. -/
def lh3Deep (x : Nat) : Nat := if 65 ≤ x ∧ x < 78 then x - 64 else if x = 78 then 13 else 0

theorem lh3Deep_complete : Complete lh3Deep 286 := ⟨by decide +kernel, by decide +kernel⟩

/-- A block with the letter `N`, whose word is thirteen ones. -/
def lh3Long : List Nat := [0, 1, 0, 0, 0, 0, 0, 0, 0, 0, 66, 50, 157, 43, 107, 227, 58, 223, 56] ++ List.replicate 25 0 ++ [1, 255, 240]

theorem lh3Long_bits : bytesBits lh3Long = bits 16 1 ++
    (List.range 286).flatMap (fun x => if lh3Deep x = 0 then [false] else true :: bits 4 (lh3Deep x - 1)) ++ [false] ++
    [(78, 0)].flatMap (lh3Bits (.lens lh3Deep) (.lens lh3Fixed)) ++ [] ++ List.replicate 4 false := by decide +kernel

theorem lh3Long_out : lh3Out 1 lh3Long = some [77] := by decide +kernel

/-- **C71 is false for long words.** Words of more than twelve bits are always read as if their remaining bits were zeros: from the bits of the
letter `N` the decoder makes an `M`. -/
theorem C71_false_long : ∃ bs, Lh3 (fun _ _ _ => True) [(78, 0)] bs ∧ IsBytes lh3Long ∧ (∃ S, S.length < 8 ∧ bytesBits lh3Long = bs ++ S) ∧
    expand 253 [(78, 0)] = [78] ∧ lh3Out 1 lh3Long = some [77] := by
  refine ⟨_, Lh3.block (cc := .lens lh3Deep) (dc := .lens lh3Fixed) (ts := [(78, 0)]) trivial (by decide) (by decide)
    (.lens lh3Deep_complete) .fixed ?_ .nil, ?_, ⟨List.replicate 4 false, by decide, lh3Long_bits⟩, by decide +kernel, lh3Long_out⟩
  · simp [Lh3Tok, BCode.Has, lh3Deep]
  · unfold IsBytes; decide

/-- `A` and `B`. -/
def lh3AB (x : Nat) : Nat := if x = 65 ∨ x = 66 then 1 else 0

theorem lh3AB_complete : Complete lh3AB 286 := ⟨by decide +kernel, by decide +kernel⟩

/-- A block with `A`, `B`, `A`. -/
def lh3Aba : List Nat := [0, 3] ++ List.replicate 8 0 ++ [66] ++ List.replicate 28 0 ++ [128]

theorem lh3Aba_bits : bytesBits lh3Aba = bits 16 3 ++
    (List.range 286).flatMap (fun x => if lh3AB x = 0 then [false] else true :: bits 4 (lh3AB x - 1)) ++ [false] ++
    [(65, 0), (66, 0), (65, 0)].flatMap (lh3Bits (.lens lh3AB) (.lens lh3Fixed)) ++ [] ++ List.replicate 6 false := by decide +kernel

theorem lh3Aba_easy : ∃ bs, Lh3 Lh3Easy [(65, 0), (66, 0), (65, 0)] bs ∧ IsBytes lh3Aba ∧ ∃ S, S.length < 8 ∧ bytesBits lh3Aba = bs ++ S := by
  refine ⟨_, Lh3.block (cc := .lens lh3AB) (dc := .lens lh3Fixed) (ts := [(65, 0), (66, 0), (65, 0)])
    ⟨(by decide +kernel : ∀ x, x < 286 → lh3AB x ≤ 12), Or.inr (by decide)⟩ (by decide) (by decide) (.lens lh3AB_complete) .fixed ?_ .nil, ?_,
    ⟨List.replicate 6 false, by decide, lh3Aba_bits⟩⟩
  · simp [Lh3Tok, BCode.Has, lh3AB]
  · unfold IsBytes; decide

theorem lh3Aba_lh1 : lh3After 1 0 [] 3 lh3Aba = some [0, 0, 0] := by decide +kernel

theorem lh3Aba_lh2 : lh3After 2 0 [] 3 lh3Aba = none := by decide +kernel

theorem lh3Aba_cut : lh3After 3 1 lh3Aba 3 lh3Aba = some [65, 65, 63] := by decide +kernel

theorem lh3Aba_out : lh3Out 3 lh3Aba = some [65, 66, 65] := by decide +kernel

/-- **C71 is false after an lh1 entry.** The body holds `ABA`, and that is what a fresh process makes of it.  After an lh1 entry, even an
empty one, it makes three zero bytes of it: the size of the alphabet is left over from the lh1 entry. -/
theorem C71_false_after_lh1 : (∃ bs, Lh3 Lh3Easy [(65, 0), (66, 0), (65, 0)] bs ∧ IsBytes lh3Aba ∧ ∃ S, S.length < 8 ∧ bytesBits lh3Aba = bs ++ S) ∧
    expand 253 [(65, 0), (66, 0), (65, 0)] = [65, 66, 65] ∧ lh3Out 3 lh3Aba = some [65, 66, 65] ∧ lh3After 1 0 [] 3 lh3Aba = some [0, 0, 0] :=
  ⟨lh3Aba_easy, by decide +kernel, lh3Aba_out, lh3Aba_lh1⟩

/-- **C71 is false after an lh3 entry that ends within a block** (its header gives a smaller size than its body holds): the next entry takes
its first bits for further tokens of that block. -/
theorem C71_false_cut : (∃ bs, Lh3 Lh3Easy [(65, 0), (66, 0), (65, 0)] bs ∧ IsBytes lh3Aba ∧ ∃ S, S.length < 8 ∧ bytesBits lh3Aba = bs ++ S) ∧
    expand 253 [(65, 0), (66, 0), (65, 0)] = [65, 66, 65] ∧ lh3After 3 1 lh3Aba 3 lh3Aba = some [65, 65, 63] :=
  ⟨lh3Aba_easy, by decide +kernel, lh3Aba_cut⟩

theorem rtcLoop_cells (k : Nat) : ∀ {i : Nat} {a : Arr} {r : BR} {x : Option Nat × Arr × BR}, rtcLoop k i a r = .ok x →
    x.2.1.size = a.size ∧ (x.1 = none → 0 < k → i + k ≤ a.size) := by
  induction k with
  | zero => intro i a r x h; cases h; exact ⟨rfl, fun _ h => by omega⟩
  | succ k ih =>
    intro i a r x h
    unfold rtcLoop at h
    obtain ⟨⟨b, r1⟩, _, h⟩ := bind_ok h
    simp only [] at h
    have key : ∀ v r2, (do
        let a ← wr a i v
        if i + 1 = 3 ∧ a.get 0 = 1 ∧ a.get 1 = 1 ∧ a.get 2 = 1 then do
          let (c, r) ← getbits 9 r2
          .ok (some c, a, r)
        else rtcLoop k (i + 1) a r2 : G (Option Nat × Arr × BR)) = .ok x →
        x.2.1.size = a.size ∧ (x.1 = none → 0 < k + 1 → i + (k + 1) ≤ a.size) := by
      intro v r2 h
      obtain ⟨a1, ha, h⟩ := bind_ok h
      obtain ⟨w1, rfl⟩ := wr_inv ha
      simp only [] at h
      split at h
      · obtain ⟨⟨c, r3⟩, _, h⟩ := bind_ok h
        cases h
        exact ⟨rfl, fun h => by cases h⟩
      · obtain ⟨i1, i2⟩ := ih h
        refine ⟨i1, fun hn _ => ?_⟩
        by_cases hk : 0 < k
        · have := i2 hn hk
          have hs : (a.upd i v).size = a.size := rfl
          omega
        · omega
    split at h
    · obtain ⟨⟨c, r2⟩, h1, h⟩ := bind_ok h
      obtain ⟨⟨c', r3⟩, _, h1⟩ := bind_ok h1
      cases h1
      exact key _ _ h
    · exact key _ _ h

theorem readTreeC_512 {s s' : Shuf} (hok : HfOk s.h) (hn : s.y.n1 = 512) : readTreeC s ≠ .ok s' := by
  intro h
  unfold readTreeC at h
  rw [hn] at h
  obtain ⟨⟨o, a, r⟩, h1, h⟩ := bind_ok h
  obtain ⟨z1, z2⟩ := rtcLoop_cells _ h1
  simp only [] at z1 z2
  rw [hok.cLen] at z1 z2
  cases o with
  | none =>
    have := z2 rfl (by omega)
    omega
  | some c =>
    simp only [] at h
    rw [fillRange_panic 0 512 (by omega) (by omega)] at h
    cases h

/-- **C71 after an lh2 entry** (`n1 = 512`): no lh3 entry of at least one byte can be decoded, whatever its body. -/
theorem C71_after_lh2 (tab : Arr) {y : Dyn} (hy : y.n1 = 512) {h : Hf} (hok : HfOk h) (hbl : h.blocksize = 0) (original packed : Nat) (inp : List Nat)
    (ho : 0 < original) (x : DecOut × Dyn) : decodeShuf 3 tab y h original packed inp ≠ .ok x := by
  intro hx
  unfold decodeShuf decodeStartSt0 at hx
  simp only [] at hx
  rw [if_neg (by omega), if_neg (by omega)] at hx
  obtain ⟨s0, h0, hx⟩ := bind_ok hx
  obtain ⟨r, _, h0⟩ := bind_ok h0
  cases h0
  obtain ⟨⟨a, b, c⟩, h1, _⟩ := bind_ok hx
  unfold decodeWin decodeFrom at h1
  obtain ⟨⟨_, _, _⟩, h1, _⟩ := bind_ok h1
  unfold decodeLoop at h1
  rw [if_pos ho] at h1
  obtain ⟨⟨_, _⟩, h1, _⟩ := bind_ok h1
  change decodeCSt0 _ = _ at h1
  unfold decodeCSt0 at h1
  rw [if_pos hbl] at h1
  obtain ⟨_, h1, _⟩ := bind_ok h1
  unfold st0Head at h1
  obtain ⟨⟨_, _⟩, _, h1⟩ := bind_ok h1
  obtain ⟨_, h1, _⟩ := bind_ok h1
  refine readTreeC_512 ?_ ?_ h1
  · exact ⟨hok.left, hok.right, hok.cFreq, hok.pFreq, hok.tFreq, hok.cLen, hok.ptLen, hok.cCode, hok.ptCode, hok.cTable, hok.ptTable⟩
  · exact hy

/-- The body of `C71_false_after_lh1` after an empty lh2 entry, which leaves `n1 = 512`. -/
example : lh3After 2 0 [] 3 lh3Aba = none := lh3Aba_lh2

example : HfOk Hf.fresh ∧ Hf.fresh.blocksize = 0 ∧ { Dyn.fresh with n1 := 512 }.n1 = 512 := ⟨by constructor <;> rfl, rfl, rfl⟩

end Lha
