import Verif.Spec.Bits
import Verif.Spec.Lz
import Verif.Spec.Mtf
import Verif.Spec.PmTree
/-!
# The pm2 format

A packed body is one bit without meaning, followed by tokens; at certain positions of the text, headers that change the codes precede the next token.
There are two codes: one for 29 classes of letters and lengths, one for 8 classes of distances.  A letter is given by its place in the list of recently used
bytes.
-/

namespace Lha.Spec

/-- `w` is the code word of `v` in the tree. -/
def PT.Word (T : PT) (w : List Bool) (v : Nat) : Prop := ∀ rest, T.read (w ++ rest) = some (v, rest)

/-- The header of the first code: number `b` of classes and smallest word length `m`; for `m = 0` there is only the class `b - 1`; otherwise the width `k` of the
fields that follow, one for every class: 0 if it has no word, and else its length less `m - 1`. -/
inductive PmTree1 : List Bool → Nat → Nat → PT → Prop
  | single {b : Nat} : 1 ≤ b → b < 32 → PmTree1 (bits 5 b ++ bits 3 0) b 0 (.leaf (b - 1))
  | table {b m k : Nat} {x : Nat → Nat} {T : PT} : b < 32 → 1 ≤ m → m < 8 → k < 8 → (∀ i, i < b → x i < 2 ^ k) →
      (∀ i, i < b → x i ≠ 0 → x i - 1 + m ≤ 31) → T.leaves 0 = codeOrder (fun i => if x i = 0 then 0 else x i - 1 + m) b m 31 →
      PmTree1 (bits 5 b ++ bits 3 m ++ bits 3 k ++ (List.range b).flatMap fun i => bits k (x i)) b m T

/-- Whether the second code is needed, given the header of the first one: not if there are only letters and copies of length 2, and not if there are only
copies of length 256. -/
def PmNeeds2 (b m : Nat) : Prop := 10 ≤ b ∧ ¬ (b = 29 ∧ m = 0)

/-- The header of the second code, for `n` classes of distances: word lengths in three bits each.  A single length stands for a single class, without a word. -/
inductive PmTree2 (n b m : Nat) (old : Option PT) : List Bool → Option PT → Prop
  | absent : ¬ PmNeeds2 b m → PmTree2 n b m old [] old
  | empty : PmNeeds2 b m → PmTree2 n b m old ((List.range n).flatMap fun _ => bits 3 0) none
  | single {i d : Nat} : PmNeeds2 b m → i < n → 1 ≤ d → d < 8 →
      PmTree2 n b m old ((List.range n).flatMap fun j => bits 3 (if j = i then d else 0)) (some (.leaf i))
  | table {len : Nat → Nat} {T : PT} : PmNeeds2 b m → (∀ j, j < n → len j < 8) → T.leaves 0 = codeOrder len n 1 7 →
      PmTree2 n b m old ((List.range n).flatMap fun j => bits 3 (len j)) (some T)

/-- Text position of the next header, `b` and `m` of the first code, and the codes. -/
structure PmState where
  next : Nat
  b : Nat
  m : Nat
  t1 : Option PT
  t2 : Option PT

/-- At the beginning there are no codes. -/
def PmState.start : PmState := ⟨0, 0, 0, none, none⟩

/-- The headers: at the beginning, at 1024, 2048 and 4096 bytes and from there every 4096 bytes. -/
inductive PmHeader : PmState → List Bool → PmState → Prop
  | first {s : PmState} {b1 b2 : List Bool} {b m : Nat} {T : PT} {o : Option PT} : s.next = 0 → PmTree1 b1 b m T →
      PmTree2 5 b m s.t2 b2 o → PmHeader s (b1 ++ b2) ⟨0x400, b, m, some T, o⟩
  | second {s : PmState} {b2 : List Bool} {o : Option PT} : s.next = 0x400 → PmTree2 6 s.b s.m s.t2 b2 o →
      PmHeader s b2 ⟨0x800, s.b, s.m, s.t1, o⟩
  | third {s : PmState} {b2 : List Bool} {o : Option PT} : s.next = 0x800 → PmTree2 7 s.b s.m s.t2 b2 o →
      PmHeader s b2 ⟨0x1000, s.b, s.m, s.t1, o⟩
  | fourthNew {s : PmState} {b1 b2 : List Bool} {b m : Nat} {T : PT} {o : Option PT} : s.next = 0x1000 → PmTree1 b1 b m T →
      PmTree2 8 b m s.t2 b2 o → PmHeader s (true :: (b1 ++ b2)) ⟨0x2000, b, m, some T, o⟩
  | fourthOld {s : PmState} {b2 : List Bool} {o : Option PT} : s.next = 0x1000 → PmTree2 8 s.b s.m s.t2 b2 o →
      PmHeader s (false :: b2) ⟨0x2000, s.b, s.m, s.t1, o⟩
  | laterNew {s : PmState} {b1 b2 : List Bool} {b m : Nat} {T : PT} {o : Option PT} : 0x2000 ≤ s.next → PmTree1 b1 b m T →
      PmTree2 8 b m s.t2 b2 o → PmHeader s (true :: (b1 ++ b2)) ⟨s.next + 0x1000, b, m, some T, o⟩
  | laterOld {s : PmState} : 0x2000 ≤ s.next → PmHeader s [false] ⟨s.next + 0x1000, s.b, s.m, s.t1, s.t2⟩

/-- The headers due when `n` bytes of text are there. -/
inductive PmHeaders (n : Nat) : PmState → List Bool → PmState → Prop
  | none {s : PmState} : n < s.next → PmHeaders n s [] s
  | more {s s1 s2 : PmState} {b1 b2 : List Bool} : s.next ≤ n → PmHeader s b1 s1 → PmHeaders n s1 b2 s2 → PmHeaders n s (b1 ++ b2) s2

/-- Letter classes: number of further bits, first place. -/
def pmLetter : List (Nat × Nat) := [(3, 0), (3, 8), (4, 16), (5, 32), (5, 64), (5, 96), (6, 128), (6, 192)]

/-- Classes of long copies, from 23 on: number of further bits, first length. -/
def pmLong : List (Nat × Nat) := [(3, 17), (3, 25), (5, 33), (6, 65), (7, 129), (0, 256)]

/-- The length that belongs to a class and its further bits. -/
inductive PmLen : Nat → List Bool → Nat → Prop
  | short {g : Nat} : 8 ≤ g → g < 23 → PmLen g [] (g - 6)
  | long {j n first x : Nat} : pmLong[j]? = some (n, first) → x < 2 ^ n → PmLen (23 + j) (bits n x) (first + x)

/-- The distance (less 1) of a copy of class `g`.  `Q`: the words considered. -/
inductive PmDist (Q : List Bool → Prop) (s : PmState) (g : Nat) : List Bool → Nat → Prop
  | two {p : Nat} : g = 8 → p < 64 → PmDist Q s g (bits 6 p) p
  | near {T : PT} {w : List Bool} {p : Nat} : 9 ≤ g → g < 28 → s.t2 = some T → T.Word w 0 → Q w → p < 64 → PmDist Q s g (w ++ bits 6 p) p
  | far {T : PT} {w : List Bool} {t x : Nat} : 9 ≤ g → g < 28 → s.t2 = some T → T.Word w t → Q w → 1 ≤ t → t < 8 → x < 2 ^ (5 + t) →
      PmDist Q s g (w ++ bits (5 + t) x) (2 ^ (5 + t) + x)
  | zero : g = 28 → PmDist Q s g [] 0

/-- The tokens possible after the text `out`. -/
inductive PmTok (Q : List Bool → Prop) (s : PmState) (out : List Nat) : List Bool → Nat × Nat → Prop
  | letter {T : PT} {w : List Bool} {g n first x : Nat} : s.t1 = some T → T.Word w g → Q w → pmLetter[g]? = some (n, first) → x < 2 ^ n →
      PmTok Q s out (w ++ bits n x) ((mtfUses mtfStart out).getD (first + x) 0, 0)
  | copy {T : PT} {w bl bd : List Bool} {g len p : Nat} : s.t1 = some T → T.Word w g → Q w → PmLen g bl len → PmDist Q s g bd p →
      PmTok Q s out (w ++ bl ++ bd) (254 + len, p)

/-- The rest of a packed body after the text `out`: tokens and their bits. -/
inductive Pm2 (Q : List Bool → Prop) : PmState → List Nat → List (Nat × Nat) → List Bool → Prop
  | done {s : PmState} {out : List Nat} : Pm2 Q s out [] []
  | tok {s s1 : PmState} {out : List Nat} {b0 b1 B : List Bool} {t : Nat × Nat} {ts : List (Nat × Nat)} : PmHeaders out.length s b0 s1 →
      PmTok Q s1 out b1 t → Pm2 Q s1 (expandTok 254 out t) ts B → Pm2 Q s out (t :: ts) (b0 ++ b1 ++ B)

/-- The words that the decoder understands: those of ones only. -/
def OnlyOnes (w : List Bool) : Prop := ∀ b ∈ w, b = true

end Lha.Spec
