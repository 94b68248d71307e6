import Verif.Props.C83
import Verif.Props.C85
import Verif.Spec.Named
/-!
# C83: archives of stored files
-/

namespace Lha

open Spec

theorem Spec.Unpacked.drop {a : List Nat} (h : Unpacked a) (k : Nat) : Unpacked (a.drop k) := by
  intro j
  rw [List.drop_drop]
  exact h _

theorem got_unpacked {f : Fmt} {tab : Arr} {h g : Hdr} {inp rest : List Nat} (hm : h.method.length = 5) (hu : Unpacked inp)
    (hx : getHeader f tab h inp = .ok (.got g rest)) : g.method.length = 5 ∧ g.method ∉ packing ∧ Unpacked rest := by
  obtain ⟨_, k, hk, rfl⟩ := getHeader_got hx
  obtain ⟨e1, e2⟩ := getHeader_method hm hx
  refine ⟨e1, ?_, hu.drop k⟩
  rcases e2 with e | e
  · rw [e]; exact hu 2
  · rw [e]; decide

/-- A method that does not pack: the decoders do not matter, and what is left is an end of what there was. -/
theorem stored_same (broken : Bool) (oth oth' : Oth) (tab : Arr) (hf : Hf) {h : Hdr} (hm : h.method ∉ packing) (inp : List Nat) :
    extractOneStreamB broken oth tab hf h inp = extractOneStream oth' tab hf h inp ∧
      ∀ d, extractOneStream oth' tab hf h inp = .ok (.ok d) → ∃ k, d.rest = inp.drop k := by
  unfold extractOneStreamB extractOneStream
  cases hi : methods.findIdx? (· = h.method) with
  | none => exact ⟨rfl, fun d hd => by cases hd⟩
  | some m =>
    simp only []
    by_cases hc : fileType h.mode = 0o100000 ∧ m ≠ 11
    · rw [if_pos hc, if_pos hc]
      have hmx : m = 0 ∨ m = 10 ∨ m = 12 := by
        rw [List.findIdx?_eq_some_iff_getElem] at hi
        obtain ⟨hl, e, _⟩ := hi
        have e : methods.getD m [] = h.method := by rw [List.getD_eq_getElem _ _ hl]; simpa using e
        have hl : m < 14 := hl
        have h11 := hc.2
        refine Classical.byContradiction fun hn => hm ?_
        rw [← e]
        rcases (by omega : m = 1 ∨ m = 2 ∨ m = 3 ∨ m = 4 ∨ m = 5 ∨ m = 6 ∨ m = 7 ∨ m = 8 ∨ m = 9 ∨ m = 13) with
          rfl | rfl | rfl | rfl | rfl | rfl | rfl | rfl | rfl | rfl <;> decide
      unfold decodeLzhufB decodeLzhuf
      rw [if_pos hmx, if_pos hmx]
      refine ⟨rfl, fun d hd => ?_⟩
      obtain ⟨o, n, k, e⟩ := copyfile_ends h.originalSize inp
      rw [e, ok_bind] at hd
      simp only [ok_bind] at hd
      split at hd
      · cases hd
      · cases hd; exact ⟨k, rfl⟩
    · rw [if_neg hc, if_neg hc]
      exact ⟨rfl, fun d hd => by cases hd⟩

theorem loop_stored (broken : Bool) (f : Fmt) (oth oth' : Oth) (tab : Arr) (want : List Nat) (n : Nat) : ∀ (h : Hdr) (hf : Hf) (data inp : List Nat), h.method.length = 5 →
    Unpacked inp → extractBytesLoopB broken f oth tab want n h hf data inp = extractBytesLoop f oth' tab want n h hf data inp := by
  induction n with
  | zero => intro h hf data inp _ _; rfl
  | succ n ih =>
    intro h hf data inp hm hu
    unfold extractBytesLoopB extractBytesLoop
    cases hr : getHeader f tab h inp with
    | error e => rw [error_bind, error_bind]
    | ok r =>
      rw [ok_bind, ok_bind]
      cases r with
      | eof => rfl
      | bad => rfl
      | fin => rfl
      | got g rest =>
        obtain ⟨c1, c2, c3⟩ := got_unpacked hm hu hr
        obtain ⟨e1, e2⟩ := stored_same broken oth oth' tab hf c2 rest
        simp only []
        by_cases hw : g.name = want
        · rw [if_pos hw, if_pos hw, e1]
          cases hx : extractOneStream oth' tab hf g rest with
          | error e => rw [error_bind, error_bind]
          | ok x =>
            rw [ok_bind, ok_bind]
            cases x with
            | error y => rfl
            | ok d =>
              obtain ⟨k, hk⟩ := e2 d hx
              have hu' : Unpacked d.rest := by rw [hk]; exact c3.drop k
              simp only []
              by_cases hz : d.readSize ≠ g.packedSize
              · rw [if_pos hz, if_pos hz]
                cases hs : skipTo g.packedSize d.rest with
                | none => rfl
                | some rest' =>
                  obtain ⟨j, hj⟩ := skipTo_drop hs
                  exact ih _ _ _ _ c1 (by rw [hj]; exact hu'.drop j)
              · rw [if_neg hz, if_neg hz]
                exact ih _ _ _ _ c1 hu'
        · rw [if_neg hw, if_neg hw]
          obtain ⟨j, hj⟩ := skipTo_getD g.packedSize rest
          exact ih _ _ _ _ c1 (by rw [hj]; exact c3.drop j)

/-- **C83 (partial), stored files.**  Full statement: with the option undamaged archives are read as without, and damaged ones at least as well.  Proved here: for all bytes
whatever, valid archive or not, among which the name of no packing method is found, `DecompresBytes` with the option does what it does without: same contents, same error.  The
decoders of the packing methods do not matter. -/
theorem C83_stored_partial (broken : Bool) (f : Fmt) (oth oth' : Oth) (tab : Arr) (want : List Nat) (hf : Hf) (a : List Nat) (hu : Unpacked a) :
    decompresBytesB broken f oth tab want hf a = decompresBytes f oth' tab false want hf (some a) :=
  loop_stored broken f oth oth' tab want _ newHdr hf [] a newHdr_method hu

theorem unpacked_of_bounded {a : List Nat} (h : ∀ k < a.length, (a.drop k).take 5 ∉ packing) : Unpacked a := by
  intro k
  by_cases hk : k < a.length
  · exact h k hk
  · rw [List.drop_eq_nil_of_le (by omega)]
    decide

/-- Case covered: the archive of C76 with one stored, empty file, and bytes behind it that are no header; the error is reported with the option, too. -/
example :
    Unpacked ([36, 124, 45, 108, 104, 48, 45, 0, 0, 0, 0, 0, 0, 0, 0, 0, 0, 0, 0, 32, 0, 2, 97, 98, 0, 0, 85, 0, 99, 0, 0, 0, 128, 1, 0, 0, 0, 0] ++ [7, 7, 7]) ∧
    (decompresBytesB true ⟨false, false⟩ (fun _ _ _ _ _ => panic) (Arr.mk' 0 0) [97, 98, 0] Hf.fresh
      ([36, 124, 45, 108, 104, 48, 45, 0, 0, 0, 0, 0, 0, 0, 0, 0, 0, 0, 0, 32, 0, 2, 97, 98, 0, 0, 85, 0, 99, 0, 0, 0, 128, 1, 0, 0, 0, 0] ++ [7, 7, 7])).map (·.err) = .ok true :=
  ⟨unpacked_of_bounded (by decide +kernel), by decide +kernel⟩

end Lha
