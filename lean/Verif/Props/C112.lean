import Verif.Props.C110Any
import Verif.Spec.Quiet
/-!
# C112: a dump contains no control characters

With the option `DumpLzss` the contents of an entry are printed.  Whatever they are, and whatever the packed data, nothing but line feeds and printable
characters is sent to the terminal.
-/

namespace Lha

open Spec

theorem Spec.Quiet.append {a : List Nat} (ha : Quiet a) {b : List Nat} (hb : Quiet b) : Quiet (a ++ b) := by
  induction ha with
  | nil => exact hb
  | lf _ ih => exact .lf ih
  | ascii h1 h2 _ ih => exact .ascii h1 h2 ih
  | latin h1 h2 h3 _ ih => exact .latin h1 h2 h3 ih

theorem Spec.Quiet.all : ∀ {l : List Nat}, (∀ c ∈ l, 32 ≤ c ∧ c ≤ 126) → Quiet l
  | [], _ => .nil
  | c :: l, h => .ascii (h c (by simp)).1 (h c (by simp)).2 (Quiet.all fun x hx => h x (by simp [hx]))

theorem quiet_dec (n : Nat) : Quiet (dec n) := Quiet.all fun c hc => by
  have := (dec_digits n).2.1 c hc
  omega

theorem quiet_hex (n : Nat) (h : n < 16) : 32 ≤ hexDigit n ∧ hexDigit n ≤ 126 := by
  unfold hexDigit
  split <;> omega

theorem quiet_char {c : Nat} (h : c < 256) : Quiet (charText (if isPrint c then c else 63)) := by
  by_cases hp : isPrint c
  · rw [if_pos hp]
    simp only [isPrint, Bool.or_eq_true, Bool.and_eq_true, decide_eq_true_eq] at hp
    unfold charText
    rcases hp with ⟨h1, h2⟩ | ⟨h1, h2⟩
    · rw [if_pos (by omega)]
      exact .ascii h1 (by omega) .nil
    · rw [if_neg (by omega)]
      exact .latin h1 (by omega) h2 .nil
  · rw [if_neg hp]
    exact .ascii (by omega) (by omega) .nil

theorem quiet_byte (n : Nat) {c : Nat} (h : c < 256) : Quiet (dumpByte n c) := by
  unfold dumpByte
  have h1 := quiet_hex (c / 16) (by omega)
  have h2 := quiet_hex (c % 16) (by omega)
  exact (((quiet_dec n).append (.ascii (by omega) (by omega) (.ascii h1.1 h1.2 (.ascii h2.1 h2.2 (.ascii (by omega) (by omega) .nil))))).append
    (quiet_char h)).append (.ascii (by omega) (by omega) (.lf .nil))

theorem quiet_match (n len off : Nat) : Quiet (dumpMatch n len off) := by
  unfold dumpMatch
  have h1 : Quiet (decDiff n off) := by
    unfold decDiff
    split
    · exact quiet_dec _
    · exact .ascii (by omega) (by omega) (quiet_dec _)
  exact (((((quiet_dec n).append (.ascii (by omega) (by omega) (.ascii (by omega) (by omega) .nil))).append (quiet_dec len)).append
    (.ascii (by omega) (by omega) .nil)).append h1).append (.ascii (by omega) (by omega) (.lf .nil))

theorem quiet_toks (adj : Nat) : ∀ (ts : List (Nat × Nat)) (n : Nat), Quiet (dumpToks adj n ts)
  | [], _ => .nil
  | t :: ts, n => by
    rw [dumpToks]
    by_cases h : t.1 < 256
    · rw [if_pos h]; exact (quiet_byte n h).append (quiet_toks adj ts _)
    · rw [if_neg h]; exact (quiet_match n _ _).append (quiet_toks adj ts _)

theorem decodeFromL_quiet {σ : Type} {k : Source σ} {tab w : Arr} {dic adj orig : Nat} {d d' : σ} {out : List Nat} {crc : Nat} {t : List Nat}
    (h : decodeFromL k tab w dic adj orig d = .ok ((out, crc, d'), t)) : Quiet t := by
  unfold decodeFromL decodeFrom at h
  obtain ⟨⟨out1, crc1, d1, c1, t1⟩, h1, h⟩ := bind_ok h
  cases h
  obtain ⟨⟨n, s, d1, c1, t1⟩, h2, h1⟩ := bind_ok h1
  obtain ⟨ts, e1, _⟩ := decodeLoop_trace k tab dic adj orig (fun _ => True) (fun _ _ _ _ _ _ => trivial) _ _ _ _ _ _ _ _ _ _ _ [] rfl h2
  have et : t = [10] ++ dumpToks adj 0 ts := by
    by_cases hl : s.loc ≠ 0
    · simp only [if_pos hl] at h1
      obtain ⟨s1, hs, h1⟩ := bind_ok h1
      cases h1
      exact e1
    · simp only [if_neg hl, ok_bind] at h1
      cases h1
      exact e1
  rw [et]
  exact (Quiet.lf .nil).append (quiet_toks adj ts 0)

theorem decodeSt1L_quiet (dicbit : Nat) {tab : Arr} {h : Hf} {original packed : Nat} {inp : List Nat} {o : DecOut} {t : List Nat}
    (hd : decodeSt1L dicbit tab h original packed inp = .ok (o, t)) : Quiet t := by
  obtain ⟨_, _, _, h1⟩ := decodeSt1L_any dicbit hd
  exact decodeFromL_quiet h1

/-- **C112**: every method, any data, any state of the process. -/
theorem C112 (tab : Arr) (m : Nat) (h : Hf) (original packed : Nat) (inp : List Nat) (o : DecOut) (t : List Nat)
    (hd : decodeLzhufL tab m h original packed inp = .ok (o, t)) : Quiet t := by
  unfold decodeLzhufL at hd
  by_cases h0 : m = 0 ∨ m = 10 ∨ m = 12
  · rw [if_pos h0] at hd
    obtain ⟨x, _, hd⟩ := bind_ok hd
    cases hd
    exact (Quiet.all (l := str "no use slide") (by decide)).append (.lf .nil)
  rw [if_neg h0] at hd
  by_cases h4 : m = 4
  · rw [if_pos h4] at hd; exact decodeSt1L_quiet _ hd
  rw [if_neg h4] at hd
  by_cases h5 : m = 5
  · rw [if_pos h5] at hd; exact decodeSt1L_quiet _ hd
  rw [if_neg h5] at hd
  by_cases h6 : m = 6
  · rw [if_pos h6] at hd; exact decodeSt1L_quiet _ hd
  rw [if_neg h6] at hd
  by_cases h7 : m = 7
  · rw [if_pos h7] at hd; exact decodeSt1L_quiet _ hd
  rw [if_neg h7] at hd
  by_cases h1 : m = 1 ∨ m = 2 ∨ m = 3
  · rw [if_pos h1] at hd
    obtain ⟨⟨⟨o1, y⟩, t1⟩, h1, hd⟩ := bind_ok hd
    cases hd
    unfold decodeShufL at h1
    simp only [] at h1
    split at h1
    · obtain ⟨d, _, h1⟩ := bind_ok h1
      obtain ⟨⟨⟨out, crc, d'⟩, t'⟩, h2, h1⟩ := bind_ok h1
      cases h1
      exact decodeFromL_quiet h2
    · split at h1
      · obtain ⟨d, _, h1⟩ := bind_ok h1
        obtain ⟨⟨⟨out, crc, d'⟩, t'⟩, h2, h1⟩ := bind_ok h1
        cases h1
        exact decodeFromL_quiet h2
      · obtain ⟨d, _, h1⟩ := bind_ok h1
        obtain ⟨⟨⟨out, crc, d'⟩, t'⟩, h2, h1⟩ := bind_ok h1
        cases h1
        exact decodeFromL_quiet h2
  rw [if_neg h1] at hd
  by_cases h8 : m = 8
  · rw [if_pos h8] at hd
    unfold decodeLzsL at hd
    obtain ⟨d, _, hd⟩ := bind_ok hd
    obtain ⟨⟨⟨out, crc, d'⟩, t'⟩, h2, hd⟩ := bind_ok hd
    cases hd
    exact decodeFromL_quiet h2
  rw [if_neg h8] at hd
  by_cases h9 : m = 9
  · rw [if_pos h9] at hd
    unfold decodeLz5L at hd
    obtain ⟨d, _, hd⟩ := bind_ok hd
    obtain ⟨⟨⟨out, crc, d'⟩, t'⟩, h2, hd⟩ := bind_ok hd
    cases hd
    exact decodeFromL_quiet h2
  rw [if_neg h9] at hd
  by_cases h13 : m = 13
  · rw [if_pos h13] at hd
    obtain ⟨⟨⟨o1, y⟩, t1⟩, h1, hd⟩ := bind_ok hd
    cases hd
    unfold decodePm2L at h1
    obtain ⟨d, _, h1⟩ := bind_ok h1
    obtain ⟨⟨⟨out, crc, d'⟩, t'⟩, h2, h1⟩ := bind_ok h1
    cases h1
    exact decodeFromL_quiet h2
  rw [if_neg h13] at hd
  cases hd

/-- An lzs entry whose contents are an escape character: `?` is printed in its place. -/
example : (do let tab ← makeCrcTable
              let (o, t) ← decodeLzhufL tab 8 Hf.fresh 1 2 [141, 128]
              (.ok (o.out, t) : G _)) = .ok ([27], str "\n0 1b(?)\n") := by decide +kernel

/-- The definition is not empty talk: an escape character is not quiet. -/
example : ¬ Quiet [27] := by
  intro h
  generalize hx : [27] = l at h
  cases h with
  | nil => simp at hx
  | lf _ => simp at hx
  | ascii h1 h2 _ => simp at hx; omega
  | latin h1 h2 _ _ => simp at hx

/-- Nor are the control characters U+0080 to U+009F in UTF-8. -/
example (c : Nat) (h : c < 160) : ¬ Quiet [192 + c / 64, 128 + c % 64] := by
  intro h
  generalize hx : [192 + c / 64, 128 + c % 64] = l at h
  cases h with
  | nil => simp at hx
  | lf _ => simp at hx; omega
  | ascii h1 h2 _ => simp at hx; omega
  | latin h1 h2 _ _ => simp at hx; omega

end Lha
