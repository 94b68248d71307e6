import Verif.Proof.Lh2
import Verif.Spec.Inside
import Verif.Props.C41
import Verif.Props.C69
/-!
# C89: lh2 streams decode as specified
-/

namespace Lha

open Spec

/-- Without symbol 285 the decoder's reading is the right one. -/
theorem Spec.Lh2.reads {n : Nat} {t : Tree} {P : Dist} {ts : List (Nat × Nat)} {B : List Bool} (L : Lh2 n t P ts B) (h : ∀ u ∈ ts, u.1 < 285) :
    Lh2E n t P ts B := by
  induction L with
  | nil => exact .nil
  | letter hc C St _ ih => exact .letter hc C St (ih (fun u hu => h u (List.mem_cons_of_mem _ hu)))
  | @copy n t t' P P1 P2 c p ts bs ds B h256 hc hp C St G Cp Ct _ ih =>
    have hlt : c < 285 := h _ List.mem_cons_self
    rw [show min c 285 = c by omega] at C St
    rw [if_neg (by omega), List.append_nil]
    exact .copy h256 (by omega) hp C St G Cp Ct (ih (fun u hu => h u (List.mem_cons_of_mem _ hu)))

/-- **C89 (partial).** Full statement: for every list of lh2 tokens, every packed body `B` that holds their bits and any following
bits `S`, and any bytes `T` after it in the archive, whatever was decoded before (`y`, `h`): the decoder writes exactly the text of the
tokens, reports its checksum, never reads beyond the body, and has read all of it if only the padding of the last byte follows the tokens.
Proved here for copies of less than 32 bytes (for longer ones the statement is false: `C89_false`), for texts of at most 1856 bytes (up to
there the distance tree has at most 29 symbols, the numbers that the code keeps for its blocks cannot run out, and no tree is rebuilt), and in
a process that has decoded no lh2 stream before (`NoDist`; an earlier one leaves block numbers behind the last node, and such a number can be lost
when it comes up again, which is not considered here). -/
theorem C89_partial (tab : Arr) (htab : makeCrcTable = .ok tab) {t : Tree} (St : Start 286 t) {ts : List (Nat × Nat)} {bs S : List Bool}
    (L : Lh2 0 t Dist.start ts bs) (h285 : ∀ u ∈ ts, u.1 < 285) (hlen : (expand 253 ts).length ≤ 1856) {B T : List Nat} (hb : IsBytes B)
    (hbits : bytesBits B = bs ++ S) {y : Dyn} (hy : DynSz y) (h0 : y.NoDist) (h : Hf) :
    ∃ n y', n ≤ B.length ∧ decodeShuf 2 tab y h (expand 253 ts).length B.length (B ++ T) =
      .ok (⟨expand 253 ts, crc16 0 (expand 253 ts), n, (B ++ T).drop n, h⟩, y') ∧ (S.length < 8 → n = B.length) ∧ DynSz y' := by
  obtain ⟨tab', ht1, ht2⟩ := makeCrcTable_ok
  rw [ht1] at htab
  cases htab
  exact decodeLh2_ok ht2 St (L.reads h285) (by rw [← sum_tokLen]; exact hlen) hb hbits hy h0 h

theorem dist_exists {P : Dist} (h : P.total < 32768) (c : Nat) : ∃ P', P.Count c P' ∧ P'.m = P.m ∧ P'.total = P.total + 1 := by
  refine ⟨⟨P.m, P.total + 1, if P.m = 1 then P.t else P.t.count P.m c⟩, ?_, rfl, rfl⟩
  unfold Dist.Count
  rw [if_neg (show ¬ P.total = 32768 by omega)]

theorem grown_exists {n : Nat} (hn : n ≤ 1856) (d : Nat) : ∀ P : Dist, 30 ≤ P.m + d → P.total + d < 32768 → ∃ P', Grown n P P' ∧ n ≤ 64 * P'.m := by
  induction d with
  | zero => intro P h1 _; exact ⟨P, .stop (by omega), by omega⟩
  | succ d ih =>
    intro P h1 h2
    by_cases g : 64 * P.m < n
    · obtain ⟨P1, C, e1, e2⟩ := dist_exists (P := ⟨P.m + 1, P.total, P.t.sprout P.m⟩) (by simp only []; omega) P.m
      simp only [] at e1 e2
      obtain ⟨P2, G, l⟩ := ih P1 (by omega) (by omega)
      exact ⟨P2, .grow g (by omega) C G, l⟩
    · exact ⟨P, .stop (by omega), by omega⟩

/-- Tokens of the format: letters, and copies of 3 to 256 bytes that lie in the text. -/
def lh2Tok (u : Nat × Nat) : Prop := (u.1 < 256 ∧ u.2 = 0) ∨ (256 ≤ u.1 ∧ u.1 < 510)

instance (u : Nat × Nat) : Decidable (lh2Tok u) := by unfold lh2Tok; infer_instance

theorem lh2_exists (ts : List (Nat × Nat)) : ∀ (n k : Nat) (t : Tree) (P : Dist) (s : Dyn), k ≤ n → n + (ts.map tokLen).sum ≤ 1856 → Both k t P s → (∀ u ∈ ts, lh2Tok u) →
    Inside n ts → ∃ B, Lh2 n t P ts B := by
  induction ts with
  | nil => intro n k t P s _ _ _ _ _; exact ⟨[], .nil⟩
  | cons u ts ih =>
    intro n k t P s hk hl B hc hin
    have hu := hc u List.mem_cons_self
    obtain ⟨c, p⟩ := u
    obtain ⟨w, D⟩ := B.ok
    obtain ⟨hi1, hi2⟩ := hin
    rw [List.map_cons, List.sum_cons] at hl
    rcases hu with ⟨h1, h2⟩ | ⟨h1, h2⟩
    · simp only [] at h1 h2
      subst h2
      have tl : tokLen (c, 0) = 1 := by unfold tokLen; rw [if_pos h1]
      rw [tl] at hl hi2
      obtain ⟨t', S⟩ := step_exists (by omega) (by omega) D B.agree c
      obtain ⟨s', e, B'⟩ := B.step (by omega) (by omega) S
      obtain ⟨X, L⟩ := ih (n + 1) (k + 1) t' P s' (by omega) (by omega) B' (fun c hc' => hc c (List.mem_cons_of_mem _ hc')) hi2
      exact ⟨_, .letter h1 (code_exists (by omega) (by omega) D.inv B.agree (by omega)) S L⟩
    · simp only [] at h1 h2 hi1
      have hp := hi1 h1
      have tl : tokLen (c, p) = c - 253 := by unfold tokLen; rw [if_neg (show ¬ c < 256 by omega)]
      rw [tl] at hl hi2
      obtain ⟨t', S⟩ := step_exists (by omega) (by omega) D B.agree (min c 285)
      obtain ⟨s', e, B'⟩ := B.step (by omega) (by omega) S
      have le := B.le
      have m2 := B.m2
      obtain ⟨P1, G, l⟩ := grown_exists (n := n) (by omega) 29 P (by have := B.m1; omega) (by omega)
      obtain ⟨s1, _, B1⟩ := growP_ok G (by omega) (by omega : k + 1 < 30000) (n + 1) s' B' (by omega) (by omega)
      have m2' := B1.m2
      have le' := B1.le
      obtain ⟨P2, Ct, _, _⟩ := dist_exists (P := P1) (by omega) (p / 64)
      have q : p / 64 < P1.m := by omega
      obtain ⟨s2, _, B2⟩ := B1.dist (by omega) q Ct
      have Cd : ∃ ds, Code P1.t 0 ds (p / 64) := by
        rcases B1.p with ⟨q1, X⟩ | ⟨q1, v, X⟩
        · rw [X.tree, show p / 64 = 0 by omega]
          exact ⟨[], .leaf rfl⟩
        · obtain ⟨wv, Dv⟩ := X.ok
          exact ⟨_, code_exists q1 (by omega) Dv.inv X.agree q⟩
      obtain ⟨ds, Cd⟩ := Cd
      obtain ⟨X, L⟩ := ih (n + (c - 253)) (k + 2) t' P2 s2 (by omega) (by omega) B2 (fun c hc' => hc c (List.mem_cons_of_mem _ hc')) hi2
      exact ⟨_, .copy h1 (by omega) (by omega) (code_exists (by omega) (by omega) D.inv B.agree (by omega)) S G Cd Ct L⟩

theorem Dyn.fresh_noDist : Dyn.fresh.NoDist := fun _ _ => Arr.get_mk' _ _ _

/-- The start tree exists, and every list of tokens within the bounds of `C89_partial` has a bit string. -/
theorem C89_total (ts : List (Nat × Nat)) (hts : ∀ u ∈ ts, lh2Tok u) (hin : Inside 0 ts) (hlen : (expand 253 ts).length ≤ 1856) :
    ∃ t B, Start 286 t ∧ Lh2 0 t Dist.start ts B := by
  obtain ⟨t, St⟩ := start_exists (n := 286) (by omega) (by omega)
  obtain ⟨s, s1, s2, s3, s4⟩ := decodeStartDyn_ok (s := ⟨Hf.fresh, Dyn.fresh, ⟨[] ++ [], 0, 0, 0, 0⟩⟩) (t := t) (by constructor <;> rfl) Dyn.fresh_noDist St rfl rfl
    (fun x hx => absurd hx List.not_mem_nil)
  obtain ⟨B, L⟩ := lh2_exists ts 0 0 t Dist.start s.y (Nat.le_refl _) (by rw [sum_tokLen] at hlen; omega) s3 hts hin
  exact ⟨t, B, St, L⟩

/-- The hypotheses of `C89_partial` hold for a list with letters and copies, whose distances come to two symbols. -/
example : ∃ t B, Start 286 t ∧ Lh2 0 t Dist.start [(65, 0), (66, 0), (65, 0), (256, 1), (284, 4), (284, 10), (260, 66), (256, 0)] B ∧
    (∀ u ∈ [(65, 0), (66, 0), (65, 0), (256, 1), (284, 4), (284, 10), (260, 66), (256, 0)], u.1 < 285) ∧
    (expand 253 [(65, 0), (66, 0), (65, 0), (256, 1), (284, 4), (284, 10), (260, 66), (256, 0)]).length = 78 ∧ Dyn.fresh.NoDist := by
  obtain ⟨t, B, h1, h2⟩ := C89_total [(65, 0), (66, 0), (65, 0), (256, 1), (284, 4), (284, 10), (260, 66), (256, 0)] (by decide) (by simp [Inside, tokLen]) (by decide +kernel)
  exact ⟨t, B, h1, h2, by decide, by decide +kernel, Dyn.fresh_noDist⟩

/-- **C89 is false.** The tokens `A`, `B`, copy of 32 bytes from distance 2 stand for `ABABAB…`.  From their bits the decoder makes `AB` and
32 more `B`: it does not know that eight more bits belong to the length, and takes them for the distance. -/
theorem C89_false (tab : Arr) (htab : makeCrcTable = .ok tab) : ∃ t bs S B, Start 286 t ∧ Lh2 0 t Dist.start [(65, 0), (66, 0), (285, 1)] bs ∧ IsBytes B ∧
    bytesBits B = bs ++ S ∧ ∀ y h, DynSz y → y.NoDist → ∃ o, decodeShuf 2 tab y h 34 B.length B = .ok o ∧ o.1.out = [65] ++ List.replicate 33 66 ∧
      o.1.out ≠ expand 253 [(65, 0), (66, 0), (285, 1)] := by
  obtain ⟨tab', ht1, ht2⟩ := makeCrcTable_ok
  rw [ht1] at htab
  cases htab
  obtain ⟨t, bs, St, L⟩ := C89_total [(65, 0), (66, 0), (285, 1)] (by decide) (by simp [Inside, tokLen]) (by decide +kernel)
  obtain ⟨B, b1, b2, b3⟩ := bytes_of_bits bs.length (bs ++ List.replicate (7 * bs.length) false) (by simp; omega)
  refine ⟨t, bs, _, B, St, L, b1, b2, ?_⟩
  intro y h hy h0
  have LE : ∃ cs R, bs = cs ++ R ∧ Lh2E 0 t Dist.start [(65, 0), (66, 0), (285, 0)] cs := by
    obtain _ | ⟨_, c1, s1, L1⟩ | ⟨hx, _⟩ := L
    rotate_left
    · omega
    obtain _ | ⟨_, c2, s2, L2⟩ | ⟨hx, _⟩ := L1
    rotate_left
    · omega
    obtain _ | _ | ⟨_, _, _, c3, s3, G, Cp, Ct, L3⟩ := L2
    cases L3
    cases G with
    | grow g => simp only [Dist.start] at g; omega
    | stop g =>
      cases Cp with
      | one g _ => cases g
      | zero g _ => cases g
      | leaf _ =>
        refine ⟨_, [false, false] ++ bits 6 1, ?_, .letter (by omega) c1 s1 (.letter (by omega) c2 s2 (.copy (c := 285) (p := 0) (by omega) (by omega) (by omega) c3 s3 (.stop g) (.leaf rfl) Ct .nil))⟩
        rw [if_pos (by omega)]
        simp only [List.append_assoc]
        rfl
  obtain ⟨cs, R, rfl, LE⟩ := LE
  rw [List.append_assoc] at b2
  obtain ⟨n, y', e1, e2, e3⟩ := decodeLh2_ok ht2 St LE (by decide) (T := []) b1 b2 hy h0 h
  rw [List.append_nil] at e2
  have x1 : expand 253 [(65, 0), (66, 0), (285, 0)] = [65] ++ List.replicate 33 66 := by decide +kernel
  have x2 : [65] ++ List.replicate 33 66 ≠ expand 253 [(65, 0), (66, 0), (285, 1)] := by decide +kernel
  have x3 : (expand 253 [(65, 0), (66, 0), (285, 0)]).length = 34 := by rw [x1]; rfl
  rw [x3] at e2
  exact ⟨_, e2, x1, by rw [x1]; exact x2⟩

end Lha
