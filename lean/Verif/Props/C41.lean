import Verif.Proof.Lh1
/-!
# C41: lh1 streams decode as specified
-/

namespace Lha

open Spec

/-- Without symbol 313 the decoder's reading is the right one. -/
theorem Spec.Lh1.reads {t t' : Tree} {ts : List (Nat × Nat)} {B : List Bool} (L : Lh1 t ts B t') (h : ∀ u ∈ ts, u.1 ≠ 313) : Lh1E t ts B t' := by
  induction L with
  | nil => exact .nil
  | letter hc C St _ ih => exact .letter hc C St (ih (fun u hu => h u (List.mem_cons_of_mem _ hu)))
  | @copy t t' t'' c p ts bs B h256 hc hp C St _ ih =>
    have hne : c ≠ 313 := h _ List.mem_cons_self
    have hm : min c 313 = c := by omega
    have := Lh1E.copy (c := c) (p := p) h256 (by omega) hp (by rw [hm]; exact C) (by rw [hm]; exact St) (ih (fun u hu => h u (List.mem_cons_of_mem _ hu)))
    rw [if_neg (by omega), List.append_nil] at this
    exact this

/-- **C41 (partial).** Full statement: for every list of lh1 tokens, every packed body `B` that holds their bits and any following
bits `S`, and any bytes `T` after it in the archive, whatever was decoded before (`y`, `h`): the decoder writes exactly the text of the
tokens, reports its checksum, never reads beyond the body, and has read all of it if only the padding of the last byte follows the tokens.
Proved here for token lists without symbol 313 (a copy of 60 bytes, the longest); for those the statement is false (`C41_false`). -/
theorem C41_partial (tab : Arr) (htab : makeCrcTable = .ok tab) {t t' : Tree} (St : Start 314 t) {ts : List (Nat × Nat)} {bs S : List Bool}
    (L : Lh1 t ts bs t') (h313 : ∀ u ∈ ts, u.1 ≠ 313) {B T : List Nat} (hb : IsBytes B) (hbits : bytesBits B = bs ++ S)
    {y : Dyn} (hy : DynSz y) {h : Hf} (hok : HfOk h) :
    ∃ n h' y', n ≤ B.length ∧ decodeShuf 1 tab y h (expand 253 ts).length B.length (B ++ T) =
      .ok (⟨expand 253 ts, crc16 0 (expand 253 ts), n, (B ++ T).drop n, h'⟩, y') ∧ (S.length < 8 → n = B.length) ∧ HfOk h' ∧ DynSz y' := by
  obtain ⟨tab', ht1, ht2⟩ := makeCrcTable_ok
  rw [ht1] at htab
  cases htab
  obtain ⟨n, h', y', e1, e2, e3, e4, e5, _⟩ := decodeLh1_ok ht2 St (L.reads h313) (T := T) hb hbits hy hok
  exact ⟨n, h', y', e1, e2, e3, e4, e5⟩

/-- Tokens of the format. -/
def lh1Tok (u : Nat × Nat) : Prop := (u.1 < 256 ∧ u.2 = 0) ∨ (256 ≤ u.1 ∧ u.1 < 314 ∧ u.2 < 4096)

instance (u : Nat × Nat) : Decidable (lh1Tok u) := by unfold lh1Tok; infer_instance

theorem lh1_exists (ts : List (Nat × Nat)) : ∀ (t : Tree) (s : Dyn) (w : Nat → Nat), DynOk 314 w s → Agree 314 t s → (∀ u ∈ ts, lh1Tok u) →
    ∃ B t', Lh1 t ts B t' := by
  induction ts with
  | nil => intro t s w _ _ _; exact ⟨[], t, .nil⟩
  | cons u ts ih =>
    intro t s w h A hc
    have hu := hc u List.mem_cons_self
    have hc1 : u.1 < 314 := by unfold lh1Tok at hu; omega
    obtain ⟨t', S⟩ := step_exists (by omega) (by omega) h A u.1
    obtain ⟨s', e, A', D', _⟩ := step_ok (by omega) (by omega) h hc1 A S
    obtain ⟨B, t'', CC⟩ := ih t' s' _ D' A' (fun c hc' => hc c (List.mem_cons_of_mem _ hc'))
    obtain ⟨c, p⟩ := u
    rcases hu with ⟨h1, h2⟩ | ⟨h1, h2, h3⟩
    · simp only [] at h1 h2
      subst h2
      exact ⟨_, t'', .letter h1 (code_exists (by omega) (by omega) h.inv A hc1) S CC⟩
    · exact ⟨_, t'', .copy h1 h2 h3 (code_exists (by omega) (by omega) h.inv A hc1) S CC⟩

/-- The start tree exists, and every list of tokens has a bit string, so the theorem speaks about all token lists. -/
theorem C41_total (ts : List (Nat × Nat)) (hts : ∀ u ∈ ts, lh1Tok u) : ∃ t B t', Start 314 t ∧ Lh1 t ts B t' := by
  obtain ⟨t, St⟩ := start_exists (n := 314) (by omega) (by omega)
  obtain ⟨s, s1, s2, s3, s4⟩ := start_ok (maxmatch := 60) (by omega) (by omega) (s := Dyn.fresh) (by constructor <;> rfl) St
  obtain ⟨B, t', L⟩ := lh1_exists ts t s _ s2 s4 hts
  exact ⟨t, B, t', St, L⟩

/-- The hypotheses of `C41_partial` hold for a list with letters and copies of 3, 10 and 59 bytes. -/
example : ∃ t B t', Start 314 t ∧ Lh1 t [(65, 0), (66, 0), (65, 0), (256, 1), (263, 4095), (312, 100)] B t' ∧
    (∀ u ∈ [(65, 0), (66, 0), (65, 0), (256, 1), (263, 4095), (312, 100)], u.1 ≠ 313) := by
  obtain ⟨t, B, t', h1, h2⟩ := C41_total [(65, 0), (66, 0), (65, 0), (256, 1), (263, 4095), (312, 100)] (by decide)
  exact ⟨t, B, t', h1, h2, by decide⟩

theorem bytes_of_bits (k : Nat) : ∀ L : List Bool, L.length = 8 * k → ∃ B, IsBytes B ∧ bytesBits B = L ∧ B.length = k := by
  induction k with
  | zero => intro L h; exact ⟨[], ⟨fun x hx => absurd hx List.not_mem_nil, (List.length_eq_zero_iff.1 (by omega)).symm, rfl⟩⟩
  | succ k ih =>
    intro L h
    obtain ⟨B, b1, b2, b3⟩ := ih (L.drop 8) (by rw [List.length_drop]; omega)
    refine ⟨pv 8 L :: B, ?_, ?_, by simp [b3]⟩
    · intro x hx
      rcases List.mem_cons.1 hx with rfl | hx
      · exact pv_lt 8 L
      · exact b1 x hx
    · unfold bytesBits at b2 ⊢
      rw [List.flatMap_cons, b2, bits_pv 8 L (by omega), List.take_append_drop]

/-- **C41 is false.** The tokens `A`, `B`, copy of 60 bytes from distance 2 stand for `ABABAB…`.  From their bits, padded with zeros, the
decoder makes `AB` and 60 spaces: it takes the first eight bits of the distance for a number to be added to the length. -/
theorem C41_false (tab : Arr) (htab : makeCrcTable = .ok tab) : ∃ t bs t' S B, Start 314 t ∧ Lh1 t [(65, 0), (66, 0), (313, 1)] bs t' ∧ IsBytes B ∧ bytesBits B = bs ++ S ∧
    ∀ y h, DynSz y → HfOk h → ∃ o, decodeShuf 1 tab y h 62 B.length B = .ok o ∧ o.1.out = [65, 66] ++ List.replicate 60 32 ∧
      o.1.out ≠ expand 253 [(65, 0), (66, 0), (313, 1)] := by
  obtain ⟨tab', ht1, ht2⟩ := makeCrcTable_ok
  rw [ht1] at htab
  cases htab
  obtain ⟨t, bs, t', St, L⟩ := C41_total [(65, 0), (66, 0), (313, 1)] (by decide)
  obtain ⟨B, b1, b2, b3⟩ := bytes_of_bits (bs.length + 10) (bs ++ List.replicate (7 * bs.length + 80) false) (by simp; omega)
  refine ⟨t, bs, t', _, B, St, L, b1, b2, ?_⟩
  intro y h hy hok
  have LE : Lh1E t [(65, 0), (66, 0), (313, 640)] (bs ++ List.replicate 10 false) t' := by
    obtain _ | ⟨_, c1, s1, L1⟩ | ⟨hx, _⟩ := L
    rotate_left
    · omega
    obtain _ | ⟨_, c2, s2, L2⟩ | ⟨hx, _⟩ := L1
    rotate_left
    · omega
    obtain _ | _ | ⟨_, _, _, c3, s3, L3⟩ := L2
    cases L3
    have e : distBits 1 ++ List.replicate 10 false = bits 8 0 ++ distBits 640 := by decide +kernel
    have := Lh1E.letter (by omega) c1 s1 (.letter (by omega) c2 s2 (.copy (c := 313) (p := 640) (by omega) (by omega) (by omega) c3 s3 .nil))
    rw [if_pos (by omega), Nat.sub_self, List.append_nil, List.append_assoc _ (bits 8 0), ← e] at this
    simpa [List.append_assoc] using this
  have hb : bytesBits B = (bs ++ List.replicate 10 false) ++ List.replicate (7 * bs.length + 70) false := by
    rw [b2, List.append_assoc, ← List.replicate_add, show 10 + (7 * bs.length + 70) = 7 * bs.length + 80 by omega]
  obtain ⟨n, h', y', e1, e2, e3⟩ := decodeLh1_ok ht2 St LE (T := []) b1 hb hy hok
  rw [List.append_nil] at e2
  have x1 : expand 253 [(65, 0), (66, 0), (313, 640)] = [65, 66] ++ List.replicate 60 32 := by decide +kernel
  have x2 : [65, 66] ++ List.replicate 60 32 ≠ expand 253 [(65, 0), (66, 0), (313, 1)] := by decide +kernel
  have x3 : (expand 253 [(65, 0), (66, 0), (313, 640)]).length = 62 := by rw [x1]; rfl
  rw [x3] at e2
  exact ⟨_, e2, x1, by rw [x1]; exact x2⟩

end Lha
