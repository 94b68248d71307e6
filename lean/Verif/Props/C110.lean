import Verif.Model.Dump
import Verif.Model.Methods
import Verif.Spec.Dump
import Verif.Props.C48
import Verif.Props.C39
import Verif.Props.C93
/-!
# C110: the dump of an entry describes its contents
-/

namespace Lha

open Spec

/-! ## The option changes nothing else -/

theorem decodeLoop_dumping {σ : Type} (k : Source σ) (tab : Arr) (dic adj orig : Nat) : ∀ (f n : Nat) (s : Win) (d : σ) (c : Nat) (t : List Nat),
    (decodeLoop (dumping k adj) tab dic adj orig f n s (d, c, t)).map (fun x => (x.1, x.2.1, x.2.2.1)) = decodeLoop k tab dic adj orig f n s d := by
  intro f
  induction f with
  | zero => intros; rfl
  | succ f ih =>
    intro n s d c t
    rw [decodeLoop, decodeLoop]
    by_cases hn : n < orig
    swap
    · rw [if_neg hn, if_neg hn]; rfl
    rw [if_pos hn, if_pos hn]
    show Except.map _ ((k.decC s.dtext s.loc n d >>= fun x => _) >>= _) = _
    cases h : k.decC s.dtext s.loc n d with
    | error e => rfl
    | ok x =>
      obtain ⟨c1, d1⟩ := x
      rw [ok_bind, ok_bind, ok_bind]
      simp only []
      by_cases hc : c1 < 256
      · simp only [if_pos hc]
        cases winPut tab dic c1 s with
        | error e => rfl
        | ok s1 => rw [ok_bind, ok_bind]; exact ih _ _ _ _ _
      · simp only [if_neg hc]
        show Except.map _ ((k.decP s.loc n d1 >>= fun x => _) >>= _) = _
        cases h : k.decP s.loc n d1 with
        | error e => rfl
        | ok x =>
          obtain ⟨p, d2⟩ := x
          rw [ok_bind, ok_bind, ok_bind]
          simp only []
          cases winCopy tab dic ((s.loc + 65536 - (p + 1)) % dic) (c1 - adj) 0 s with
          | error e => rfl
          | ok s1 => rw [ok_bind, ok_bind]; exact ih _ _ _ _ _

theorem decodeFromL_fst {σ : Type} (k : Source σ) (tab w : Arr) (dic adj orig : Nat) (d : σ) :
    (decodeFromL k tab w dic adj orig d).map Prod.fst = decodeFrom k tab w dic adj orig d := by
  unfold decodeFromL decodeFrom
  rw [← decodeLoop_dumping k tab dic adj orig _ _ _ d 0 [10]]
  cases decodeLoop (dumping k adj) tab dic adj orig (orig + 1) 0 ⟨w, 0, [], 0⟩ (d, 0, [10]) with
  | error e => rfl
  | ok x =>
    obtain ⟨n, s, d1, c, t⟩ := x
    by_cases h0 : s.loc ≠ 0
    · simp only [ok_bind, Except.map, if_pos h0]
      cases winFlush tab s.loc s with
      | error e => rfl
      | ok s1 => rfl
    · simp only [ok_bind, Except.map, if_neg h0]

theorem decodeWinL_fst {σ : Type} (k : Source σ) (tab : Arr) (dic adj orig : Nat) (d : σ) :
    (decodeWinL k tab dic adj orig d).map Prod.fst = decodeWin k tab dic adj orig d := decodeFromL_fst ..

theorem decodeSt1L_fst (dicbit : Nat) (tab : Arr) (h : Hf) (original packed : Nat) (inp : List Nat) :
    (decodeSt1L dicbit tab h original packed inp).map Prod.fst = decodeSt1 dicbit tab h original packed inp := by
  unfold decodeSt1L decodeSt1
  cases decodeStartSt1 dicbit ⟨h, ⟨inp, packed, 0, 0, 0⟩⟩ with
  | error e => rfl
  | ok d =>
    rw [ok_bind, ok_bind, ← decodeWinL_fst]
    cases decodeWinL st1Source tab (2 ^ dicbit) 253 original d with
    | error e => rfl
    | ok x => rfl

theorem decodeLzsL_fst (tab : Arr) (h : Hf) (original packed : Nat) (inp : List Nat) :
    (decodeLzsL tab h original packed inp).map Prod.fst = decodeLzs tab h original packed inp := by
  unfold decodeLzsL decodeLzs
  cases initGetbits ⟨inp, packed, 0, 0, 0⟩ with
  | error e => rfl
  | ok d =>
    rw [ok_bind, ok_bind, ← decodeWinL_fst]
    cases decodeWinL lzsSource tab 2048 254 original ⟨d, 0⟩ with
    | error e => rfl
    | ok x => rfl

theorem decodeShufL_fst (m : Nat) (tab : Arr) (y : Dyn) (h : Hf) (original packed : Nat) (inp : List Nat) :
    (decodeShufL m tab y h original packed inp).map Prod.fst = decodeShuf m tab y h original packed inp := by
  unfold decodeShufL decodeShuf
  simp only []
  split
  · cases decodeStartFix ⟨h, y, ⟨inp, packed, 0, 0, 0⟩⟩ with
    | error e => rfl
    | ok d =>
      rw [ok_bind, ok_bind, ← decodeWinL_fst]
      cases decodeWinL lh1Source tab 4096 253 original d <;> rfl
  · split
    · cases decodeStartDyn ⟨h, y, ⟨inp, packed, 0, 0, 0⟩⟩ with
      | error e => rfl
      | ok d =>
        rw [ok_bind, ok_bind, ← decodeWinL_fst]
        cases decodeWinL lh2Source tab 8192 253 original d <;> rfl
    · cases decodeStartSt0 ⟨h, y, ⟨inp, packed, 0, 0, 0⟩⟩ with
      | error e => rfl
      | ok d =>
        rw [ok_bind, ok_bind, ← decodeWinL_fst]
        cases decodeWinL lh3Source tab 8192 253 original d <;> rfl

theorem decodeLz5L_fst (tab : Arr) (h : Hf) (original packed : Nat) (inp : List Nat) :
    (decodeLz5L tab h original packed inp).map Prod.fst = decodeLz5 tab h original packed inp := by
  unfold decodeLz5L decodeLz5
  cases startLz5 (Arr.mk' 4096 32) with
  | error e => rfl
  | ok w =>
    rw [ok_bind, ok_bind, ← decodeFromL_fst]
    cases decodeFromL lz5Source tab w 4096 253 original ⟨inp, 0, 0, 0⟩ <;> rfl

theorem decodePm2L_fst (tab : Arr) (g : PmG) (h : Hf) (original packed : Nat) (inp : List Nat) :
    (decodePm2L tab g h original packed inp).map Prod.fst = decodePm2 tab g h original packed inp := by
  unfold decodePm2L decodePm2
  cases decodeStartPm2 g ⟨inp, packed, 0, 0, 0⟩ with
  | error e => rfl
  | ok d =>
    rw [ok_bind, ok_bind, ← decodeWinL_fst]
    cases decodeWinL pmSource tab 8192 254 original d <;> rfl

/-! ## The text printed -/

/-- The lines for a list of tokens, from position `n` on. -/
def dumpToks (adj : Nat) : Nat → List (Nat × Nat) → List Nat
  | _, [] => []
  | n, t :: ts => if t.1 < 256 then dumpByte n t.1 ++ dumpToks adj (n + 1) ts
      else dumpMatch n (t.1 - adj) (t.2 + 1) ++ dumpToks adj (n + (t.1 - adj)) ts

theorem Feeds.dump {σ : Type} {k : Source σ} {adj dic : Nat} : ∀ (ts : List (Nat × Nat)) (n : Nat) (d d' : σ) (c : Nat) (t : List Nat),
    Feeds k adj dic n d ts d' → ∃ c', Feeds (dumping k adj) adj dic n (d, c, t) ts (d', c', t ++ dumpToks adj n ts) := by
  intro ts
  induction ts with
  | nil =>
    intro n d d' c t h
    rw [Feeds] at h
    subst h
    exact ⟨c, by rw [Feeds, dumpToks, List.append_nil]⟩
  | cons u ts ih =>
    intro n d d' c t h
    obtain ⟨c1, p1⟩ := u
    obtain ⟨d1, d2, h1, h2, h3⟩ := h
    by_cases hc : c1 < 256
    · rw [if_pos hc] at h2 h3
      subst h2
      obtain ⟨c', f⟩ := ih (n + 1) d2 d' c1 (t ++ dumpByte n c1) h3
      refine ⟨c', (d2, c1, t ++ dumpByte n c1), (d2, c1, t ++ dumpByte n c1), ?_, by rw [if_pos hc], ?_⟩
      · intro w
        show (k.decC w (n % dic) n d >>= fun x => _) = _
        rw [h1 w, ok_bind]
        simp only [if_pos hc]
      · rw [if_pos hc, dumpToks, if_pos hc, ← List.append_assoc]
        exact f
    · rw [if_neg hc] at h2 h3
      obtain ⟨c', f⟩ := ih (n + (c1 - adj)) d2 d' c1 (t ++ dumpMatch n (c1 - adj) (p1 + 1)) h3
      refine ⟨c', (d1, c1, t), (d2, c1, t ++ dumpMatch n (c1 - adj) (p1 + 1)), ?_, ?_, ?_⟩
      · intro w
        show (k.decC w (n % dic) n d >>= fun x => _) = _
        rw [h1 w, ok_bind]
        simp only [if_neg hc]
      · rw [if_neg hc]
        show (k.decP (n % dic) n d1 >>= fun x => _) = _
        rw [h2, ok_bind]
      · rw [if_neg hc, dumpToks, if_neg hc, ← List.append_assoc]
        exact f

/-! ## Reading it -/

theorem splitLines_append (l r : List Nat) (h : 10 ∉ l) : splitLines (l ++ 10 :: r) = l :: splitLines r := by
  induction l with
  | nil => rw [List.nil_append, splitLines, if_pos rfl]
  | cons c l ih =>
    rw [List.cons_append, splitLines, if_neg (fun e => h (by rw [e]; simp)), ih (fun e => h (List.mem_cons_of_mem _ e))]

theorem splitLines_ne (l : List Nat) : splitLines l ≠ [] := by
  cases l with
  | nil => simp [splitLines]
  | cons c r =>
    unfold splitLines
    split
    · simp
    · split <;> simp

theorem dec_dig (n : Nat) : ∀ c ∈ dec n, isDig c = true := by
  intro c hc
  have := (dec_digits n).2.1 c hc
  simp [isDig, this.1, this.2]

theorem dec_no_lf (n : Nat) : 10 ∉ dec n := fun h => by
  have := (dec_digits n).2.1 10 h
  omega

theorem takeWhile_digits (l r : List Nat) (h : ∀ c ∈ l, isDig c = true) (hr : r.takeWhile isDig = []) : (l ++ r).takeWhile isDig = l := by
  rw [List.takeWhile_append_of_pos h, hr, List.append_nil]

theorem number_dec (n c : Nat) (r : List Nat) (hc : isDig c = false) : number (dec n ++ c :: r) = (n, c :: r) := by
  unfold number
  rw [takeWhile_digits _ _ (dec_dig n) (by simp [hc]), List.dropWhile_append_of_pos (dec_dig n)]
  have := (dec_digits n).2.2
  unfold decimal at this
  rw [this]
  simp [hc]

theorem hexVal_digit {n : Nat} (h : n < 16) : hexVal (hexDigit n) = n := by
  unfold hexVal hexDigit
  split <;> split <;> omega

theorem hexDigit_big {n : Nat} (h : n < 16) : 48 ≤ hexDigit n ∧ hexDigit n ≠ 60 := by
  unfold hexDigit
  split <;> omega

theorem readLine_byte (out : List Nat) (c : Nat) (hc : c < 256) (n : Nat) (hn : n = out.length) :
    ∃ l, dumpByte n c = l ++ [10] ∧ 10 ∉ l ∧ readLine out l = some (out ++ [c]) := by
  have hb := hexDigit_big (n := c / 16) (by omega)
  have hb2 := hexDigit_big (n := c % 16) (by omega)
  refine ⟨dec n ++ 32 :: hexDigit (c / 16) :: hexDigit (c % 16) :: 40 :: (charText (if isPrint c then c else 63) ++ [41]), ?_, ?_, ?_⟩
  · unfold dumpByte; simp
  · simp only [List.mem_append, List.mem_cons, not_or, List.not_mem_nil, not_false_eq_true, and_true]
    refine ⟨dec_no_lf n, by omega, by omega, by omega, by omega, ?_, by omega⟩
    unfold charText
    by_cases hp : isPrint c = true
    · rw [if_pos hp]
      have : c ≠ 10 := by rintro rfl; simp [isPrint] at hp
      split
      · simp; omega
      · simp; omega
    · rw [if_neg hp]; decide
  · unfold readLine
    rw [number_dec _ _ _ (by decide)]
    simp only []
    rw [if_neg (by omega)]
    split
    · rename_i heq
      simp only [List.cons.injEq] at heq
      exact absurd heq.2.1 hb.2
    · rename_i heq
      simp only [List.cons.injEq, true_and] at heq
      obtain ⟨rfl, rfl, rfl, rfl⟩ := heq
      rw [hexVal_digit (by omega), hexVal_digit (by omega)]
      congr 3
      omega
    · rename_i h1 h2
      exact absurd rfl (h2 _ _ _)

theorem byteAt_back (out : List Nat) (d : Nat) (h1 : 1 ≤ d) : byteAt out ((out.length : Int) - d) = back out d := by
  unfold byteAt back
  by_cases h : d ≤ out.length
  · rw [if_neg (by omega), if_pos h]
    congr 1
    omega
  · rw [if_pos (by omega), if_neg h]

theorem copyFrom_copyN (d : Nat) (h1 : 1 ≤ d) (n : Nat) : ∀ out : List Nat, copyFrom n ((out.length : Int) - d) out = copyN d n out := by
  induction n with
  | zero => intro out; rfl
  | succ n ih =>
    intro out
    rw [copyFrom, copyN, byteAt_back out d h1, ← ih]
    congr 1
    rw [List.length_append, List.length_singleton]
    push_cast
    omega

theorem dec_head (n : Nat) : ∃ c r, dec n = c :: r ∧ c ≠ 45 := by
  cases h : dec n with
  | nil => exact absurd h (dec_digits n).1
  | cons c r =>
    have := (dec_digits n).2.1 c (by rw [h]; simp)
    exact ⟨c, r, rfl, by omega⟩

theorem readLine_match (out : List Nat) (len off : Nat) (ho : 1 ≤ off) (n : Nat) (hn : n = out.length) :
    ∃ l, dumpMatch n len off = l ++ [10] ∧ 10 ∉ l ∧ readLine out l = some (copyN off len out) := by
  refine ⟨dec n ++ 32 :: 60 :: (dec len ++ 32 :: (decDiff n off ++ [62])), ?_, ?_, ?_⟩
  · unfold dumpMatch; simp
  · simp only [List.mem_append, List.mem_cons, not_or, List.not_mem_nil, not_false_eq_true, and_true]
    refine ⟨dec_no_lf n, by omega, by omega, dec_no_lf len, by omega, ?_, by omega⟩
    unfold decDiff
    split
    · exact dec_no_lf _
    · intro h
      rcases List.mem_cons.1 h with h | h
      · omega
      · exact dec_no_lf _ h
  · unfold readLine
    rw [number_dec _ _ _ (by decide)]
    simp only []
    rw [if_neg (by omega), number_dec _ _ _ (by decide)]
    simp only []
    unfold decDiff
    by_cases h : off ≤ n
    · rw [if_pos h]
      have e1 := number_dec (n - off) 62 [] (by decide)
      obtain ⟨c, r, hcr, hne⟩ := dec_head (n - off)
      rw [hcr] at e1 ⊢
      rw [List.cons_append] at e1 ⊢
      split
      · rename_i heq
        simp only [List.cons.injEq] at heq
        exact absurd heq.2.1 hne
      · rename_i heq
        simp only [List.cons.injEq, true_and] at heq
        subst heq
        rw [e1]
        simp only [if_true]
        rw [← copyFrom_copyN off ho]
        congr 2
        omega
      · rename_i h1 h2
        exact absurd rfl (h2 _)
    · rw [if_neg h]
      have e1 := number_dec (off - n) 62 [] (by decide)
      rw [List.cons_append]
      simp only []
      rw [e1]
      simp only [if_true]
      rw [← copyFrom_copyN off ho]
      congr 2
      omega

theorem readToks (adj : Nat) : ∀ (ts : List (Nat × Nat)) (out : List Nat),
    (splitLines (dumpToks adj out.length ts)).dropLast.foldlM readLine out = some (expandFrom adj out ts) := by
  intro ts
  induction ts with
  | nil => intro out; rfl
  | cons t ts ih =>
    intro out
    have key : ∀ (l r : List Nat) (out' : List Nat), 10 ∉ l → readLine out l = some out' →
        (splitLines r).dropLast.foldlM readLine out' = some (expandFrom adj out' ts) →
        (splitLines (l ++ [10] ++ r)).dropLast.foldlM readLine out = some (expandFrom adj out' ts) := by
      intro l r out' h1 h2 h3
      rw [List.append_assoc, List.singleton_append, splitLines_append _ _ h1, List.dropLast_cons_of_ne_nil (splitLines_ne r), List.foldlM_cons, h2]
      exact h3
    show _ = some (expandFrom adj (expandTok adj out t) ts)
    unfold expandTok dumpToks
    by_cases hc : t.1 < 256
    · rw [if_pos hc, if_pos hc]
      obtain ⟨l, l1, l2, l3⟩ := readLine_byte out t.1 hc out.length rfl
      rw [l1]
      refine key l _ _ l2 l3 ?_
      have := ih (out ++ [t.1])
      rwa [List.length_append, List.length_singleton] at this
    · rw [if_neg hc, if_neg hc]
      obtain ⟨l, l1, l2, l3⟩ := readLine_match out (t.1 - adj) (t.2 + 1) (by omega) out.length rfl
      rw [l1]
      refine key l _ _ l2 l3 ?_
      have := ih (copyN (t.2 + 1) (t.1 - adj) out)
      rwa [copyN_length] at this

theorem readDump_toks (adj : Nat) (ts : List (Nat × Nat)) : readDump ([10] ++ dumpToks adj 0 ts) = some (expand adj ts) := by
  unfold readDump
  rw [List.singleton_append, splitLines, if_pos rfl, List.tail_cons]
  exact readToks adj ts []

/-! ## The methods -/

/-- **C110**: the option changes nothing but what is printed.  All methods, any data. -/
theorem C110_same (tab : Arr) (m : Nat) (h : Hf) (original packed : Nat) (inp : List Nat) :
    (decodeLzhufL tab m h original packed inp).map Prod.fst = decodeLzhuf (others tab) tab m h original packed inp := by
  unfold decodeLzhufL decodeLzhuf
  by_cases h0 : m = 0 ∨ m = 10 ∨ m = 12
  · rw [if_pos h0, if_pos h0]
    cases copyfile original inp <;> rfl
  rw [if_neg h0, if_neg h0]
  by_cases h4 : m = 4
  · rw [if_pos h4, if_pos h4]; exact decodeSt1L_fst ..
  rw [if_neg h4, if_neg h4]
  by_cases h5 : m = 5
  · rw [if_pos h5, if_pos h5]; exact decodeSt1L_fst ..
  rw [if_neg h5, if_neg h5]
  by_cases h6 : m = 6
  · rw [if_pos h6, if_pos h6]; exact decodeSt1L_fst ..
  rw [if_neg h6, if_neg h6]
  by_cases h7 : m = 7
  · rw [if_pos h7, if_pos h7]; exact decodeSt1L_fst ..
  rw [if_neg h7, if_neg h7]
  unfold others
  by_cases h1 : m = 1 ∨ m = 2 ∨ m = 3
  · rw [if_pos h1, if_pos h1, ← decodeShufL_fst]
    cases decodeShufL m tab h.dyn h original packed inp <;> rfl
  rw [if_neg h1, if_neg h1]
  by_cases h8 : m = 8
  · rw [if_pos h8, if_pos h8]; exact decodeLzsL_fst ..
  rw [if_neg h8, if_neg h8]
  by_cases h9 : m = 9
  · rw [if_pos h9, if_pos h9]; exact decodeLz5L_fst ..
  rw [if_neg h9, if_neg h9]
  by_cases h13 : m = 13
  · rw [if_pos h13, if_pos h13, ← decodePm2L_fst]
    cases decodePm2L tab h.pm h original packed inp <;> rfl
  rw [if_neg h13, if_neg h13]
  rfl

theorem decodeWinL_ok {σ : Type} {k : Source σ} {tab : Arr} (ht : CrcTab tab) {dic adj : Nat} (hadj : adj ≤ 255)
    {orig : Nat} (ts : List (Nat × Nat)) (d d' : σ)
    (hfe : Feeds k adj dic 0 d ts d') (hp : ∀ t ∈ ts, 256 ≤ t.1 → t.2 < dic)
    (hpre : ∀ i, i < ts.length → (expand adj (ts.take i)).length < orig)
    (hle : orig ≤ (expand adj ts).length) (hdic : DicOk dic (expand adj ts).length) :
    decodeWinL k tab dic adj orig d = .ok ((expand adj ts, crc16 0 (expand adj ts), d'), [10] ++ dumpToks adj 0 ts) := by
  obtain ⟨c', f⟩ := hfe.dump ts 0 d d' 0 [10]
  unfold decodeWinL decodeFromL
  change (decodeWin (dumping k adj) tab dic adj orig (d, 0, [10]) >>= _) = _
  rw [decodeWin_ok ht hadj ts _ _ f hp hpre hle hdic, ok_bind]

theorem decodeWinL16_ok {σ : Type} {k : Source σ} {tab : Arr} (ht : CrcTab tab) {adj : Nat} (hadj : adj ≤ 255)
    {orig : Nat} (ts : List (Nat × Nat)) (d d' : σ)
    (hfe : Feeds k adj 65536 0 d ts d') (hp : ∀ t ∈ ts, 256 ≤ t.1 → t.2 < 65536)
    (hpre : ∀ i, i < ts.length → (expand adj (ts.take i)).length < orig)
    (hle : orig ≤ (expand adj ts).length) :
    ∃ r, decodeWinL k tab 65536 adj orig d = .ok (r, [10] ++ dumpToks adj 0 ts) := by
  obtain ⟨c', f⟩ := hfe.dump ts 0 d d' 0 [10]
  unfold decodeWinL decodeFromL
  change ∃ r, (decodeWin (dumping k adj) tab 65536 adj orig (d, 0, [10]) >>= _) = _
  obtain ⟨w, _, w2⟩ := decodeWin16_ok (tab := tab) ht hadj ts _ _ f hp hpre hle
  rw [w2, ok_bind]
  exact ⟨_, rfl⟩

/-- **C110**, lh5, lh6 and lh7: the dump of a stream that stands for the tokens `ts`, whoever made it, in any state of the process, reads as the text
of these tokens. -/
theorem C110_lh (tab : Arr) (htab : makeCrcTable = .ok tab) (m : Nat) (hm : m = 5 ∨ m = 6 ∨ m = 7) {ts : List (Nat × Nat)}
    {bs S : List Bool} (hB : Blocks (classes m).1 (classes m).2 ts bs)
    {B T : List Nat} (hb : IsBytes B) (hbits : bytesBits B = bs ++ S) {h : Hf} (hok : HfOk h) :
    ∃ r t, decodeLzhufL tab m h (expand 253 ts).length B.length (B ++ T) = .ok (r, t) ∧ readDump t = some (expand 253 ts) ∧
      ((m = 7 → (expand 253 ts).length < 65536) → r.out = expand 253 ts) := by
  obtain ⟨tab', ht1, ht2⟩ := makeCrcTable_ok
  have htt := htab
  rw [ht1] at htab
  cases htab
  have key : ∀ {dicbit np pbit : Nat}, setNp dicbit h = { h with np := np, pbit := pbit } → np ≤ 17 → np < 2 ^ pbit → pbit ≤ 5 → np = dicbit + 1 →
      Blocks np pbit ts bs → dicbit = 16 ∨ DicOk (2 ^ dicbit) (expand 253 ts).length →
      ∃ r, decodeSt1L dicbit tab h (expand 253 ts).length B.length (B ++ T) = .ok (r, [10] ++ dumpToks 253 0 ts) := by
    intro dicbit np pbit h1 h2 h3 h4 h5 h6 h7
    subst h5
    obtain ⟨d, d', e0, e1, _⟩ := decodes_bits h1 (T := T) hbits hb (h6.decodes h2 h3 h4) hok
    have hd : ∀ t ∈ ts, 256 ≤ t.1 → t.2 < 2 ^ dicbit := h6.dist h2 (by omega)
    unfold decodeSt1L
    rw [e0, ok_bind]
    rcases h7 with rfl | h7
    · obtain ⟨r, hr⟩ := decodeWinL16_ok (tab := tab) ht2 (by omega : 253 ≤ 255) ts d d' (Feeds.of_reads _ _ _ e1) hd (fun i hi => expand_prefix_lt' ts i hi) (Nat.le_refl _)
      rw [show (2 : Nat) ^ 16 = 65536 from rfl, hr, ok_bind]
      exact ⟨_, rfl⟩
    · rw [decodeWinL_ok ht2 (by omega : 253 ≤ 255) ts d d' (Feeds.of_reads _ _ _ e1) hd (fun i hi => expand_prefix_lt' ts i hi)
        (Nat.le_refl _) h7, ok_bind]
      exact ⟨_, rfl⟩
  have hrun : ∃ r, decodeLzhufL tab m h (expand 253 ts).length B.length (B ++ T) = .ok (r, [10] ++ dumpToks 253 0 ts) := by
    rcases hm with rfl | rfl | rfl
    · exact key (dicbit := 13) (np := 14) (pbit := 4) rfl (by omega) (by omega) (by omega) rfl hB (Or.inr ⟨by decide, ⟨8, rfl⟩, fun h => by simp at h⟩)
    · exact key (dicbit := 15) (np := 16) (pbit := 5) rfl (by omega) (by omega) (by omega) rfl hB (Or.inr ⟨by decide, ⟨2, rfl⟩, fun h => by simp at h⟩)
    · exact key (dicbit := 16) (np := 17) (pbit := 5) rfl (by omega) (by omega) (by omega) rfl hB (Or.inl rfl)
  obtain ⟨r, hr⟩ := hrun
  refine ⟨r, _, hr, readDump_toks 253 ts, fun h7 => ?_⟩
  obtain ⟨n, h', _, q, _⟩ := C48_partial (others tab) tab htt m hm hB h7 (T := T) hb hbits hok
  have := C110_same tab m h (expand 253 ts).length B.length (B ++ T)
  rw [hr, q] at this
  cases this
  rfl

/-- **C110**, lzs. -/
theorem C110_lzs (tab : Arr) (ht : makeCrcTable = .ok tab) (h : Hf) (ts : List RTok) (hok : ∀ t ∈ ts, lzsTokOk t) (B T : List Nat)
    (hB : IsBytes B) (S : List Bool) (hbits : bytesBits B = lzsBits ts ++ S) :
    ∃ r t, decodeLzhufL tab 8 h (Ring.run 2048 lzsRing ts).out.length B.length (B ++ T) = .ok (r, t) ∧
      readDump t = some (Ring.run 2048 lzsRing ts).out ∧ r.out = (Ring.run 2048 lzsRing ts).out := by
  obtain ⟨tab', ht1, ht2⟩ := makeCrcTable_ok
  rw [ht1] at ht
  cases ht
  show ∃ r t, decodeLzsL _ _ _ _ _ = _ ∧ _
  unfold decodeLzsL
  obtain ⟨r, r1, r2⟩ := initGetbits_spec ⟨B ++ T, B.length, 0, 0, 0⟩ B T rfl rfl hB
  rw [r1, ok_bind]
  rw [hbits] at r2
  obtain ⟨s', f1, f2⟩ := lzs_feeds ts 0 ⟨r, 0⟩ S T hok r2
  have hraw := expand_raw (m := 18) (N := 2048) (adj := 254) (c0 := 2031) (by omega) (by omega) ⟨32, rfl⟩ (by omega) (by omega) (by omega)
    (pre := []) ts lzsRingInv (fun t htm => lzs_ok_raw (hok t htm))
  simp only [List.nil_append, List.length_nil] at hraw
  have hdec := decodeWinL_ok ht2 (by omega : 254 ≤ 255) (dic := 2048) (rawToks 18 2048 254 0 ts) ⟨r, 0⟩ s' f1
    (fun u hu _ => rawToks_dist (by omega) ts 0 u hu)
    (orig := (Ring.run 2048 lzsRing ts).out.length)
    (by
      intro i hi
      rw [← hraw]
      exact rawToks_prefix (by omega) ts 0 [] (fun t htm => lzs_ok_raw (hok t htm)) i hi)
    (by rw [← hraw]; exact Nat.le_refl _)
    ⟨by omega, ⟨32, rfl⟩, by omega⟩
  rw [hdec, ok_bind]
  refine ⟨_, _, rfl, ?_, ?_⟩
  · rw [readDump_toks]; unfold expand; rw [hraw]
  · show expand 254 _ = _
    unfold expand; rw [hraw]

/-- The dump of forty times `A` is a line for one `A`, and a line for a copy of the other 39; reading it gives the forty. -/
example : dumpToks 253 0 [(65, 0), (292, 0)] = str "0 41(A)\n1 <39 0>\n" ∧ readDump (str "\n0 41(A)\n1 <39 0>\n") = some (List.replicate 40 65) := by
  decide +kernel

/-- Text that is not printable, and a copy from before the beginning. -/
example : dumpToks 253 0 [(256, 4), (10, 0), (233, 0)] = str "0 <3 -5>\n3 0a(?)\n4 e9(" ++ [195, 169] ++ str ")\n" ∧
    expand 253 [(256, 4), (10, 0), (233, 0)] = [32, 32, 32, 10, 233] := by decide +kernel

/-- Blocks as in the hypotheses of `C110_lh` (from C48): one letter. -/
example : Blocks 14 4 ([(65, 0)] ++ []) (oneLetter 4 65 ++ []) := .cons (oneLetter_block 14 4 65 (by omega) (by omega)) .nil

end Lha
