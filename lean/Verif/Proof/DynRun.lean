import Verif.Proof.SibCode
/-!
# Runs of the adaptive coder and decoder
-/

namespace Lha

open Spec

variable {n esc : Nat}

/-- The coder on a sequence of symbols. -/
def encodeAll : List Nat → Dyn → BW → G (Dyn × BW)
  | [], s, o => .ok (s, o)
  | c :: cs, s, o => do
    let (s, o) ← encodeCDyn c s o
    encodeAll cs s o

/-- The decoder, asked for a number of symbols. -/
def decodeAll : Nat → Dyn → BR → G (List Nat × Dyn × BR)
  | 0, s, r => .ok ([], s, r)
  | k + 1, s, r => do
    let (c, s, r) ← decodeCDyn s r
    let (cs, s, r) ← decodeAll k s r
    .ok (c :: cs, s, r)

/-- One symbol read. -/
theorem decode_one {w : Nat → Nat} (hn1 : 2 ≤ n) (hn : n ≤ 314) {c : Nat} {s : Dyn} {t t' : Tree} {bs S : List Bool} {T : List Nat} {r : BR}
    (h : DynOk n w s) (A : Agree n t s) (C : Code t 0 bs (min c esc)) (St : Step n t (min c esc) t') (he : s.n1 = esc) (hc : c < esc + 256)
    (hr : RRep r (bs ++ (if esc ≤ c then bits 8 (c - esc) else []) ++ S) T) :
    ∃ s' r', decodeCDyn s r = .ok (c, s', r') ∧ RRep r' S T ∧ Agree n t' s' ∧ s'.n1 = esc ∧ ∃ w', DynOk n w' s' := by
  obtain ⟨c1, rfl⟩ := code_eq hn1 hn h.inv A C
  obtain ⟨s1, u1, A1, D1, m1⟩ := step_ok hn1 hn h c1 A St
  rw [List.append_assoc] at hr
  obtain ⟨s', r', v1, v2, v3, v4, v5⟩ := decodeCDyn_ok hn1 hn h c1 hr
  rw [u1] at v1
  cases v1
  rw [he] at v5
  by_cases g : esc ≤ c
  · rw [if_pos (by omega)] at v5
    rw [if_pos g] at v2
    obtain ⟨r2, x1, x2⟩ := getbits_spec (n := 8) v2 (by decide)
    rw [x1, ok_bind, pv_bits_lt 8 _ _ (by omega)] at v5
    rw [List.drop_left' (by simp)] at x2
    refine ⟨s1, r2, ?_, x2, A1, by rw [m1, he], _, D1⟩
    rw [v5]
    have : (min c esc + (c - esc)) % 65536 = c := by
      rw [Nat.mod_eq_of_lt] <;> omega
    simp only [this]
  · rw [if_neg (by omega)] at v5
    rw [if_neg g, List.nil_append] at v2
    refine ⟨s1, r', ?_, v2, A1, by rw [m1, he], _, D1⟩
    rw [v5, show min c esc = c from by omega]

theorem decodeAll_ok (hn1 : 2 ≤ n) (hn : n ≤ 314) {t t' : Tree} {cs : List Nat} {B : List Bool} (C : Coded n esc t cs B t') :
    ∀ (w : Nat → Nat) (s : Dyn) (r : BR) (S : List Bool) (T : List Nat), DynOk n w s → Agree n t s → s.n1 = esc → (∀ c ∈ cs, c < esc + 256) →
    RRep r (B ++ S) T →
    ∃ s' r', decodeAll cs.length s r = .ok (cs, s', r') ∧ RRep r' S T ∧ Agree n t' s' ∧ ∃ w', DynOk n w' s' := by
  induction C with
  | nil => intro w s r S T h A he hc hr; exact ⟨s, r, rfl, hr, A, w, h⟩
  | @cons t t' t'' c cs bs B C St _ ih =>
    intro w s r S T h A he hc hr
    rw [List.append_assoc] at hr
    obtain ⟨s1, r1, e1, R1, A1, m1, w1, D1⟩ := decode_one hn1 hn h A C St he (hc c List.mem_cons_self) hr
    obtain ⟨s', r', e2, R2, A2, D2⟩ := ih w1 s1 r1 S T D1 A1 m1 (fun c hc' => hc c (List.mem_cons_of_mem _ hc')) R1
    refine ⟨s', r', ?_, R2, A2, D2⟩
    rw [List.length_cons, decodeAll, e1, ok_bind]
    simp only []
    rw [e2, ok_bind]

theorem encodeAll_ok (hn1 : 2 ≤ n) (hn : n ≤ 314) {t t' : Tree} {cs : List Nat} {B : List Bool} (C : Coded n esc t cs B t') :
    ∀ (w : Nat → Nat) (s : Dyn) (o : BW) (W : List Bool), DynOk n w s → Agree n t s → s.n1 = esc → (∀ c ∈ cs, c < esc + 256) → esc ≤ 512 →
    s.freq.get 0 + cs.length ≤ 4181 → WRep o W →
    ∃ s' o', encodeAll cs s o = .ok (s', o') ∧ WRep o' (W ++ B) ∧ Agree n t' s' ∧ o'.origsize = o.origsize ∧ B.length ≤ 24 * cs.length := by
  induction C with
  | nil => intro w s o W h A he hc hx hf ho; exact ⟨s, o, rfl, by rw [List.append_nil]; exact ho, A, rfl, by simp⟩
  | @cons t t' t'' c cs bs B C St _ ih =>
    intro w s o W h A he hc hx hf ho
    rw [List.length_cons] at hf
    obtain ⟨c1, rfl⟩ := code_eq hn1 hn h.inv A C
    obtain ⟨s1, u1, A1, D1, m1⟩ := step_ok hn1 hn h c1 A St
    have hcc := hc c List.mem_cons_self
    rw [← he] at c1
    have h16 := dynCode_le16 hn1 hn h c1 (by omega)
    obtain ⟨s', o', v1, v2, v3, v4, _, v5, v6⟩ := encodeCDyn_ok hn1 hn h c1 (by omega) h16 ho
    rw [he] at v2 v3 v6 h16
    rw [u1] at v2
    cases v2
    have hf1 : s1.freq.get 0 = s.freq.get 0 + 1 := by
      have ht := h.total hn1 hn
      rw [D1.total hn1 hn]
      rw [he] at c1
      have : ∀ a ∈ Finset.range n, bump w (s.freq.get 0 = 0x8000) (min c esc) a = w a + if a = min c esc then 1 else 0 := by
        intro a _
        unfold bump
        rw [if_neg (by omega)]
      rw [Finset.sum_congr rfl this, Finset.sum_add_distrib, Finset.sum_ite_eq', if_pos (Finset.mem_range.2 c1), ht]
    obtain ⟨s2, o2, x1, x2, x3, x4, x5⟩ := ih _ s1 o' _ D1 A1 (by rw [m1, he]) (fun c hc' => hc c (List.mem_cons_of_mem _ hc')) hx (by omega) v3
    refine ⟨s2, o2, ?_, ?_, x3, by rw [x4, v4], ?_⟩
    · rw [encodeAll, v1, ok_bind]
      exact x1
    · simpa [List.append_assoc] using x2
    · have : (if esc ≤ c then bits 8 (c - esc) else []).length ≤ 8 := by split <;> simp
      simp only [List.length_append, List.length_cons]
      omega

end Lha
