import Verif.Model.Larc
import Verif.Spec.Larc
import Verif.Proof.Win
import Verif.Proof.Adv
import Verif.Proof.WinCrc
import Mathlib.Tactic.IntervalCases
/-!
# The LArc decoders deliver the tokens of the stream
-/

namespace Lha

open Spec

/-- The ring after the output `out`, in terms of distances. -/
structure RingInv (N c0 : Nat) (pre out : List Nat) (r : Ring) : Prop where
  txt : r.out = out
  cur : r.cur = (c0 + out.length) % N
  ring : ∀ d, 1 ≤ d → d ≤ N → r.at' ((r.cur + N - d) % N) = back (pre ++ out) d

theorem ring_put' {N : Nat} {out : List Nat} {f : Nat → Nat} {cur c : Nat}
    (ring : ∀ d, 1 ≤ d → d ≤ N → f ((cur + N - d) % N) = back out d) (hlt : cur < N) (hpos : 0 < N) :
    ∀ d, 1 ≤ d → d ≤ N → (fun i => if i = cur then c else f i) (((cur + 1) % N + N - d) % N) = back (out ++ [c]) d := by
  intro d hd1 hd2
  have hl'2 : (cur + 1) % N = if cur + 1 = N then 0 else cur + 1 := by
    by_cases he : cur + 1 = N
    · rw [if_pos he, he, Nat.mod_self]
    · rw [if_neg he, Nat.mod_eq_of_lt (by omega)]
  rw [add_sub_mod_aux (Nat.mod_lt _ hpos) hd1 hd2]
  by_cases hd : d = 1
  · subst hd
    rw [back_snoc_one]
    have : (if 1 ≤ (cur + 1) % N then (cur + 1) % N - 1 else (cur + 1) % N + N - 1) = cur := by
      rw [hl'2]
      split <;> split <;> omega
    simp only [this, if_true]
  · rw [show d = d - 1 + 1 by omega, back_snoc _ _ _ (by omega), ← ring (d - 1) (by omega) (by omega)]
    rw [add_sub_mod_aux hlt (by omega) (by omega), show d - 1 + 1 = d by omega]
    have : (if d ≤ (cur + 1) % N then (cur + 1) % N - d else (cur + 1) % N + N - d) =
        if d - 1 ≤ cur then cur - (d - 1) else cur + N - (d - 1) := by
      rw [hl'2]
      split <;> split <;> split <;> omega
    simp only [this]
    rw [if_neg]
    split <;> omega

theorem RingInv.put {N c0 : Nat} (hN : 0 < N) {pre out : List Nat} {r : Ring} (h : RingInv N c0 pre out r) (b : Nat) :
    RingInv N c0 pre (out ++ [b]) (r.put N b) := by
  have hlt : r.cur < N := by rw [h.cur]; exact Nat.mod_lt _ hN
  refine ⟨by rw [← h.txt]; rfl, ?_, ?_⟩
  · show (r.cur + 1) % N = _
    rw [h.cur, List.length_append, List.length_singleton, ← Nat.add_assoc, Nat.mod_add_mod]
  · rw [← List.append_assoc]
    exact ring_put' h.ring hlt hN

theorem RingInv.copy {N c0 : Nat} (hN : 0 < N) {pre : List Nat} (d : Nat) (h1 : 1 ≤ d) (h2 : d ≤ N) :
    ∀ (n p : Nat) {out : List Nat} {r : Ring}, RingInv N c0 pre out r → p % N = (r.cur + N - d) % N →
    ∃ out', copyN d n (pre ++ out) = pre ++ out' ∧ RingInv N c0 pre out' (Ring.copy N n p r) := by
  intro n
  induction n with
  | zero => intro p out r h _; exact ⟨out, rfl, h⟩
  | succ n ih =>
    intro p out r h hp
    rw [Ring.copy, copyN, hp, h.ring d h1 h2, List.append_assoc]
    apply ih (p + 1) (h.put hN _)
    have hlt : r.cur < N := by rw [h.cur]; exact Nat.mod_lt _ hN
    show _ = ((r.cur + 1) % N + N - d) % N
    rw [succ_mod_aux p N hN, hp, add_sub_mod_aux hlt h1 h2, add_sub_mod_aux (Nat.mod_lt _ hN) h1 h2]
    have : (r.cur + 1) % N = if r.cur + 1 = N then 0 else r.cur + 1 := by
      by_cases he : r.cur + 1 = N
      · rw [if_pos he, he, Nat.mod_self]
      · rw [if_neg he, Nat.mod_eq_of_lt (by omega)]
    rw [this]
    split <;> split <;> split <;> split <;> omega

/-- A ring token as a letter/length and a distance; `n` bytes have been written. -/
def rawTok (m N adj n : Nat) : RTok → Nat × Nat
  | .lit b => (b, 0)
  | .copy p l => (l + adj, (n % N + 131072 - p - m) % 65536 % N)

def tokLen : RTok → Nat
  | .lit _ => 1
  | .copy _ l => l

def rawToks (m N adj : Nat) : Nat → List RTok → List (Nat × Nat)
  | _, [] => []
  | n, t :: ts => rawTok m N adj n t :: rawToks m N adj (n + tokLen t) ts

def RTok.Ok (N adj : Nat) : RTok → Prop
  | .lit b => b < 256
  | .copy p l => p < N ∧ 256 ≤ l + adj ∧ l + adj < 65536

theorem dist_eq {m N c0 n p : Nat} (hm : m ≤ 100) (hN : 0 < N) (hdv : N ∣ 65536) (hp : p < N) (hc : c0 + m = N + 1) (hm1 : 1 ≤ m) (hmN : m ≤ N) :
    p % N = ((c0 + n) % N + N - ((n % N + 131072 - p - m) % 65536 % N + 1)) % N := by
  obtain ⟨q, hq⟩ := hdv
  have hq0 : 1 ≤ q := by
    rcases Nat.eq_zero_or_pos q with h | h
    · subst h; omega
    · exact h
  have hNle : N ≤ 65536 := Nat.le_of_dvd (by omega) ⟨q, hq⟩
  have hx : (n % N + 131072 - p - m) % 65536 % N = (n % N + 131072 - p - m) % N := by
    rw [hq, Nat.mod_mul_right_mod]
  rw [hx]
  have h2q : 131072 = N * (2 * q) := by
    have : N * (2 * q) = 2 * (N * q) := by ring
    omega
  have hnN := Nat.mod_lt n hN
  -- everything in terms of a residue
  have hD : (n % N + 131072 - p - m) % N = (n % N + 2 * N - p - m) % N := by
    obtain ⟨r, hr⟩ : ∃ r, 2 * q = r + 2 := ⟨2 * q - 2, by omega⟩
    have : n % N + 131072 - p - m = n % N + 2 * N - p - m + N * r := by
      rw [h2q, hr]
      have : N * (r + 2) = N * r + 2 * N := by ring
      omega
    rw [this, Nat.add_mul_mod_self_left]
  rw [hD]
  have hC : (c0 + n) % N = (n % N + N + 1 - m) % N := by
    rw [Nat.add_mod, show c0 = N + 1 - m by omega]
    by_cases h1 : m = 1
    · subst h1
      simp
    · rw [Nat.mod_eq_of_lt (show N + 1 - m < N by omega)]
      congr 1; omega
  rw [hC]
  -- the two residues differ by p + 1
  have e1 := Nat.div_add_mod (n % N + 2 * N - p - m) N
  have e2 := Nat.div_add_mod (n % N + N + 1 - m) N
  have b1 := Nat.mod_lt (n % N + 2 * N - p - m) hN
  have b2 := Nat.mod_lt (n % N + N + 1 - m) hN
  generalize (n % N + 2 * N - p - m) % N = A at *
  generalize (n % N + N + 1 - m) % N = B at *
  generalize (n % N + 2 * N - p - m) / N = x at *
  generalize (n % N + N + 1 - m) / N = y at *
  -- B + N - (A+1) = p + N * k
  rw [Nat.mod_eq_of_lt hp]
  have hxy : N * y + B + N = N * x + A + p + 1 := by omega
  have hx2 : x ≤ 2 := by
    by_contra hh
    have : N * 3 ≤ N * x := Nat.mul_le_mul_left _ (by omega)
    omega
  have hy2 : y ≤ 1 := by
    by_contra hh
    have : N * 2 ≤ N * y := Nat.mul_le_mul_left _ (by omega)
    omega
  have hcases : B + N - (A + 1) = p ∨ B + N - (A + 1) = p + N := by
    interval_cases x <;> interval_cases y <;> omega
  rcases hcases with h | h
  · rw [h, Nat.mod_eq_of_lt hp]
  · rw [h, Nat.add_mod_right, Nat.mod_eq_of_lt hp]

theorem expand_raw {m N adj c0 : Nat} (hm : m ≤ 100) (hN : 0 < N) (hdv : N ∣ 65536) (hc : c0 + m = N + 1) (hm1 : 1 ≤ m) (hmN : m ≤ N)
    {pre : List Nat} (ts : List RTok) : ∀ {out : List Nat} {r : Ring}, RingInv N c0 pre out r → (∀ t ∈ ts, RTok.Ok N adj t) →
    expandFrom adj (pre ++ out) (rawToks m N adj out.length ts) = pre ++ (Ring.run N r ts).out := by
  induction ts with
  | nil => intro out r h _; rw [Ring.run, List.foldl_nil, h.txt]; rfl
  | cons t ts ih =>
    intro out r h hok
    have ht := hok t (by simp)
    have hex : ∀ o, expandFrom adj o (rawToks m N adj out.length (t :: ts)) =
      expandFrom adj (expandTok adj o (rawTok m N adj out.length t)) (rawToks m N adj (out.length + tokLen t) ts) := fun _ => rfl
    rw [hex]
    have hrun : Ring.run N r (t :: ts) = Ring.run N (Ring.tok N r t) ts := rfl
    rw [hrun]
    have step : ∃ out', expandTok adj (pre ++ out) (rawTok m N adj out.length t) = pre ++ out' ∧
        out'.length = out.length + tokLen t ∧ RingInv N c0 pre out' (Ring.tok N r t) := by
      cases t with
      | lit b =>
        refine ⟨out ++ [b], ?_, by simp [tokLen], h.put hN b⟩
        have : b < 256 := ht
        unfold expandTok rawTok
        simp only [this, if_true, List.append_assoc]
      | copy p l =>
        obtain ⟨h1, h2, h3⟩ := ht
        obtain ⟨o', c1, c2⟩ := RingInv.copy hN ((out.length % N + 131072 - p - m) % 65536 % N + 1) (by omega)
          (Nat.mod_lt _ hN) l p h (by rw [h.cur]; exact dist_eq hm hN hdv h1 hc hm1 hmN)
        refine ⟨o', ?_, ?_, c2⟩
        · unfold expandTok rawTok
          simp only []
          rw [if_neg (by omega), show l + adj - adj = l by omega]
          exact c1
        · have := congrArg List.length c1
          rw [copyN_length, List.length_append, List.length_append] at this
          show _ = _ + l
          omega
    obtain ⟨o', s1, s2, s3⟩ := step
    rw [s1, ← s2]
    exact ih s3 (fun u hu => hok u (by simp [hu]))

theorem rawToks_prefix {m N adj : Nat} (hadj : adj ≤ 255) : ∀ (ts : List RTok) (n : Nat) (out : List Nat), (∀ t ∈ ts, RTok.Ok N adj t) →
    ∀ i, i < (rawToks m N adj n ts).length →
    (expandFrom adj out ((rawToks m N adj n ts).take i)).length < (expandFrom adj out (rawToks m N adj n ts)).length := by
  intro ts
  induction ts with
  | nil => intro n out _ i hi; simp [rawToks] at hi
  | cons t ts ih =>
    intro n out hok i hi
    have hpos : out.length < (expandTok adj out (rawTok m N adj n t)).length := by
      rw [expandTok_length]
      have ht := hok t (by simp)
      cases t with
      | lit b => have : b < 256 := ht; simp only [rawTok, this, if_true]; omega
      | copy p l =>
        obtain ⟨_, h2, h3⟩ := ht
        show out.length < if l + adj < 256 then out.length + 1 else out.length + (l + adj - adj)
        rw [if_neg (by omega)]; omega
    rw [rawToks] at hi ⊢
    cases i with
    | zero =>
      rw [List.take_zero]
      exact Nat.lt_of_lt_of_le hpos (expandFrom_length_le _ _ _)
    | succ i =>
      rw [List.take_succ_cons]
      exact ih _ _ (fun u hu => hok u (by simp [hu])) i (by simpa using hi)

theorem rawTok_len {m N adj : Nat} (n : Nat) {t : RTok} (ht : RTok.Ok N adj t) :
    (if (rawTok m N adj n t).1 < 256 then n + 1 else n + ((rawTok m N adj n t).1 - adj)) = n + tokLen t := by
  cases t with
  | lit b =>
    have : b < 256 := ht
    show (if b < 256 then n + 1 else n + (b - adj)) = n + 1
    rw [if_pos this]
  | copy p l =>
    obtain ⟨_, h2, h3⟩ := ht
    show (if l + adj < 256 then n + 1 else n + (l + adj - adj)) = n + l
    rw [if_neg (by omega)]
    omega

theorem rawToks_dist {m N adj : Nat} (hN : 0 < N) (ts : List RTok) : ∀ n, ∀ u ∈ rawToks m N adj n ts, u.2 < N := by
  induction ts with
  | nil => intro n u hu; simp [rawToks] at hu
  | cons t ts ih =>
    intro n u hu
    rw [rawToks] at hu
    rcases List.mem_cons.1 hu with rfl | hu
    · cases t with
      | lit b => exact hN
      | copy p l => exact Nat.mod_lt _ hN
    · exact ih _ u hu

/-! ## lzs -/

theorem pv_one (b : Bool) (R : List Bool) : pv 1 (b :: R) = if b then 1 else 0 := by
  have := pv_bits 1 (if b then 1 else 0) R
  cases b <;> simpa [bits] using this

theorem lzs_feeds (ts : List RTok) : ∀ (n : Nat) (s : Lzs) (S : List Bool) (T : List Nat), (∀ t ∈ ts, lzsTokOk t) →
    RRep s.r (lzsBits ts ++ S) T →
    ∃ s', Feeds lzsSource 254 2048 n s (rawToks 18 2048 254 n ts) s' ∧ RRep s'.r S T := by
  induction ts with
  | nil => intro n s S T _ h; exact ⟨s, rfl, h⟩
  | cons t ts ih =>
    intro n s S T hok h
    have ht := hok t (by simp)
    have hok' := fun u hu => hok u (List.mem_cons_of_mem _ hu)
    have hb : lzsBits (t :: ts) ++ S = lzsTok t ++ (lzsBits ts ++ S) := by
      simp [lzsBits, List.append_assoc]
    rw [hb] at h
    cases t with
    | lit b =>
      have hb : b < 256 := ht
      obtain ⟨r1, e1, f1⟩ := getbits_spec (n := 1) h (by omega)
      simp only [lzsTok, List.cons_append] at e1 f1
      rw [pv_one] at e1
      rw [show List.drop 1 (true :: (bits 8 b ++ (lzsBits ts ++ S))) = bits 8 b ++ (lzsBits ts ++ S) from rfl] at f1
      obtain ⟨r2, e2, f2⟩ := getbits_spec (n := 8) f1 (by omega)
      rw [pv_bits_lt _ _ _ (by omega)] at e2
      rw [List.drop_left' (by simp)] at f2
      obtain ⟨s', g1, g2⟩ := ih (n + 1) ⟨r2, s.matchpos⟩ S T hok' f2
      refine ⟨s', ⟨⟨r2, s.matchpos⟩, ⟨r2, s.matchpos⟩, ?_, ?_, ?_⟩, g2⟩
      · intro w
        show decodeCLzs s = _
        unfold decodeCLzs
        rw [e1, ok_bind]
        simp only [if_true]
        rw [if_pos (by omega), e2, ok_bind]
      · simp only [rawTok, hb, if_true]
      · simp only [rawTok, hb, if_true]; exact g1
    | copy p l =>
      obtain ⟨hp, hl1, hl2⟩ := ht
      obtain ⟨r1, e1, f1⟩ := getbits_spec (n := 1) h (by omega)
      simp only [lzsTok, List.cons_append, List.append_assoc] at e1 f1
      rw [pv_one] at e1
      rw [show List.drop 1 (false :: (bits 11 p ++ (bits 4 (l - 2) ++ (lzsBits ts ++ S)))) =
        bits 11 p ++ (bits 4 (l - 2) ++ (lzsBits ts ++ S)) from rfl] at f1
      obtain ⟨r2, e2, f2⟩ := getbits_spec (n := 11) f1 (by omega)
      rw [pv_bits_lt _ _ _ (by omega)] at e2
      rw [List.drop_left' (by simp)] at f2
      obtain ⟨r3, e3, f3⟩ := getbits_spec (n := 4) f2 (by omega)
      rw [pv_bits_lt _ _ _ (by omega)] at e3
      rw [List.drop_left' (by simp)] at f3
      obtain ⟨s', g1, g2⟩ := ih (n + l) ⟨r3, p⟩ S T hok' f3
      refine ⟨s', ⟨⟨r3, p⟩, ⟨r3, p⟩, ?_, ?_, ?_⟩, g2⟩
      · intro w
        show decodeCLzs s = _
        unfold decodeCLzs
        rw [e1, ok_bind]
        simp only [Bool.false_eq_true, if_false]
        rw [if_neg (by omega), e2, ok_bind]
        simp only []
        rw [e3, ok_bind]
        show _ = Except.ok (l + 254, _)
        rw [show (l - 2 + 256) % 65536 = l + 254 by omega]
      · simp only [rawTok]
        rw [if_neg (by omega)]
        show Except.ok (decodePLzs (n % 2048) ⟨r3, p⟩, _) = _
        unfold decodePLzs
        rw [Nat.mod_eq_of_lt (show p < 65536 by omega)]
      · have : ¬ l + 254 < 256 := by omega
        show Feeds lzsSource 254 2048 (if l + 254 < 256 then n + 1 else n + (l + 254 - 254)) _ _ _
        rw [if_neg this, show l + 254 - 254 = l by omega]
        exact g1

theorem decodeCLzs_adv {s s' : Lzs} {c : Nat} (h : decodeCLzs s = .ok (c, s')) : Adv s.r s'.r := by
  unfold decodeCLzs at h
  obtain ⟨⟨b, r⟩, h1, h2⟩ := bind_ok h
  have a1 := getbits_adv h1
  simp only [] at h2
  split at h2
  · obtain ⟨⟨x, r2⟩, h3, h4⟩ := bind_ok h2
    cases h4
    exact a1.trans (getbits_adv h3)
  · obtain ⟨⟨p, r2⟩, h3, h4⟩ := bind_ok h2
    obtain ⟨⟨x, r3⟩, h5, h6⟩ := bind_ok h4
    cases h6
    exact (a1.trans (getbits_adv h3)).trans (getbits_adv h5)

theorem lzsRingInv : RingInv 2048 2031 [] [] lzsRing := by
  refine ⟨rfl, rfl, ?_⟩
  intro d h1 h2
  unfold back
  rw [if_neg (by simp; omega)]
  rfl

/-! ## lz5 -/

theorem fillWith_ok (f : Nat → Nat) (n : Nat) : ∀ (k s : Nat) (a : Arr), s + k + n ≤ a.size →
    ∃ a', fillWith f n k s a = .ok a' ∧ a'.size = a.size ∧
      ∀ j, a'.get j = if s + k ≤ j ∧ j < s + k + n then f (j - s) else a.get j := by
  induction n with
  | zero => intro k s a _; exact ⟨a, rfl, rfl, fun j => by rw [if_neg]; omega⟩
  | succ n ih =>
    intro k s a h
    obtain ⟨a', h1, h2, h3⟩ := ih (k + 1) s (a.upd (s + k) (f k)) (by simp; omega)
    refine ⟨a', ?_, by simpa using h2, ?_⟩
    · rw [fillWith, wr_ok (by omega), ok_bind]
      exact h1
    · intro j
      rw [h3 j, Arr.get_upd]
      by_cases hj : j = s + k
      · subst hj
        rw [if_neg (by omega), if_pos rfl, if_pos (by omega)]
        congr 1; omega
      · rw [if_neg hj]
        by_cases hc : s + (k + 1) ≤ j ∧ j < s + (k + 1) + n
        · rw [if_pos hc, if_pos (by omega)]
        · rw [if_neg hc, if_neg (by omega)]

theorem startLz5_ok : ∃ w, startLz5 (Arr.mk' 4096 32) = .ok w ∧ w.size = 4096 ∧
    (∀ i, i < 4096 → w.get i = lz5Ring.at' ((i + 4078) % 4096)) ∧ ∀ i, w.get i < 256 := by
  unfold startLz5
  obtain ⟨a1, e1, s1, g1⟩ := fillWith_ok (fun k => k / 13) 3328 0 18 (Arr.mk' 4096 32) (by simp)
  obtain ⟨a2, e2, s2, g2⟩ := fillWith_ok (fun k => k) 256 0 3346 a1 (by rw [s1]; simp)
  obtain ⟨a3, e3, s3, g3⟩ := fillWith_ok (fun k => 255 - k) 256 0 3602 a2 (by rw [s2, s1]; simp)
  obtain ⟨a4, e4, s4, g4⟩ := fillWith_ok (fun _ => 0) 128 0 3858 a3 (by rw [s3, s2, s1]; simp)
  have hs : a4.size = 4096 := by rw [s4, s3, s2, s1]; simp
  rw [e1, ok_bind, e2, ok_bind, e3, ok_bind, e4, ok_bind, wr_ok (by rw [hs]; omega)]
  refine ⟨_, rfl, by simp [hs], ?_, ?_⟩
  swap
  · intro i
    rw [Arr.get_upd, g4, g3, g2, g1, Arr.get_mk']
    repeat' split
    all_goals omega
  intro i hi
  rw [Arr.get_upd, g4, g3, g2, g1, Arr.get_mk']
  simp only [lz5Ring, Nat.add_zero]
  by_cases h18 : i < 18
  · rw [Nat.mod_eq_of_lt (by omega)]
    repeat rw [if_neg (by omega)]
  · rw [show (i + 4078) % 4096 = i - 18 by omega]
    repeat' split
    all_goals omega

theorem lz5RingInv {w : Arr} (hs : w.size = 4096) (hg : ∀ i, i < 4096 → w.get i = lz5Ring.at' ((i + 4078) % 4096))
    (hb : ∀ i, w.get i < 256) : RingInv 4096 4078 (w.slice 0 4096) [] lz5Ring := by
  refine ⟨rfl, rfl, ?_⟩
  intro d h1 h2
  have := (winInit_pre w (by omega) hb).ring d h1 (by omega)
  rw [hs] at this
  rw [← this]
  simp only [Nat.zero_add]
  rw [hg _ (Nat.mod_lt _ (by omega))]
  show lz5Ring.at' ((4078 + 4096 - d) % 4096) = _
  rw [show (4078 + 4096 - d) % 4096 = ((4096 - d) % 4096 + 4078) % 4096 by omega]

theorem and_f0 (x : Nat) (h : x < 256) : x &&& 0xf0 = x / 16 * 16 := by
  have : ∀ x : Fin 256, x.val &&& 0xf0 = x.val / 16 * 16 := by decide +kernel
  exact this ⟨x, h⟩

theorem lz5_ok_raw {t : RTok} (h : lz5TokOk t) : RTok.Ok 4096 253 t := by
  cases t with
  | lit b => exact h
  | copy p l => obtain ⟨h1, h2, h3⟩ := h; exact ⟨h1, by omega, by omega⟩

theorem lzs_ok_raw {t : RTok} (h : lzsTokOk t) : RTok.Ok 2048 254 t := by
  cases t with
  | lit b => exact h
  | copy p l => obtain ⟨h1, h2, h3⟩ := h; exact ⟨h1, by omega, by omega⟩

/-- One token of a group. -/
theorem lz5_item (t : RTok) (ht : lz5TokOk t) (ts : List RTok) (b fc mp : Nat) (S : List Nat) :
    ∃ mp', lz5Item b ⟨lz5Tok t ++ S, fc + 1, lz5Flags (t :: ts), mp⟩ =
      ((rawTok 19 4096 253 0 t).1, ⟨S, fc, lz5Flags ts, mp'⟩) ∧ (∀ p l, t = .copy p l → mp' = p) := by
  cases t with
  | lit c =>
    refine ⟨mp, ?_, by intro p l h; cases h⟩
    show (if (1 + 2 * lz5Flags ts) % 2 = 0 then _ else (c, (⟨S, fc, (1 + 2 * lz5Flags ts) / 2, mp⟩ : Lz5))) = (c, ⟨S, fc, lz5Flags ts, mp⟩)
    rw [if_neg (by omega), show (1 + 2 * lz5Flags ts) / 2 = lz5Flags ts by omega]
  | copy p l =>
    obtain ⟨hp, hl1, hl2⟩ := ht
    refine ⟨p, ?_, by intro p' l' h; cases h; rfl⟩
    show (if 2 * lz5Flags ts % 2 = 0 then ((p / 256 * 16 + (l - 3)) % 16 + 256,
        (⟨S, fc, 2 * lz5Flags ts / 2, p % 256 + ((p / 256 * 16 + (l - 3)) &&& 0xf0) * 16⟩ : Lz5)) else _) =
      (l + 253, ⟨S, fc, lz5Flags ts, p⟩)
    rw [if_pos (by omega), and_f0 _ (by omega)]
    have e1 : (p / 256 * 16 + (l - 3)) % 16 + 256 = l + 253 := by omega
    have e2 : 2 * lz5Flags ts / 2 = lz5Flags ts := by omega
    have e3 : p % 256 + (p / 256 * 16 + (l - 3)) / 16 * 16 * 16 = p := by omega
    rw [e1, e2, e3]

theorem lz5Flags_lt (g : List RTok) : lz5Flags g < 2 ^ g.length := by
  induction g with
  | nil => decide
  | cons t g ih =>
    rw [List.length_cons, Nat.pow_succ]
    cases t <;> simp only [lz5Flags] <;> omega

/-- A group, from its second token on (`fc`: flags left). -/
theorem lz5_group (g : List RTok) : ∀ (n fc mp : Nat) (S : List Nat), (∀ t ∈ g, lz5TokOk t) → g.length ≤ fc →
    ∃ mp', Feeds lz5Source 253 4096 n ⟨g.flatMap lz5Tok ++ S, fc, lz5Flags g, mp⟩ (rawToks 19 4096 253 n g)
      ⟨S, fc - g.length, 0, mp'⟩ := by
  induction g with
  | nil => intro n fc mp S _ _; exact ⟨mp, rfl⟩
  | cons t g ih =>
    intro n fc mp S hok hl
    have ht := hok t (by simp)
    rw [List.length_cons] at hl
    obtain ⟨fc, rfl⟩ : ∃ k, fc = k + 1 := ⟨fc - 1, by omega⟩
    obtain ⟨m1, h1, h2⟩ := lz5_item t ht g 0 fc mp (g.flatMap lz5Tok ++ S)
    obtain ⟨m2, h3⟩ := ih (n + tokLen t) fc m1 S (fun u hu => hok u (by simp [hu])) (by omega)
    refine ⟨m2, ⟨⟨g.flatMap lz5Tok ++ S, fc, lz5Flags g, m1⟩, ⟨g.flatMap lz5Tok ++ S, fc, lz5Flags g, m1⟩, ?_, ?_, ?_⟩⟩
    · intro w
      show Except.ok (decodeCLz5 _) = _
      unfold decodeCLz5
      rw [if_neg (by simp), List.flatMap_cons, List.append_assoc, h1]
      cases t <;> rfl
    · cases t with
      | lit c => have : c < 256 := ht; simp only [rawTok, this, if_true]
      | copy p l =>
        obtain ⟨hp, hl1, hl2⟩ := ht
        simp only [rawTok]
        rw [if_neg (by omega)]
        show Except.ok (decodePLz5 (n % 4096) _, _) = _
        unfold decodePLz5
        simp only [h2 p l rfl]
        rw [Nat.mod_eq_of_lt (show p < 65536 by omega)]
    · rw [show fc + 1 - (t :: g).length = fc - g.length by rw [List.length_cons]; omega]
      show Feeds _ _ _ (if (rawTok 19 4096 253 n t).1 < 256 then n + 1 else n + ((rawTok 19 4096 253 n t).1 - 253)) _ _ _
      rw [rawTok_len n (lz5_ok_raw ht)]
      exact h3

theorem Feeds.append {σ : Type} {k : Source σ} {adj dic : Nat} (m N : Nat) (ts : List RTok) (hok : ∀ t ∈ ts, RTok.Ok N adj t) :
    ∀ {n : Nat} {us : List RTok} {d d' d'' : σ}, Feeds k adj dic n d (rawToks m N adj n ts) d' →
    Feeds k adj dic (n + (ts.map tokLen).sum) d' (rawToks m N adj (n + (ts.map tokLen).sum) us) d'' →
    Feeds k adj dic n d (rawToks m N adj n (ts ++ us)) d'' := by
  induction ts with
  | nil => intro n us d d' d'' h1 h2; rw [rawToks, Feeds] at h1; subst h1; exact h2
  | cons t ts ih =>
    intro n us d d' d'' h1 h2
    rw [List.cons_append, rawToks]
    rw [rawToks] at h1
    obtain ⟨d1, d2, a1, a2, a3⟩ := h1
    refine ⟨d1, d2, a1, a2, ?_⟩
    have hlen := rawTok_len (m := m) n (hok t (by simp))
    have a3' : Feeds k adj dic (if (rawTok m N adj n t).1 < 256 then n + 1 else n + ((rawTok m N adj n t).1 - adj)) d2
      (rawToks m N adj (n + tokLen t) ts) d' := a3
    show Feeds k adj dic (if (rawTok m N adj n t).1 < 256 then n + 1 else n + ((rawTok m N adj n t).1 - adj)) d2
      (rawToks m N adj (n + tokLen t) (ts ++ us)) d''
    rw [hlen] at a3' ⊢
    rw [List.map_cons, List.sum_cons, ← Nat.add_assoc] at h2
    exact ih (fun u hu => hok u (by simp [hu])) a3' h2

/-- A whole group, with its flag byte. -/
theorem lz5_group_flag (g : List RTok) (hg : g ≠ []) (n mp fl : Nat) (S : List Nat) (hok : ∀ t ∈ g, lz5TokOk t) (hl : g.length ≤ 8) :
    ∃ mp', Feeds lz5Source 253 4096 n ⟨lz5Flags g :: g.flatMap lz5Tok ++ S, 0, fl, mp⟩ (rawToks 19 4096 253 n g)
      ⟨S, 8 - g.length, 0, mp'⟩ := by
  cases g with
  | nil => exact absurd rfl hg
  | cons t g =>
    obtain ⟨m', h⟩ := lz5_group (t :: g) n 8 mp S hok hl
    refine ⟨m', ?_⟩
    rw [rawToks] at h ⊢
    obtain ⟨d1, d2, a1, a2, a3⟩ := h
    refine ⟨d1, d2, ?_, a2, a3⟩
    intro w
    have := a1 w
    rw [← this]
    show Except.ok (decodeCLz5 _) = Except.ok (decodeCLz5 _)
    unfold decodeCLz5
    rw [if_pos rfl, if_neg (by simp)]
    simp only [List.cons_append]
    congr 1
    -- the one-byte buffer is overwritten
    have hne : ∃ x l, (t :: g).flatMap lz5Tok ++ S = x :: l := by
      rw [List.flatMap_cons]
      cases t with
      | lit c => exact ⟨c, _, rfl⟩
      | copy p q => exact ⟨_, _, rfl⟩
    obtain ⟨x, l, hx⟩ := hne
    rw [hx]
    rfl

theorem lz5_feeds (gs : List (List RTok)) : ∀ (n mp fl : Nat) (S : List Nat), lz5Groups gs → (∀ g ∈ gs, ∀ t ∈ g, lz5TokOk t) →
    ∃ fc mp' fl', Feeds lz5Source 253 4096 n ⟨lz5Bytes gs ++ S, 0, fl, mp⟩ (rawToks 19 4096 253 n gs.flatten) ⟨S, fc, fl', mp'⟩ := by
  induction gs with
  | nil => intro n mp fl S _ _; exact ⟨0, mp, fl, rfl⟩
  | cons g gs ih =>
    intro n mp fl S hg hok
    have hbytes : lz5Bytes (g :: gs) ++ S = lz5Flags g :: g.flatMap lz5Tok ++ (lz5Bytes gs ++ S) := by
      simp [lz5Bytes]
    cases gs with
    | nil =>
      obtain ⟨h1, h2⟩ := hg
      obtain ⟨m1, f1⟩ := lz5_group_flag g (by intro h; subst h; simp at h1) n mp fl (lz5Bytes [] ++ S) (hok g (by simp)) h2
      refine ⟨8 - g.length, m1, 0, ?_⟩
      rw [hbytes]
      simpa [lz5Bytes] using f1
    | cons g2 gs =>
      obtain ⟨h1, h2⟩ := hg
      obtain ⟨m1, f1⟩ := lz5_group_flag g (by intro h; subst h; simp at h1) n mp fl (lz5Bytes (g2 :: gs) ++ S) (hok g (by simp)) (by omega)
      rw [h1, Nat.sub_self] at f1
      obtain ⟨fc, m2, fl2, f2⟩ := ih (n + (g.map tokLen).sum) m1 0 S h2 (fun u hu => hok u (by simp only [List.mem_cons] at hu ⊢; tauto))
      refine ⟨fc, m2, fl2, ?_⟩
      rw [hbytes, List.flatten_cons]
      exact Feeds.append 19 4096 g (fun t ht => lz5_ok_raw (hok g (by simp) t ht)) f1 f2

end Lha
