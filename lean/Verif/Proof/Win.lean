import Verif.Proof.Lz
import Verif.Proof.SendBlock
import Verif.Spec.Feed
/-!
# The decoder's circular window
-/

namespace Lha

open Spec

theorem Feeds.of_reads {σ : Type} {k : Source σ} (adj dic : Nat) (ts : List (Nat × Nat)) : ∀ {n : Nat} {d d' : σ},
    Reads k d ts d' → Feeds k adj dic n d ts d' := by
  induction ts with
  | nil => intro n d d' h; exact h
  | cons t ts ih =>
    intro n d d' h
    obtain ⟨d1, d2, h1, h2, h3⟩ := h
    refine ⟨d1, d2, fun w => h1 w _ _, ?_, ih h3⟩
    by_cases hc : t.1 < 256
    · rw [if_pos hc]; rw [if_neg (by omega)] at h2; exact h2
    · rw [if_neg hc]; rw [if_pos (by omega)] at h2; exact h2 _ _

/-- Window sizes the decoder's 16-bit cursor supports for a content of `n` bytes. -/
def DicOk (dic n : Nat) : Prop := 0 < dic ∧ dic ∣ 65536 ∧ (dic = 65536 → n < 65536)

theorem DicOk.le {dic n : Nat} (h : DicOk dic n) : dic ≤ 65536 := Nat.le_of_dvd (by omega) h.2.1

theorem DicOk.half {dic n : Nat} (h : DicOk dic n) (hne : dic ≠ 65536) : dic < 65536 := by
  have := h.le
  omega

theorem DicOk.mono {dic n m : Nat} (h : DicOk dic n) (hm : m ≤ n) : DicOk dic m :=
  ⟨h.1, h.2.1, fun hd => by have := h.2.2 hd; omega⟩

/-- The window after the output `out`, started with a dictionary `pre`. -/
structure WinInv (dic : Nat) (pre out : List Nat) (s : Win) : Prop where
  size : s.dtext.size = dic
  loc : s.loc = out.length % dic
  flushed : s.rout.reverse = out.take (out.length - s.loc)
  crc : s.crc = crc16 0 (out.take (out.length - s.loc))
  ring : ∀ d, 1 ≤ d → d ≤ dic → s.dtext.get ((s.loc + dic - d) % dic) = back (pre ++ out) d
  byt : IsBytes (pre ++ out)

theorem slice_eq' (a : Arr) : ∀ (l : List Nat) (s : Nat), (∀ i, i < l.length → a.get (s + i) = l.getD i 0) →
    a.slice s l.length = l := by
  intro l
  induction l with
  | nil => intro s _; rfl
  | cons x l ih =>
    intro s h
    rw [List.length_cons, Arr.slice, ih (s + 1)]
    · have := h 0 (by simp)
      simp at this
      rw [this]
    · intro i hi
      have := h (i + 1) (by simpa using hi)
      rw [show s + 1 + i = s + (i + 1) by omega, this]
      simp

theorem slice_eq (a : Arr) (l : List Nat) (n : Nat) (hl : l.length = n) (h : ∀ i, i < n → a.get i = l.getD i 0) :
    a.slice 0 n = l := by
  rw [← hl]
  exact slice_eq' a l 0 (fun i hi => by rw [Nat.zero_add]; exact h i (by omega))

theorem back_snoc_one (out : List Nat) (c : Nat) : back (out ++ [c]) 1 = c := by
  unfold back
  rw [if_pos (by simp), List.getD_eq_getElem?_getD]
  simp

theorem back_snoc (out : List Nat) (c d : Nat) (h : 1 ≤ d) : back (out ++ [c]) (d + 1) = back out d := by
  unfold back
  rw [List.length_append, List.length_singleton]
  by_cases hd : d ≤ out.length
  · rw [if_pos (by omega), if_pos hd, show out.length + 1 - (d + 1) = out.length - d by omega,
      List.getD_eq_getElem?_getD, List.getD_eq_getElem?_getD, List.getElem?_append_left (by omega)]
  · rw [if_neg (by omega), if_neg hd]

theorem back_append (pre out : List Nat) (d : Nat) (h : d ≤ out.length) : back (pre ++ out) d = back out d := by
  unfold back
  rw [List.length_append, if_pos (by omega), if_pos h, List.getD_eq_getElem?_getD, List.getD_eq_getElem?_getD,
    List.getElem?_append_right (by omega)]
  congr 2
  omega

theorem add_sub_mod_aux {l dic d : Nat} (hl : l < dic) (h1 : 1 ≤ d) (h2 : d ≤ dic) :
    (l + dic - d) % dic = if d ≤ l then l - d else l + dic - d := by
  by_cases h : d ≤ l
  · rw [if_pos h, show l + dic - d = l - d + dic by omega, Nat.add_mod_right, Nat.mod_eq_of_lt (by omega)]
  · rw [if_neg h, Nat.mod_eq_of_lt (by omega)]

theorem succ_mod_aux (n dic : Nat) (h : 0 < dic) :
    (n + 1) % dic = if n % dic + 1 = dic then 0 else n % dic + 1 := by
  have hlt := Nat.mod_lt n h
  rw [Nat.add_mod]
  by_cases h1 : dic = 1
  · subst h1; simp [Nat.mod_one]
  · rw [Nat.mod_eq_of_lt (show 1 < dic by omega)]
    by_cases h2 : n % dic + 1 = dic
    · rw [if_pos h2, h2, Nat.mod_self]
    · rw [if_neg h2, Nat.mod_eq_of_lt (by omega)]

/-- The flush writes the last `n` bytes of the output. -/
theorem winFlush_ok {tab : Arr} (ht : CrcTab tab) (s : Win) (out : List Nat) (n : Nat) (hn : n ≤ s.dtext.size)
    (hno : n ≤ out.length)
    (hb : IsBytes out) (hfl : s.rout.reverse = out.take (out.length - n))
    (hcrc : s.crc = crc16 0 (out.take (out.length - n)))
    (hd : ∀ i, i < n → s.dtext.get i = out.getD (out.length - n + i) 0) :
    winFlush tab n s = .ok { s with crc := crc16 0 out, rout := out.reverse } := by
  unfold winFlush
  have hsl : s.dtext.slice 0 n = out.drop (out.length - n) := by
    apply slice_eq
    · rw [List.length_drop]; omega
    · intro i hi
      rw [hd i hi, List.getD_eq_getElem?_getD, List.getD_eq_getElem?_getD, List.getElem?_drop]
  rw [if_pos hn]
  simp only []
  rw [hsl]
  have hlen : (out.drop (out.length - n)).length = n := by rw [List.length_drop]; omega
  have hc := calcCrc_all ht (out.drop (out.length - n)) (fun x hx => hb x (List.mem_of_mem_drop hx)) s.crc
  rw [hlen] at hc
  rw [hc, ok_bind, hcrc, ← crc16_append, List.take_append_drop]
  have : (out.drop (out.length - n)).reverse ++ s.rout = out.reverse := by
    rw [← List.reverse_reverse s.rout, hfl, ← List.reverse_append, List.take_append_drop]
  rw [this]

/-- The ring after a store. -/
theorem ring_put {dic : Nat} {out : List Nat} {dt : Arr} {loc c : Nat}
    (ring : ∀ d, 1 ≤ d → d ≤ dic → dt.get ((loc + dic - d) % dic) = back out d) (hlt : loc < dic) (hpos : 0 < dic) :
    ∀ l', l' = (loc + 1) % dic → ∀ d, 1 ≤ d → d ≤ dic →
      (dt.upd loc c).get ((l' + dic - d) % dic) = back (out ++ [c]) d := by
  intro l' hl' d hd1 hd2
  have hl'2 : l' = if loc + 1 = dic then 0 else loc + 1 := by
    rw [hl']
    by_cases he : loc + 1 = dic
    · rw [if_pos he, he, Nat.mod_self]
    · rw [if_neg he, Nat.mod_eq_of_lt (by omega)]
  have hl'lt : l' < dic := by rw [hl']; exact Nat.mod_lt _ hpos
  rw [add_sub_mod_aux hl'lt hd1 hd2]
  by_cases hd : d = 1
  · subst hd
    rw [back_snoc_one]
    have : (if 1 ≤ l' then l' - 1 else l' + dic - 1) = loc := by
      rw [hl'2]
      split <;> split <;> omega
    rw [this, Arr.get_upd_same]
  · rw [show d = d - 1 + 1 by omega, back_snoc _ _ _ (by omega), ← ring (d - 1) (by omega) (by omega)]
    rw [add_sub_mod_aux hlt (by omega) (by omega), show d - 1 + 1 = d by omega]
    have : (if d ≤ l' then l' - d else l' + dic - d) = if d - 1 ≤ loc then loc - (d - 1) else loc + dic - (d - 1) := by
      rw [hl'2]
      split <;> split <;> split <;> omega
    rw [this, Arr.get_upd_ne]
    split <;> omega

theorem winPut_ok {tab : Arr} (ht : CrcTab tab) {dic : Nat} {pre out : List Nat} {s : Win} (h : WinInv dic pre out s)
    (hdic : DicOk dic (out.length + 1)) (c : Nat) (hc : c < 256) :
    ∃ s', winPut tab dic c s = .ok s' ∧ WinInv dic pre (out ++ [c]) s' := by
  have hpos := hdic.1
  have hlt : s.loc < dic := by rw [h.loc]; exact Nat.mod_lt _ hpos
  have hle := hdic.le
  have hloc := h.loc
  unfold winPut
  rw [wr_ok (by rw [h.size]; exact hlt), ok_bind, Nat.mod_eq_of_lt hc]
  simp only []
  have hbyt : IsBytes (pre ++ (out ++ [c])) := by
    intro x hx
    rw [← List.append_assoc] at hx
    rcases List.mem_append.1 hx with hx | hx
    · exact h.byt x hx
    · rw [List.mem_singleton] at hx; omega
  have hnext := succ_mod_aux out.length dic hpos
  rw [← hloc] at hnext
  -- no wrap of the 16-bit cursor before the window is full
  have hwrap : (s.loc + 1) % 65536 = s.loc + 1 := by
    apply Nat.mod_eq_of_lt
    by_cases he : dic = 65536
    · have := hdic.2.2 he
      rw [hloc]
      have := Nat.mod_le out.length dic
      omega
    · have := hdic.half he
      omega
  rw [hwrap]
  have hring := ring_put h.ring hlt hpos (c := c)
  rw [List.append_assoc] at hring
  by_cases hfull : s.loc + 1 = dic
  · rw [if_pos hfull]
    rw [if_pos hfull] at hnext
    have hdl : dic ≤ out.length + 1 := by
      have := Nat.mod_le out.length dic
      omega
    have hfl := winFlush_ok ht { s with dtext := s.dtext.upd s.loc c, loc := s.loc + 1 } (out ++ [c]) dic
      (by simp [h.size]) (by simpa using hdl) (fun x hx => hbyt x (List.mem_append_right _ hx))
      (by
        simp only [List.length_append, List.length_singleton]
        rw [h.flushed, List.take_append_of_le_length (by omega)]
        congr 1; omega)
      (by
        simp only [List.length_append, List.length_singleton]
        rw [h.crc, List.take_append_of_le_length (by omega)]
        congr 2; omega)
      (by
        intro i hi
        have hr := hring 0 (by rw [hfull, Nat.mod_self]) (dic - i) (by omega) (by omega)
        rw [show (0 + dic - (dic - i)) % dic = i by rw [show 0 + dic - (dic - i) = i by omega]; exact Nat.mod_eq_of_lt hi] at hr
        simp only []
        rw [hr, back_append _ _ _ (by rw [List.length_append, List.length_singleton]; omega)]
        unfold back
        rw [if_pos (by rw [List.length_append, List.length_singleton]; omega)]
        congr 1
        rw [List.length_append, List.length_singleton]
        omega)
    rw [hfl, ok_bind]
    refine ⟨_, rfl, ⟨by simp [h.size], ?_, ?_, ?_, ?_, hbyt⟩⟩
    · simp only [List.length_append, List.length_singleton]; exact hnext.symm
    · simp
    · simp only [Nat.sub_zero, List.take_length]
    · intro d hd1 hd2
      exact hring 0 (by rw [hfull, Nat.mod_self]) d hd1 hd2
  · rw [if_neg hfull]
    rw [if_neg hfull] at hnext
    refine ⟨_, rfl, ⟨by simp [h.size], ?_, ?_, ?_, ?_, hbyt⟩⟩
    · simp only [List.length_append, List.length_singleton]; exact hnext.symm
    · simp only [List.length_append, List.length_singleton]
      rw [h.flushed, List.take_append_of_le_length (by omega)]
      congr 1; omega
    · simp only [List.length_append, List.length_singleton]
      rw [h.crc, List.take_append_of_le_length (by omega)]
      congr 2; omega
    · intro d hd1 hd2
      exact hring (s.loc + 1) (by rw [Nat.mod_eq_of_lt (by omega)]) d hd1 hd2

theorem copyN_length (d n : Nat) (out : List Nat) : (copyN d n out).length = out.length + n := by
  induction n generalizing out with
  | zero => rfl
  | succ n ih => rw [copyN, ih, List.length_append, List.length_singleton]; omega

theorem back_lt {out : List Nat} (hb : IsBytes out) (d : Nat) (h1 : 1 ≤ d) : back out d < 256 := by
  unfold back
  by_cases h : d ≤ out.length
  · rw [if_pos h]; exact getD_isBytes hb _ (by omega)
  · rw [if_neg h]; omega

theorem copyN_isBytes (d n : Nat) (h1 : 1 ≤ d) : ∀ {out : List Nat}, IsBytes out → IsBytes (copyN d n out) := by
  induction n with
  | zero => intro out h; exact h
  | succ n ih =>
    intro out h
    rw [copyN]
    apply ih
    intro x hx
    rcases List.mem_append.1 hx with hx | hx
    · exact h x hx
    · rw [List.mem_singleton] at hx; rw [hx]; exact back_lt h d h1

theorem winCopy_ok {tab : Arr} (ht : CrcTab tab) {dic : Nat} {pre : List Nat} (d : Nat) (hd1 : 1 ≤ d) (hd2 : d ≤ dic) (mp : Nat) :
    ∀ (n i : Nat) (out : List Nat) (s : Win), WinInv dic pre out s → DicOk dic (out.length + n) →
    (mp + i) % dic = (s.loc + dic - d) % dic →
    ∃ out' s', copyN d n (pre ++ out) = pre ++ out' ∧ winCopy tab dic mp n i s = .ok s' ∧ WinInv dic pre out' s' := by
  intro n
  induction n with
  | zero => intro i out s h _ _; exact ⟨out, s, rfl, rfl, h⟩
  | succ n ih =>
    intro i out s h hdic he
    have hpos := hdic.1
    rw [winCopy, rd_ok (by rw [h.size]; exact Nat.mod_lt _ hpos), ok_bind, he, h.ring d hd1 hd2]
    obtain ⟨s1, p1, p2⟩ := winPut_ok ht h (hdic.mono (by omega)) (back (pre ++ out) d) (back_lt h.byt d hd1)
    rw [p1, ok_bind, copyN, List.append_assoc]
    apply ih (i + 1) (out ++ [back (pre ++ out) d]) s1 p2
    · refine hdic.mono ?_
      rw [List.length_append, List.length_singleton]; omega
    · rw [p2.loc, List.length_append, List.length_singleton]
      have hloc := h.loc
      have hlt : s.loc < dic := by rw [hloc]; exact Nat.mod_lt _ hpos
      have hn := succ_mod_aux out.length dic hpos
      rw [← hloc] at hn
      rw [show mp + (i + 1) = mp + i + 1 by omega, succ_mod_aux _ _ hpos, he, hn, add_sub_mod_aux hlt hd1 hd2]
      by_cases hf : s.loc + 1 = dic
      · rw [if_pos hf, add_sub_mod_aux (by omega) hd1 hd2]
        split <;> split <;> split <;> omega
      · rw [if_neg hf, add_sub_mod_aux (by omega) hd1 hd2]
        split <;> split <;> split <;> omega

theorem matchpos_eq {loc dic d : Nat} (hl : loc < dic) (hdv : dic ∣ 65536) (h1 : 1 ≤ d) (h2 : d ≤ dic) :
    (loc + 65536 - d) % dic = (loc + dic - d) % dic := by
  obtain ⟨q, hq⟩ := hdv
  have hq0 : 1 ≤ q := by
    rcases Nat.eq_zero_or_pos q with h | h
    · subst h; omega
    · exact h
  obtain ⟨r, rfl⟩ : ∃ r, q = r + 1 := ⟨q - 1, by omega⟩
  rw [hq, Nat.mul_add, Nat.mul_one, show loc + (dic * r + dic) - d = loc + dic - d + dic * r by omega, Nat.add_mul_mod_self_left]

theorem expandTok_length (adj : Nat) (out : List Nat) (t : Nat × Nat) :
    (expandTok adj out t).length = if t.1 < 256 then out.length + 1 else out.length + (t.1 - adj) := by
  unfold expandTok
  by_cases h : t.1 < 256
  · rw [if_pos h, if_pos h, List.length_append, List.length_singleton]
  · rw [if_neg h, if_neg h, copyN_length]

theorem expandFrom_length_le (adj : Nat) (ts : List (Nat × Nat)) : ∀ out : List Nat,
    out.length ≤ (expandFrom adj out ts).length := by
  induction ts with
  | nil => intro out; exact Nat.le_refl _
  | cons t ts ih =>
    intro out
    have h1 : out.length ≤ (expandTok adj out t).length := by
      rw [expandTok_length]; split <;> omega
    exact Nat.le_trans h1 (ih _)

/-- One token through the window. -/
theorem winTok_ok {tab : Arr} (ht : CrcTab tab) {dic adj : Nat} {pre out : List Nat} {s : Win} (h : WinInv dic pre out s)
    {t : Nat × Nat} (hp : 256 ≤ t.1 → t.2 < dic) (hdic : DicOk dic ((expandTok adj (pre ++ out) t).length - pre.length)) :
    ∃ out' s', expandTok adj (pre ++ out) t = pre ++ out' ∧ (if t.1 < 256 then winPut tab dic t.1 s
      else winCopy tab dic ((s.loc + 65536 - (t.2 + 1)) % dic) (t.1 - adj) 0 s) = .ok s' ∧
      WinInv dic pre out' s' := by
  rw [expandTok_length, List.length_append] at hdic
  unfold expandTok
  by_cases hc : t.1 < 256
  · rw [if_pos hc] at hdic
    rw [if_pos hc, if_pos hc]
    obtain ⟨s', p1, p2⟩ := winPut_ok ht h (hdic.mono (by omega)) t.1 hc
    exact ⟨out ++ [t.1], s', List.append_assoc .., p1, p2⟩
  · rw [if_neg hc] at hdic
    rw [if_neg hc, if_neg hc]
    have hp' := hp (by omega)
    apply winCopy_ok ht (t.2 + 1) (by omega) (by omega) _ _ _ _ _ h (hdic.mono (by omega))
    have hlt : s.loc < dic := by rw [h.loc]; exact Nat.mod_lt _ hdic.1
    rw [Nat.add_zero, Nat.mod_mod, matchpos_eq hlt hdic.2.1 (by omega) (by omega)]

theorem decodeLoop_ok {σ : Type} {k : Source σ} {tab : Arr} (ht : CrcTab tab) {dic adj : Nat} (hadj : adj ≤ 255)
    {orig : Nat} {pre : List Nat} : ∀ (ts : List (Nat × Nat)) (f : Nat) (out : List Nat) (s : Win) (d d' : σ), WinInv dic pre out s →
    orig - out.length < f →
    Feeds k adj dic out.length d ts d' → (∀ t ∈ ts, 256 ≤ t.1 → t.2 < dic) →
    (∀ i, i < ts.length → (expandFrom adj (pre ++ out) (ts.take i)).length < pre.length + orig) →
    pre.length + orig ≤ (expandFrom adj (pre ++ out) ts).length → DicOk dic ((expandFrom adj (pre ++ out) ts).length - pre.length) →
    ∃ out' s', expandFrom adj (pre ++ out) ts = pre ++ out' ∧
      decodeLoop k tab dic adj orig f out.length s d = .ok (out'.length, s', d') ∧ WinInv dic pre out' s' := by
  intro ts
  induction ts with
  | nil =>
    intro f out s d d' h hf hfe _ _ hle _
    obtain ⟨f, rfl⟩ : ∃ f', f = f' + 1 := ⟨f - 1, by omega⟩
    have hle' : pre.length + orig ≤ (pre ++ out).length := hle
    rw [List.length_append] at hle'
    rw [Feeds] at hfe
    subst hfe
    rw [decodeLoop, if_neg (by omega)]
    exact ⟨out, s, rfl, rfl, h⟩
  | cons t ts ih =>
    intro f out s d d' h hf hfe hp hpre hle hdic
    obtain ⟨f, rfl⟩ : ∃ f', f = f' + 1 := ⟨f - 1, by omega⟩
    obtain ⟨d1, d2, h1, h2, h3⟩ := hfe
    have hgo : out.length < orig := by simpa [expandFrom] using hpre 0 (by simp)
    have hex : expandFrom adj (pre ++ out) (t :: ts) = expandFrom adj (expandTok adj (pre ++ out) t) ts := rfl
    rw [hex] at hle hdic ⊢
    have hlen1 := expandTok_length adj (pre ++ out) t
    have hmono := expandFrom_length_le adj ts (expandTok adj (pre ++ out) t)
    obtain ⟨o1, s1, w0, w1, w2⟩ := winTok_ok (adj := adj) ht h (hp t (by simp)) (hdic.mono (by omega))
    rw [w0, List.length_append, List.length_append] at hlen1
    have hlen2 : o1.length = if t.1 < 256 then out.length + 1 else out.length + (t.1 - adj) := by
      split at hlen1 <;> simp only [*, if_true, if_false] <;> omega
    rw [w0] at hle hdic ⊢
    rw [← h.loc] at h1 h2
    rw [decodeLoop, if_pos hgo, h1, ok_bind]
    simp only []
    have hfe' : Feeds k adj dic o1.length d2 ts d' := by
      rw [hlen2]; exact h3
    obtain ⟨o', s', r0, r1, r2⟩ := ih f o1 s1 d2 d' w2
      (by rw [hlen2]; split <;> omega) hfe' (fun u hu => hp u (by simp [hu]))
      (fun i hi => by
        have := hpre (i + 1) (by simpa using hi)
        rw [List.take_succ_cons] at this
        rw [← w0]; exact this)
      hle hdic
    refine ⟨o', s', r0, ?_, r2⟩
    by_cases hc : t.1 < 256
    · rw [if_pos hc] at h2 w1 hlen2
      subst h2
      rw [if_pos hc, w1, ok_bind, ← hlen2]
      exact r1
    · rw [if_neg hc] at h2 w1 hlen2
      rw [if_neg hc, h2, ok_bind]
      simp only []
      rw [w1, ok_bind, ← hlen2]
      exact r1

theorem winInit (dic : Nat) (hd : 0 < dic) : WinInv dic [] [] ⟨Arr.mk' dic 32, 0, [], 0⟩ := by
  refine ⟨by simp, by simp, by simp, ?_, ?_, by intro x hx; simp at hx⟩
  · rfl
  · intro d h1 h2
    unfold back
    rw [if_neg (by simp; omega)]
    simp

/-- A window filled with a preset dictionary. -/
theorem winInit_pre (w0 : Arr) (hd : 0 < w0.size) (hb : ∀ i, w0.get i < 256) :
    WinInv w0.size (w0.slice 0 w0.size) [] ⟨w0, 0, [], 0⟩ := by
  have hlen : ∀ n s, (w0.slice s n).length = n := by
    intro n
    induction n with
    | zero => intro s; rfl
    | succ n ih => intro s; rw [Arr.slice, List.length_cons, ih]
  have hget : ∀ n s i, i < n → (w0.slice s n).getD i 0 = w0.get (s + i) := by
    intro n
    induction n with
    | zero => intro s i hi; omega
    | succ n ih =>
      intro s i hi
      rw [Arr.slice]
      cases i with
      | zero => rfl
      | succ i => rw [List.getD_cons_succ, ih (s + 1) i (by omega)]; congr 1; omega
  refine ⟨rfl, by simp, by simp, rfl, ?_, ?_⟩
  · intro d h1 h2
    unfold back
    rw [List.append_nil, if_pos (by rw [hlen]; exact h2), hlen, hget _ _ _ (by omega)]
    simp only [Nat.zero_add]
    rw [Nat.mod_eq_of_lt (by omega)]
  · intro x hx
    rw [List.append_nil] at hx
    obtain ⟨i, hi, rfl⟩ := List.mem_iff_getElem.1 hx
    rw [hlen] at hi
    have := hget w0.size 0 i hi
    rw [List.getD_eq_getElem?_getD, List.getElem?_eq_getElem (by rw [hlen]; exact hi), Option.getD_some] at this
    rw [this]
    exact hb _

/-- The whole decoder, given what its source delivers, from a window holding the dictionary `pre`. -/
theorem decodeFrom_ok {σ : Type} {k : Source σ} {tab w0 : Arr} (ht : CrcTab tab) {dic adj : Nat} (hadj : adj ≤ 255)
    {pre : List Nat} (hw : WinInv dic pre [] ⟨w0, 0, [], 0⟩)
    {orig : Nat} (ts : List (Nat × Nat)) (d d' : σ)
    (hfe : Feeds k adj dic 0 d ts d') (hp : ∀ t ∈ ts, 256 ≤ t.1 → t.2 < dic)
    (hpre : ∀ i, i < ts.length → (expandFrom adj pre (ts.take i)).length < pre.length + orig)
    (hle : pre.length + orig ≤ (expandFrom adj pre ts).length) (hdic : DicOk dic ((expandFrom adj pre ts).length - pre.length)) :
    ∃ out, expandFrom adj pre ts = pre ++ out ∧ decodeFrom k tab w0 dic adj orig d = .ok (out, crc16 0 out, d') := by
  unfold decodeFrom
  rw [← List.append_nil pre] at hle hdic
  simp only [List.length_append, List.length_nil, Nat.add_zero] at hle hdic
  obtain ⟨out, s, r0, r1, r2⟩ := decodeLoop_ok ht hadj ts (orig + 1) [] _ d d' hw (by simp) hfe hp
    (by rw [List.append_nil]; exact hpre) hle hdic
  rw [List.append_nil] at r0
  refine ⟨out, r0, ?_⟩
  rw [List.length_nil] at r1
  rw [r1, ok_bind]
  simp only []
  have hlt : s.loc < dic := by rw [r2.loc]; exact Nat.mod_lt _ hdic.1
  have hle2 : s.loc ≤ out.length := by rw [r2.loc]; exact Nat.mod_le _ _
  have hbo : IsBytes out := fun x hx => r2.byt x (List.mem_append_right _ hx)
  by_cases h0 : s.loc ≠ 0
  · rw [if_pos h0, winFlush_ok ht s out s.loc (by rw [r2.size]; omega) hle2 hbo r2.flushed r2.crc, ok_bind]
    · simp
    · intro i hi
      have := r2.ring (s.loc - i) (by omega) (by omega)
      rw [show s.loc + dic - (s.loc - i) = i + dic by omega, Nat.add_mod_right, Nat.mod_eq_of_lt (by omega),
        back_append _ _ _ (by omega)] at this
      rw [this]
      unfold back
      rw [if_pos (by omega)]
      congr 1
      omega
  · rw [if_neg h0, ok_bind]
    have h00 : s.loc = 0 := by omega
    have h1 := r2.flushed
    have h2 := r2.crc
    rw [h00, Nat.sub_zero, List.take_length] at h1 h2
    rw [h1, h2]

/-- The whole decoder, given what its source delivers. -/
theorem decodeWin_ok {σ : Type} {k : Source σ} {tab : Arr} (ht : CrcTab tab) {dic adj : Nat} (hadj : adj ≤ 255)
    {orig : Nat} (ts : List (Nat × Nat)) (d d' : σ)
    (hfe : Feeds k adj dic 0 d ts d') (hp : ∀ t ∈ ts, 256 ≤ t.1 → t.2 < dic)
    (hpre : ∀ i, i < ts.length → (expand adj (ts.take i)).length < orig)
    (hle : orig ≤ (expand adj ts).length) (hdic : DicOk dic (expand adj ts).length) :
    decodeWin k tab dic adj orig d = .ok (expand adj ts, crc16 0 (expand adj ts), d') := by
  obtain ⟨out, h1, h2⟩ := decodeFrom_ok ht hadj (winInit dic hdic.1) ts d d' hfe hp
    (fun i hi => by rw [List.length_nil, Nat.zero_add]; exact hpre i hi)
    (by rw [List.length_nil, Nat.zero_add]; exact hle) (by rw [List.length_nil, Nat.sub_zero]; exact hdic)
  rw [List.nil_append] at h1
  unfold decodeWin expand
  rw [h1]
  exact h2

/-! ## The 64 KiB window -/

/-- The 64 KiB window: the 16-bit cursor never reaches 65536, so nothing is ever flushed. -/
structure WinInv16 (out : List Nat) (s : Win) : Prop where
  size : s.dtext.size = 65536
  loc : s.loc = out.length % 65536
  flushed : s.rout = []
  crc : s.crc = 0
  ring : ∀ d, 1 ≤ d → d ≤ 65536 → s.dtext.get ((s.loc + 65536 - d) % 65536) = back out d
  byt : IsBytes out

theorem winPut16_ok {tab : Arr} {out : List Nat} {s : Win} (h : WinInv16 out s) (c : Nat) (hc : c < 256) :
    ∃ s', winPut tab 65536 c s = .ok s' ∧ WinInv16 (out ++ [c]) s' := by
  have hlt : s.loc < 65536 := by rw [h.loc]; exact Nat.mod_lt _ (by omega)
  have hloc := h.loc
  have hring := ring_put h.ring hlt (by omega) (c := c)
  have hsz := h.size
  unfold winPut
  rw [wr_ok (by omega), ok_bind, Nat.mod_eq_of_lt hc]
  simp only []
  have hbyt : IsBytes (out ++ [c]) := by
    intro x hx
    rcases List.mem_append.1 hx with hx | hx
    · exact h.byt x hx
    · rw [List.mem_singleton] at hx; omega
  rw [if_neg (by have := Nat.mod_lt (s.loc + 1) (show 0 < 65536 by omega); omega)]
  refine ⟨_, rfl, ⟨by simp [hsz], ?_, h.flushed, h.crc, ?_, hbyt⟩⟩
  · simp only [List.length_append, List.length_singleton]
    rw [hloc]
    omega
  · intro d hd1 hd2
    exact hring _ rfl d hd1 hd2

theorem winCopy16_ok {tab : Arr} (d : Nat) (hd1 : 1 ≤ d) (hd2 : d ≤ 65536) (mp : Nat) :
    ∀ (n i : Nat) (out : List Nat) (s : Win), WinInv16 out s →
    (mp + i) % 65536 = (s.loc + 65536 - d) % 65536 →
    ∃ s', winCopy tab 65536 mp n i s = .ok s' ∧ WinInv16 (copyN d n out) s' := by
  intro n
  induction n with
  | zero => intro i out s h _; exact ⟨s, rfl, h⟩
  | succ n ih =>
    intro i out s h he
    rw [winCopy, rd_ok (by rw [h.size]; exact Nat.mod_lt _ (by omega)), ok_bind, he, h.ring d hd1 hd2]
    obtain ⟨s1, p1, p2⟩ := winPut16_ok (tab := tab) h (back out d) (back_lt h.byt d hd1)
    rw [p1, ok_bind, copyN]
    apply ih (i + 1) (out ++ [back out d]) s1 p2
    have h1 := h.loc
    have h2 := p2.loc
    rw [List.length_append, List.length_singleton] at h2
    omega

theorem decodeLoop16_ok {σ : Type} {k : Source σ} {tab : Arr} {adj : Nat} (hadj : adj ≤ 255)
    {orig : Nat} : ∀ (ts : List (Nat × Nat)) (f : Nat) (out : List Nat) (s : Win) (d d' : σ), WinInv16 out s →
    orig - out.length < f →
    Feeds k adj 65536 out.length d ts d' → (∀ t ∈ ts, 256 ≤ t.1 → t.2 < 65536) →
    (∀ i, i < ts.length → (expandFrom adj out (ts.take i)).length < orig) →
    orig ≤ (expandFrom adj out ts).length →
    ∃ s', decodeLoop k tab 65536 adj orig f out.length s d = .ok ((expandFrom adj out ts).length, s', d') ∧
      WinInv16 (expandFrom adj out ts) s' := by
  intro ts
  induction ts with
  | nil =>
    intro f out s d d' h hf hfe _ _ hle
    obtain ⟨f, rfl⟩ : ∃ f', f = f' + 1 := ⟨f - 1, by omega⟩
    have hle' : orig ≤ out.length := hle
    rw [Feeds] at hfe
    subst hfe
    rw [decodeLoop, if_neg (by omega)]
    exact ⟨s, rfl, h⟩
  | cons t ts ih =>
    intro f out s d d' h hf hfe hp hpre hle
    obtain ⟨f, rfl⟩ : ∃ f', f = f' + 1 := ⟨f - 1, by omega⟩
    obtain ⟨d1, d2, h1, h2, h3⟩ := hfe
    have hgo : out.length < orig := by simpa [expandFrom] using hpre 0 (by simp)
    have hex : expandFrom adj out (t :: ts) = expandFrom adj (expandTok adj out t) ts := rfl
    rw [hex] at hle ⊢
    have hlen1 := expandTok_length adj out t
    rw [← h.loc] at h1 h2
    rw [decodeLoop, if_pos hgo, h1, ok_bind]
    simp only []
    have hfe' : Feeds k adj 65536 (expandTok adj out t).length d2 ts d' := by
      rw [hlen1]; exact h3
    have hrec : ∀ s1, WinInv16 (expandTok adj out t) s1 → ∃ s', decodeLoop k tab 65536 adj orig f (expandTok adj out t).length s1 d2 =
        .ok ((expandFrom adj (expandTok adj out t) ts).length, s', d') ∧ WinInv16 (expandFrom adj (expandTok adj out t) ts) s' := by
      intro s1 w2
      exact ih f (expandTok adj out t) s1 d2 d' w2
        (by rw [hlen1]; split <;> omega) hfe' (fun u hu => hp u (by simp [hu]))
        (fun i hi => by
          have := hpre (i + 1) (by simpa using hi)
          rwa [List.take_succ_cons] at this)
        hle
    by_cases hc : t.1 < 256
    · rw [if_pos hc] at h2 hlen1
      subst h2
      have he : expandTok adj out t = out ++ [t.1] := by unfold expandTok; rw [if_pos hc]
      obtain ⟨s1, w1, w2⟩ := winPut16_ok (tab := tab) h t.1 hc
      rw [if_pos hc, w1, ok_bind, ← hlen1]
      exact hrec s1 (by rw [he]; exact w2)
    · rw [if_neg hc] at h2 hlen1
      have he : expandTok adj out t = copyN (t.2 + 1) (t.1 - adj) out := by unfold expandTok; rw [if_neg hc]
      have hpt := hp t (by simp) (by omega)
      have hlt : s.loc < 65536 := by rw [h.loc]; exact Nat.mod_lt _ (by omega)
      obtain ⟨s1, w1, w2⟩ := winCopy16_ok (tab := tab) (t.2 + 1) (by omega) (by omega) ((s.loc + 65536 - (t.2 + 1)) % 65536)
        (t.1 - adj) 0 out s h (by rw [Nat.add_zero, Nat.mod_mod])
      rw [if_neg hc, h2, ok_bind]
      simp only []
      rw [w1, ok_bind, ← hlen1]
      exact hrec s1 (by rw [he]; exact w2)

theorem winInit16 : WinInv16 [] ⟨Arr.mk' 65536 32, 0, [], 0⟩ := by
  refine ⟨by simp, by simp, rfl, rfl, ?_, by intro x hx; simp at hx⟩
  intro d h1 h2
  unfold back
  rw [if_neg (by simp; omega)]
  simp

/-- With a 64 KiB window only the last `N % 65536` bytes are ever written. -/
theorem decodeWin16_ok {σ : Type} {k : Source σ} {tab : Arr} (ht : CrcTab tab) {adj : Nat} (hadj : adj ≤ 255)
    {orig : Nat} (ts : List (Nat × Nat)) (d d' : σ)
    (hfe : Feeds k adj 65536 0 d ts d') (hp : ∀ t ∈ ts, 256 ≤ t.1 → t.2 < 65536)
    (hpre : ∀ i, i < ts.length → (expand adj (ts.take i)).length < orig)
    (hle : orig ≤ (expand adj ts).length) :
    ∃ w, w = (expand adj ts).drop ((expand adj ts).length / 65536 * 65536) ∧
      decodeWin k tab 65536 adj orig d = .ok (w, crc16 0 w, d') := by
  refine ⟨_, rfl, ?_⟩
  generalize hX : expand adj ts = X at *
  unfold decodeWin decodeFrom
  obtain ⟨s, r1, r2⟩ := decodeLoop16_ok (tab := tab) hadj ts (orig + 1) [] _ d d' winInit16 (by simp) hfe hp hpre
    (by change orig ≤ (expand adj ts).length; rw [hX]; exact hle)
  rw [List.length_nil] at r1
  rw [r1, ok_bind]
  simp only []
  change WinInv16 (expand adj ts) s at r2
  rw [hX] at r2
  have hlt : s.loc < 65536 := by rw [r2.loc]; exact Nat.mod_lt _ (by omega)
  have hdm := Nat.div_add_mod X.length 65536
  have hloc := r2.loc
  have hsz := r2.size
  have hwl : (X.drop (X.length / 65536 * 65536)).length = s.loc := by
    rw [List.length_drop]; omega
  by_cases h0 : s.loc ≠ 0
  · have hb : IsBytes (X.drop (X.length / 65536 * 65536)) := fun x hx => r2.byt x (List.mem_of_mem_drop hx)
    rw [if_pos h0, winFlush_ok ht s (X.drop (X.length / 65536 * 65536)) s.loc (by omega) (by omega) hb, ok_bind]
    · simp
    · rw [hwl, Nat.sub_self, List.take_zero, r2.flushed]; rfl
    · rw [hwl, Nat.sub_self, List.take_zero, r2.crc]; rfl
    · intro i hi
      have := r2.ring (s.loc - i) (by omega) (by omega)
      rw [show s.loc + 65536 - (s.loc - i) = i + 65536 by omega, Nat.add_mod_right, Nat.mod_eq_of_lt (by omega)] at this
      rw [this]
      unfold back
      rw [if_pos (by omega), hwl, Nat.sub_self, Nat.zero_add]
      rw [List.getD_eq_getElem?_getD, List.getD_eq_getElem?_getD, List.getElem?_drop]
      congr 2
      omega
  · have h00 : s.loc = 0 := by omega
    have hw0 : X.drop (X.length / 65536 * 65536) = [] := List.length_eq_zero_iff.1 (by rw [hwl, h00])
    rw [if_neg h0, ok_bind, hw0, r2.flushed, r2.crc]
    rfl

end Lha
