import Verif.Props.C110
/-!
# C110, any data: the dump describes what was written, whatever the packed data
-/

namespace Lha

open Spec

/-- A source that delivers a list of tokens. -/
def listSource : Source (List (Nat × Nat)) :=
  ⟨fun _ _ _ l => match l with
      | [] => panic
      | u :: r => .ok (u.1, if u.1 < 256 then r else u :: r),
   fun _ _ l => match l with
      | [] => panic
      | u :: r => .ok (u.2, r)⟩

theorem listSource_feeds (adj dic : Nat) : ∀ (ts : List (Nat × Nat)) (n : Nat), Feeds listSource adj dic n ts ts [] := by
  intro ts
  induction ts with
  | nil => intro n; rfl
  | cons u ts ih =>
    intro n
    obtain ⟨c, p⟩ := u
    by_cases hc : c < 256
    · refine ⟨ts, ts, fun w => ?_, by rw [if_pos hc], by rw [if_pos hc]; exact ih _⟩
      show Except.ok (c, if c < 256 then ts else _) = _
      rw [if_pos hc]
    · refine ⟨(c, p) :: ts, ts, fun w => ?_, by rw [if_neg hc]; rfl, by rw [if_neg hc]; exact ih _⟩
      show Except.ok (c, if c < 256 then ts else _) = _
      rw [if_neg hc]

/-- Every run of the loop is the run for some list of tokens, and the text printed is the lines for these. -/
theorem decodeLoop_trace {σ : Type} (k : Source σ) (tab : Arr) (dic adj orig : Nat) (P : Nat → Prop)
    (hP : ∀ loc n d p d', k.decP loc n d = .ok (p, d') → P p) : ∀ (f n : Nat) (s : Win) (d : σ) (c : Nat) (t : List Nat)
    (n' : Nat) (s' : Win) (d' : σ) (c' : Nat) (t' : List Nat) (out : List Nat), out.length = n →
    decodeLoop (dumping k adj) tab dic adj orig f n s (d, c, t) = .ok (n', s', (d', c', t')) →
    ∃ ts, t' = t ++ dumpToks adj n ts ∧ decodeLoop listSource tab dic adj orig f n s ts = .ok (n', s', []) ∧
      (∀ i, i < ts.length → (expandFrom adj out (ts.take i)).length < orig) ∧ orig ≤ (expandFrom adj out ts).length ∧
      ∀ u ∈ ts, 256 ≤ u.1 → P u.2 := by
  intro f
  induction f with
  | zero => intro n s d c t n' s' d' c' t' out _ h; cases h
  | succ f ih =>
    intro n s d c t n' s' d' c' t' out hout h
    rw [decodeLoop] at h
    by_cases hn : n < orig
    swap
    · rw [if_neg hn] at h
      cases h
      refine ⟨[], by rw [dumpToks, List.append_nil], by rw [decodeLoop, if_neg hn], fun i hi => absurd hi (by simp), ?_, fun u hu => by simp at hu⟩
      show orig ≤ out.length
      omega
    rw [if_pos hn] at h
    change ((k.decC s.dtext s.loc n d >>= fun x => _) >>= _) = _ at h
    cases hk : k.decC s.dtext s.loc n d with
    | error e => rw [hk] at h; cases h
    | ok x =>
      obtain ⟨c1, d1⟩ := x
      rw [hk, ok_bind, ok_bind] at h
      simp only [] at h
      by_cases hc : c1 < 256
      · simp only [if_pos hc] at h
        obtain ⟨s1, hs1, h⟩ := bind_ok h
        obtain ⟨ts, e1, e2, e3, e4, e5⟩ := ih _ _ _ _ _ _ _ _ _ _ (expandTok adj out (c1, 0)) (by rw [expandTok_length, if_pos hc]; omega) h
        refine ⟨(c1, 0) :: ts, ?_, ?_, ?_, e4, fun u hu hu1 => ?_⟩
        · rw [e1, dumpToks, if_pos hc, List.append_assoc]
        · rw [decodeLoop, if_pos hn]
          change (Except.ok (c1, if c1 < 256 then ts else _) >>= _) = _
          rw [ok_bind]
          simp only [if_pos hc]
          rw [hs1, ok_bind, e2]
        · intro i hi
          cases i with
          | zero => show out.length < orig; omega
          | succ i => exact e3 i (by simpa using hi)
        · rcases List.mem_cons.mp hu with rfl | hu
          · exact absurd hc (Nat.not_lt.mpr hu1)
          · exact e5 u hu hu1
      · simp only [if_neg hc] at h
        change ((k.decP s.loc n d1 >>= fun x => _) >>= _) = _ at h
        cases hp : k.decP s.loc n d1 with
        | error e => rw [hp] at h; cases h
        | ok x =>
          obtain ⟨p, d2⟩ := x
          rw [hp, ok_bind, ok_bind] at h
          simp only [] at h
          obtain ⟨s1, hs1, h⟩ := bind_ok h
          obtain ⟨ts, e1, e2, e3, e4, e5⟩ := ih _ _ _ _ _ _ _ _ _ _ (expandTok adj out (c1, p)) (by rw [expandTok_length, if_neg hc]; omega) h
          refine ⟨(c1, p) :: ts, ?_, ?_, ?_, e4, fun u hu hu1 => ?_⟩
          · rw [e1, dumpToks, if_neg hc, List.append_assoc]
          · rw [decodeLoop, if_pos hn]
            change (Except.ok (c1, if c1 < 256 then ts else _) >>= _) = _
            rw [ok_bind]
            simp only [if_neg hc]
            change (Except.ok (p, ts) >>= _) = _
            rw [ok_bind]
            simp only []
            rw [hs1, ok_bind, e2]
          · intro i hi
            cases i with
            | zero => show out.length < orig; omega
            | succ i => exact e3 i (by simpa using hi)
          · rcases List.mem_cons.mp hu with rfl | hu
            · exact hP _ _ _ _ _ hp
            · exact e5 u hu hu1

theorem decodeWinL_trace {σ : Type} (k : Source σ) {tab : Arr} {dic adj orig : Nat}
    (P : Nat → Prop) (hP : ∀ loc n d p d', k.decP loc n d = .ok (p, d') → P p)
    {d d' : σ} {out : List Nat} {crc : Nat} {t : List Nat} (h : decodeWinL k tab dic adj orig d = .ok ((out, crc, d'), t)) :
    ∃ ts, t = [10] ++ dumpToks adj 0 ts ∧ (∀ u ∈ ts, 256 ≤ u.1 → P u.2) ∧ decodeWin listSource tab dic adj orig ts = .ok (out, crc, []) ∧
      (∀ i, i < ts.length → (expand adj (ts.take i)).length < orig) ∧ orig ≤ (expand adj ts).length := by
  unfold decodeWinL decodeFromL decodeFrom at h
  obtain ⟨⟨out1, crc1, d1, c1, t1⟩, h1, h⟩ := bind_ok h
  cases h
  obtain ⟨⟨n, s, d1, c1, t1⟩, h2, h1⟩ := bind_ok h1
  obtain ⟨ts, e1, e2, e3, e4, e5⟩ := decodeLoop_trace k tab dic adj orig P hP _ _ _ _ _ _ _ _ _ _ _ [] rfl h2
  simp only [List.length_nil] at e1 e2
  have hfl : decodeWin listSource tab dic adj orig ts = .ok (out, crc, []) := by
    unfold decodeWin decodeFrom
    rw [e2, ok_bind]
    simp only [] at h1 ⊢
    by_cases hl : s.loc ≠ 0
    · simp only [if_pos hl] at h1 ⊢
      obtain ⟨s1, hs, h1⟩ := bind_ok h1
      rw [hs, ok_bind]
      cases h1
      rfl
    · simp only [if_neg hl, ok_bind] at h1 ⊢
      cases h1
      rfl
  have et : t = [10] ++ dumpToks adj 0 ts := by
    by_cases hl : s.loc ≠ 0
    · simp only [if_pos hl] at h1
      obtain ⟨s1, hs, h1⟩ := bind_ok h1
      cases h1
      exact e1
    · simp only [if_neg hl, ok_bind] at h1
      cases h1
      exact e1
  exact ⟨ts, et, e5, hfl, e3, e4⟩

/-- A window smaller than 64 KiB: if no copy goes back further than the window, the dump reads as what was written. -/
theorem decodeWinL_reads {σ : Type} (k : Source σ) {tab : Arr} (ht : CrcTab tab) {dic adj orig : Nat} (hadj : adj ≤ 255) (h0 : 0 < dic) (hd : dic ∣ 65536)
    (hne : dic ≠ 65536) (P : Nat → Prop) (hP : ∀ loc n d p d', k.decP loc n d = .ok (p, d') → P p)
    {d d' : σ} {out : List Nat} {crc : Nat} {t : List Nat} (h : decodeWinL k tab dic adj orig d = .ok ((out, crc, d'), t)) :
    ∃ ts, t = [10] ++ dumpToks adj 0 ts ∧ (∀ u ∈ ts, 256 ≤ u.1 → P u.2) ∧ ((∀ u ∈ ts, 256 ≤ u.1 → u.2 < dic) → readDump t = some out) := by
  obtain ⟨ts, et, e5, hfl, e3, e4⟩ := decodeWinL_trace k P hP h
  refine ⟨ts, et, e5, fun hp => ?_⟩
  rw [decodeWin_ok ht hadj ts ts [] (listSource_feeds adj dic ts 0) hp e3 e4 ⟨h0, hd, fun h => absurd h hne⟩] at hfl
  cases hfl
  rw [et]
  exact readDump_toks adj ts

/-- A window of 64 KiB (lh7): what is written is what the dump reads as, after the last multiple of 65536 bytes. -/
theorem decodeWinL16_reads {σ : Type} (k : Source σ) {tab : Arr} (ht : CrcTab tab) {adj orig : Nat} (hadj : adj ≤ 255)
    {d d' : σ} {out : List Nat} {crc : Nat} {t : List Nat} (h : decodeWinL k tab 65536 adj orig d = .ok ((out, crc, d'), t)) :
    ∃ ts, t = [10] ++ dumpToks adj 0 ts ∧ ((∀ u ∈ ts, 256 ≤ u.1 → u.2 < 65536) →
      ∃ X, readDump t = some X ∧ out = X.drop (X.length / 65536 * 65536)) := by
  obtain ⟨ts, et, _, hfl, e3, e4⟩ := decodeWinL_trace k (fun _ => True) (fun _ _ _ _ _ _ => trivial) h
  refine ⟨ts, et, fun hp => ?_⟩
  obtain ⟨w, hw, hr⟩ := decodeWin16_ok ht hadj ts ts [] (listSource_feeds adj 65536 ts 0) hp e3 e4
  rw [hr] at hfl
  cases hfl
  exact ⟨expand adj ts, by rw [et]; exact readDump_toks adj ts, hw⟩

/-- The window of a method, in bytes, and the number taken from a length code (`/repo/slide.go` lines 110-130). -/
def dumpWin (m : Nat) : Nat × Nat :=
  if m = 1 ∨ m = 4 then (4096, 253) else if m = 6 then (32768, 253) else if m = 7 then (65536, 253) else if m = 8 then (2048, 254)
  else if m = 13 then (8192, 254) else (8192, 253)

theorem decodeSt1L_any (dicbit : Nat) {tab : Arr} {h : Hf} {original packed : Nat} {inp : List Nat} {o : DecOut} {t : List Nat}
    (hd : decodeSt1L dicbit tab h original packed inp = .ok (o, t)) :
    ∃ d crc d', decodeWinL st1Source tab (2 ^ dicbit) 253 original d = .ok ((o.out, crc, d'), t) := by
  unfold decodeSt1L at hd
  obtain ⟨d, _, hd⟩ := bind_ok hd
  obtain ⟨⟨⟨out, crc, d'⟩, t'⟩, h1, hd⟩ := bind_ok hd
  cases hd
  exact ⟨d, crc, d', h1⟩

/-- **C110**, any data: lh1 to lh6, lzs and pm2.  If the decoder ends, the text printed is lines for some letters and copies, and unless one of the copies
goes back further than the window, the text reads as what is written.  No hypothesis about the data, the state of the process or the sizes in the header. -/
theorem C110_any (tab : Arr) (htab : makeCrcTable = .ok tab) (m : Nat) (hm : (1 ≤ m ∧ m ≤ 6) ∨ m = 8 ∨ m = 13) (h : Hf) (original packed : Nat)
    (inp : List Nat) (o : DecOut) (t : List Nat) (hd : decodeLzhufL tab m h original packed inp = .ok (o, t)) :
    ∃ ts, t = [10] ++ dumpToks (dumpWin m).2 0 ts ∧ ((∀ u ∈ ts, 256 ≤ u.1 → u.2 < (dumpWin m).1) → readDump t = some o.out) := by
  obtain ⟨tab', ht1, ht2⟩ := makeCrcTable_ok
  rw [ht1] at htab
  cases htab
  have key : ∀ {σ : Type} (k : Source σ) (dic adj : Nat), adj ≤ 255 → 0 < dic → dic ∣ 65536 → dic ≠ 65536 → ∀ (d d' : σ) (crc : Nat),
      decodeWinL k tab dic adj original d = .ok ((o.out, crc, d'), t) →
      ∃ ts, t = [10] ++ dumpToks adj 0 ts ∧ ((∀ u ∈ ts, 256 ≤ u.1 → u.2 < dic) → readDump t = some o.out) := by
    intro σ k dic adj h1 h2 h3 h4 d d' crc h
    obtain ⟨ts, e1, _, e2⟩ := decodeWinL_reads k ht2 h1 h2 h3 h4 (fun _ => True) (fun _ _ _ _ _ _ => trivial) h
    exact ⟨ts, e1, e2⟩
  have hm : m = 1 ∨ m = 2 ∨ m = 3 ∨ m = 4 ∨ m = 5 ∨ m = 6 ∨ m = 8 ∨ m = 13 := by omega
  rcases hm with rfl | rfl | rfl | rfl | rfl | rfl | rfl | rfl
  · change (decodeShufL 1 tab h.dyn h original packed inp >>= _) = _ at hd
    obtain ⟨⟨⟨o1, y⟩, t1⟩, h1, hd⟩ := bind_ok hd
    cases hd
    unfold decodeShufL at h1
    rw [if_pos rfl] at h1
    obtain ⟨d, _, h1⟩ := bind_ok h1
    obtain ⟨⟨⟨out, crc, d'⟩, t'⟩, h2, h1⟩ := bind_ok h1
    cases h1
    exact key lh1Source 4096 253 (by omega) (by omega) ⟨16, rfl⟩ (by omega) _ _ _ h2
  · change (decodeShufL 2 tab h.dyn h original packed inp >>= _) = _ at hd
    obtain ⟨⟨⟨o1, y⟩, t1⟩, h1, hd⟩ := bind_ok hd
    cases hd
    unfold decodeShufL at h1
    rw [if_neg (by decide), if_pos rfl] at h1
    obtain ⟨d, _, h1⟩ := bind_ok h1
    obtain ⟨⟨⟨out, crc, d'⟩, t'⟩, h2, h1⟩ := bind_ok h1
    cases h1
    exact key lh2Source 8192 253 (by omega) (by omega) ⟨8, rfl⟩ (by omega) _ _ _ h2
  · change (decodeShufL 3 tab h.dyn h original packed inp >>= _) = _ at hd
    obtain ⟨⟨⟨o1, y⟩, t1⟩, h1, hd⟩ := bind_ok hd
    cases hd
    unfold decodeShufL at h1
    rw [if_neg (by decide), if_neg (by decide)] at h1
    obtain ⟨d, _, h1⟩ := bind_ok h1
    obtain ⟨⟨⟨out, crc, d'⟩, t'⟩, h2, h1⟩ := bind_ok h1
    cases h1
    exact key lh3Source 8192 253 (by omega) (by omega) ⟨8, rfl⟩ (by omega) _ _ _ h2
  · obtain ⟨d, crc, d', h1⟩ := decodeSt1L_any 12 hd
    exact key st1Source 4096 253 (by omega) (by omega) ⟨16, rfl⟩ (by omega) _ _ _ h1
  · obtain ⟨d, crc, d', h1⟩ := decodeSt1L_any 13 hd
    exact key st1Source 8192 253 (by omega) (by omega) ⟨8, rfl⟩ (by omega) _ _ _ h1
  · obtain ⟨d, crc, d', h1⟩ := decodeSt1L_any 15 hd
    exact key st1Source 32768 253 (by omega) (by omega) ⟨2, rfl⟩ (by omega) _ _ _ h1
  · change decodeLzsL tab h original packed inp = _ at hd
    unfold decodeLzsL at hd
    obtain ⟨d, _, hd⟩ := bind_ok hd
    obtain ⟨⟨⟨out, crc, d'⟩, t'⟩, h1, hd⟩ := bind_ok hd
    cases hd
    exact key lzsSource 2048 254 (by omega) (by omega) ⟨32, rfl⟩ (by omega) _ _ _ h1
  · change (decodePm2L tab h.pm h original packed inp >>= _) = _ at hd
    obtain ⟨⟨⟨o1, y⟩, t1⟩, h1, hd⟩ := bind_ok hd
    cases hd
    unfold decodePm2L at h1
    obtain ⟨d, _, h1⟩ := bind_ok h1
    obtain ⟨⟨⟨out, crc, d'⟩, t'⟩, h2, h1⟩ := bind_ok h1
    cases h1
    exact key pmSource 8192 254 (by omega) (by omega) ⟨8, rfl⟩ (by omega) _ _ _ h2

/-- **C110**, any data of an lzs entry: the dump always reads as what is written. -/
theorem C110_any_lzs (tab : Arr) (htab : makeCrcTable = .ok tab) (h : Hf) (original packed : Nat) (inp : List Nat) (o : DecOut) (t : List Nat)
    (hd : decodeLzhufL tab 8 h original packed inp = .ok (o, t)) : readDump t = some o.out := by
  obtain ⟨tab', ht1, ht2⟩ := makeCrcTable_ok
  rw [ht1] at htab
  cases htab
  change decodeLzsL tab h original packed inp = _ at hd
  unfold decodeLzsL at hd
  obtain ⟨d, _, hd⟩ := bind_ok hd
  obtain ⟨⟨⟨out, crc, d'⟩, t'⟩, h1, hd⟩ := bind_ok hd
  cases hd
  obtain ⟨ts, e1, e2, e3⟩ := decodeWinL_reads lzsSource ht2 (by omega : 254 ≤ 255) (by omega) ⟨32, rfl⟩ (by omega) (· < 2048)
    (fun loc n d p d' hp => by
      have : p = decodePLzs loc d := by cases hp; rfl
      rw [this]
      exact Nat.mod_lt _ (by omega)) h1
  exact e3 e2

/-- **C110**, any data of an lh7 entry: what is written is what the dump reads as, after the last multiple of 65536 bytes. -/
theorem C110_any_lh7 (tab : Arr) (htab : makeCrcTable = .ok tab) (h : Hf) (original packed : Nat) (inp : List Nat) (o : DecOut) (t : List Nat)
    (hd : decodeLzhufL tab 7 h original packed inp = .ok (o, t)) :
    ∃ ts, t = [10] ++ dumpToks 253 0 ts ∧ ((∀ u ∈ ts, 256 ≤ u.1 → u.2 < 65536) →
      ∃ X, readDump t = some X ∧ o.out = X.drop (X.length / 65536 * 65536)) := by
  obtain ⟨tab', ht1, ht2⟩ := makeCrcTable_ok
  rw [ht1] at htab
  cases htab
  obtain ⟨d, crc, d', h1⟩ := decodeSt1L_any 16 hd
  exact decodeWinL16_reads st1Source ht2 (by omega) h1

/-- **C110** does not hold of lz5: its window begins with a text of its own, to which a copy may refer, and the dump does not say what is there.  Here
three bytes are written, and the dump of them (`0 <3 -4065>`) is the same as that of three spaces. -/
theorem C110_false_lz5 : ¬ ∀ (tab : Arr) (_ : makeCrcTable = .ok tab) (h : Hf) (original packed : Nat) (inp : List Nat) (o : DecOut) (t : List Nat)
    (_ : decodeLzhufL tab 9 h original packed inp = .ok (o, t)), readDump t = some o.out := by
  intro hall
  obtain ⟨tab, ht, _⟩ := makeCrcTable_ok
  have w : (do let tab ← makeCrcTable
               let (o, t) ← decodeLzhufL tab 9 Hf.fresh 3 3 [0, 13, 0]
               (.ok (o.out, t) : G _)) = .ok ([1, 1, 1], str "\n0 <3 -4065>\n") := by decide +kernel
  rw [ht, ok_bind] at w
  obtain ⟨⟨o, t⟩, h1, h2⟩ := bind_ok w
  have h3 := hall tab ht _ _ _ _ _ _ h1
  simp only [Except.ok.injEq, Prod.mk.injEq] at h2
  rw [h2.1, h2.2] at h3
  have h4 : readDump (str "\n0 <3 -4065>\n") = some [32, 32, 32] := by decide +kernel
  rw [h3] at h4
  exact absurd h4 (by decide)

/-- An lzs entry of four bytes: the letter `A`, and a copy of two bytes from before the beginning (where the window holds spaces). -/
def anyLzs : List Nat := [160, 128, 40, 0]

example : (do let tab ← makeCrcTable
              let (o, t) ← decodeLzhufL tab 8 Hf.fresh 3 4 anyLzs
              (.ok (o.out, t) : G _)) = .ok ([65, 32, 32], str "\n0 41(A)\n1 <2 -2026>\n") := by decide +kernel

/-- The same data as an lh1 entry: no packer made it, but the decoder ends, as in the hypotheses of `C110_any`. -/
example : (do let tab ← makeCrcTable
              let (o, t) ← decodeLzhufL tab 1 Hf.fresh 3 4 anyLzs
              (.ok (o.out, t) : G _)) = .ok (List.replicate 23 32, str "\n0 <23 -642>\n") := by decide +kernel

end Lha
