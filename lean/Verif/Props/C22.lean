import Verif.Proof.Codec
import Verif.Proof.Bound
/-!
# C22: lh7 contents of 64 KiB and more are NOT decompressed completely

`l.loc` is a 16-bit variable; `int(l.loc) == dicsiz` is never true for `dicsiz = 65536`, so the window is
never written out and only the last `N mod 65536` bytes appear.
-/

namespace Lha

open Spec

theorem feeds_of_readTokens (adj dic : Nat) (n : Nat) : ∀ {m : Nat} {d d' : Dec} {ts : List (Nat × Nat)},
    readTokens n d = .ok (ts, d') → Feeds st1Source adj dic m d ts d' := by
  induction n with
  | zero =>
    intro m d d' ts h
    rw [readTokens] at h
    cases h
    rfl
  | succ n ih =>
    intro m d d' ts h
    rw [readTokens] at h
    cases hc : decodeCSt1 d with
    | error e => rw [hc] at h; cases h
    | ok x =>
      obtain ⟨c, d1⟩ := x
      rw [hc, ok_bind] at h
      simp only [] at h
      by_cases h256 : c < 256
      · rw [if_pos h256] at h
        cases hr : readTokens n d1 with
        | error e => rw [hr] at h; cases h
        | ok y =>
          obtain ⟨us, d2⟩ := y
          rw [hr, ok_bind] at h
          cases h
          exact ⟨d1, d1, fun _ => hc, by rw [if_pos h256], by rw [if_pos h256]; exact ih hr⟩
      · rw [if_neg h256] at h
        cases hp : decodePSt1 d1 with
        | error e => rw [hp] at h; cases h
        | ok z =>
          obtain ⟨p, d2⟩ := z
          rw [hp, ok_bind] at h
          simp only [] at h
          cases hr : readTokens n d2 with
          | error e => rw [hr] at h; cases h
          | ok y =>
            obtain ⟨us, d3⟩ := y
            rw [hr, ok_bind] at h
            cases h
            exact ⟨d1, d2, fun _ => hc, by rw [if_neg h256]; exact hp, by rw [if_neg h256]; exact ih hr⟩

/-- For **every** input of at least 64 KiB that lh7 compresses successfully, decompression writes
only the last `N mod 65536` bytes of it (and reports no fault). -/
theorem C22_truncated (tab : Arr) (ht : makeCrcTable = .ok tab) (p : Proc) (hp : ProcOk ⟨16, 256⟩ p) (size : Nat)
    (D : List Nat) (hD : IsBytes D) (hlen : 65536 ≤ D.length) (r : EncOut)
    (hr : encode ⟨16, 256⟩ tab p size D = .ok (some r)) (hu : r.unp = false) (h : Hf) (hok : HfOk h) :
    ∃ o, decodeSt1 16 tab h D.length r.packed r.out = .ok o ∧ o.out = D.drop (D.length / 65536 * 65536) ∧ o.out ≠ D := by
  obtain ⟨tab', ht1, ht2⟩ := makeCrcTable_ok
  rw [ht1] at ht
  cases ht
  have hne : D ≠ [] := by intro h; subst h; simp at hlen
  have hg : GeoM ⟨16, 256⟩ := Or.inr (Or.inr rfl)
  by_cases hf : D.getD 0 0 &&& 32 = 0
  · obtain ⟨r', e1, _, e3, _, e5, _, _, _, e8⟩ := encode_ok hg ht2 hp size hD hne hf
    rw [hr] at e1
    cases e1
    obtain ⟨_, _, _, np, pbit, B, k, ts, s1, s2, q1, q2, q3, s3, s4, s5, s6⟩ := e8 hu
    obtain ⟨h', w, w1, w2⟩ := decodeSt1_16 (T := []) ht2 s1 s2 s3 e5 (s4.decodes q1 q2 q3) s5 h hok
    rw [s6] at w1 w2
    rw [List.append_nil] at w2
    rw [e3]
    refine ⟨_, w2, w1, ?_⟩
    intro he
    simp only [] at he
    rw [w1] at he
    have hl := congrArg List.length he
    rw [List.length_drop] at hl
    omega
  · rw [encode_panic hg ht2 hp size hD hne hf] at hr
    cases hr

/-- A seven byte lh7 stream: one block of 257 matches of length 256 at distance 1. -/
def bigStream : List Nat := [1, 1, 0, 0, 31, 208, 0]

theorem bigStream_tokens : ((decodeStartSt1 16 ⟨Hf.fresh, ⟨bigStream, 7, 0, 0, 0⟩⟩ >>= readTokens 257).map Prod.fst) =
    .ok (List.replicate 257 (509, 0)) := by
  decide +kernel

theorem expand_len_aux (n : Nat) (ts : List (Nat × Nat)) (h : ∀ t ∈ ts, t = (509, 0)) : ∀ out : List Nat, out.length = n →
    (expandFrom 253 out ts).length = n + 256 * ts.length := by
  induction ts generalizing n with
  | nil => intro out ho; simpa [expandFrom] using ho
  | cons t ts ih =>
    intro out ho
    have : t = (509, 0) := h t (by simp)
    change (expandFrom 253 (expandTok 253 out t) ts).length = _
    rw [ih (n + 256) (fun u hu => h u (by simp [hu])) _ (by rw [expandTok_length, this, if_neg (by decide), ho]; rfl)]
    rw [List.length_cons]
    omega

/-- **C22 is false**: in a fresh process a valid lh7 stream of 65792 bytes content is decoded to 256 bytes. -/
theorem C22_false : ∃ (stream : List Nat) (size : Nat) (tab : Arr) (o : DecOut), makeCrcTable = .ok tab ∧
    decodeSt1 16 tab Hf.fresh size stream.length stream = .ok o ∧ size = 65792 ∧ o.out.length = 256 := by
  obtain ⟨tab, ht1, ht2⟩ := makeCrcTable_ok
  have hk := bigStream_tokens
  cases hs : decodeStartSt1 16 ⟨Hf.fresh, ⟨bigStream, 7, 0, 0, 0⟩⟩ with
  | error e => rw [hs] at hk; cases hk
  | ok d =>
    rw [hs, ok_bind] at hk
    cases hr : readTokens 257 d with
    | error e => rw [hr] at hk; cases hk
    | ok x =>
      obtain ⟨ts, d'⟩ := x
      rw [hr] at hk
      have hts : ts = List.replicate 257 (509, 0) := Except.ok.inj hk
      have hall : ∀ us : List (Nat × Nat), (∀ t ∈ us, t ∈ ts) → (expand 253 us).length = 256 * us.length := by
        intro us hus
        have := expand_len_aux 0 us (fun t htm => by
          have := hus t htm
          rw [hts] at this
          exact (List.mem_replicate.1 this).2) [] rfl
        rw [Nat.zero_add] at this
        exact this
      have hlen : ts.length = 257 := by rw [hts, List.length_replicate]
      obtain ⟨w, w1, w2⟩ := decodeWin16_ok (tab := tab) (k := st1Source) (orig := 65792) ht2 (by omega : 253 ≤ 255) ts d d'
        (feeds_of_readTokens 253 65536 257 hr) (fun t htm _ => by
          rw [hts] at htm; rw [(List.mem_replicate.1 htm).2]; decide)
        (fun i hi => by
          rw [hall _ (fun t htm => List.mem_of_mem_take htm), List.length_take]
          omega)
        (by rw [hall ts (fun t h => h), hlen])
      refine ⟨bigStream, 65792, tab, ⟨w, crc16 0 w, 7 - d'.r.compsize, d'.r.inp, d'.h⟩, ht1, ?_, rfl, ?_⟩
      · unfold decodeSt1
        rw [show bigStream.length = 7 from rfl, hs, ok_bind, show (2 : Nat) ^ 16 = 65536 from rfl, w2, ok_bind]
      · simp only []
        rw [w1, List.length_drop, hall ts (fun t h => h), hlen]

/-- What does hold: contents shorter than 64 KiB are decompressed completely (full statement: the same
for every length; it fails from 64 KiB on, see `C22_truncated`). -/
theorem C22_short_partial (tab : Arr) (ht : makeCrcTable = .ok tab) (p : Proc) (hp : ProcOk ⟨16, 256⟩ p) (size : Nat)
    (D : List Nat) (hD : IsBytes D) (hlen : D.length < 65536) (hne : D ≠ []) (r : EncOut)
    (hr : encode ⟨16, 256⟩ tab p size D = .ok (some r)) (hu : r.unp = false) (h : Hf) (hok : HfOk h) :
    ∃ o, decodeSt1 16 tab h D.length r.packed r.out = .ok o ∧ o.out = D := by
  obtain ⟨tab', ht1, ht2⟩ := makeCrcTable_ok
  rw [ht1] at ht
  cases ht
  have hg : GeoM ⟨16, 256⟩ := Or.inr (Or.inr rfl)
  by_cases hf : D.getD 0 0 &&& 32 = 0
  · obtain ⟨r', e1, _, e3, _, e5, _, _, _, e8⟩ := encode_ok hg ht2 hp size hD hne hf
    rw [hr] at e1
    cases e1
    obtain ⟨_, _, e9, _⟩ := e8 hu
    obtain ⟨h', e10, _⟩ := e9 (fun _ => hlen) h [] hok
    rw [List.append_nil] at e10
    exact ⟨_, e10, rfl⟩
  · rw [encode_panic hg ht2 hp size hD hne hf] at hr
    cases hr

/-- Non-vacuity of the hypotheses on the process state: a fresh process. -/
example : ProcOk ⟨16, 256⟩ Proc.fresh ∧ HfOk Hf.fresh :=
  ⟨⟨by constructor <;> rfl, Or.inl rfl⟩, by constructor <;> rfl⟩

/-- Data meeting the hypotheses of `C22_short_partial`. -/
example (tab : Arr) (ht : makeCrcTable = .ok tab) : ∃ r, encode ⟨16, 256⟩ tab Proc.fresh 40 (List.replicate 40 65) = .ok (some r) ∧
    r.unp = false := by
  have h : ((do
      let tab ← makeCrcTable
      match ← encode ⟨16, 256⟩ tab Proc.fresh 40 (List.replicate 40 65) with
      | some r => .ok r.unp
      | none => .ok true) : G Bool) = .ok false := by decide +kernel
  rw [ht, ok_bind] at h
  obtain ⟨x, h1, h2⟩ := bind_ok h
  cases x with
  | none => cases h2
  | some r => exact ⟨r, h1, by simpa using h2⟩

end Lha
