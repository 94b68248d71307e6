import Verif.Proof.Bound
/-!
# The decoder's checksum is the checksum of what it wrote

For any token source, any data.
-/

namespace Lha

open Spec

structure WinCrc (s : Win) : Prop where
  text : ∀ i, s.dtext.get i < 256
  bytes : IsBytes s.rout
  crc : s.crc = crc16 0 s.rout.reverse

theorem slice_length (a : Arr) (n : Nat) : ∀ s, (a.slice s n).length = n := by
  induction n with
  | zero => intro s; rfl
  | succ n ih => intro s; rw [Arr.slice, List.length_cons, ih]

theorem slice_bytes (a : Arr) (h : ∀ i, a.get i < 256) (n : Nat) : ∀ s, IsBytes (a.slice s n) := by
  induction n with
  | zero => intro s x hx; cases hx
  | succ n ih =>
    intro s x hx
    rw [Arr.slice] at hx
    rcases List.mem_cons.mp hx with rfl | hx
    · exact h _
    · exact ih _ x hx

theorem winFlush_crc {tab : Arr} (ht : CrcTab tab) {n : Nat} {s s' : Win} (hw : WinCrc s) (h : winFlush tab n s = .ok s') : WinCrc s' := by
  unfold winFlush at h
  split at h
  · obtain ⟨c, h1, h2⟩ := bind_ok h
    cases h2
    have hb := slice_bytes s.dtext hw.text n 0
    have := calcCrc_all ht _ hb s.crc
    rw [slice_length] at this
    rw [this] at h1
    cases h1
    refine ⟨hw.text, ?_, ?_⟩
    · intro x hx
      rcases List.mem_append.mp hx with hx | hx
      · exact hb x (List.mem_reverse.mp hx)
      · exact hw.bytes x hx
    · simp only [List.reverse_append, List.reverse_reverse]
      rw [crc16_append, ← hw.crc]
  · cases h

theorem winPut_crc {tab : Arr} (ht : CrcTab tab) {dic c : Nat} {s s' : Win} (hw : WinCrc s) (h : winPut tab dic c s = .ok s') : WinCrc s' := by
  unfold winPut at h
  obtain ⟨dt, h1, h2⟩ := bind_ok h
  have hdt : ∀ i, dt.get i < 256 := by
    intro i
    unfold wr at h1
    split at h1
    · cases h1
      rw [Arr.get_upd]
      split
      · exact Nat.mod_lt _ (by omega)
      · exact hw.text i
    · cases h1
  simp only [] at h2
  split at h2
  · obtain ⟨s2, h3, h4⟩ := bind_ok h2
    cases h4
    obtain ⟨a, b, c⟩ := winFlush_crc ht (s := { s with dtext := dt, loc := (s.loc + 1) % 65536 }) ⟨hdt, hw.bytes, hw.crc⟩ h3
    exact ⟨a, b, c⟩
  · cases h2
    exact ⟨hdt, hw.bytes, hw.crc⟩

theorem winCopy_crc {tab : Arr} (ht : CrcTab tab) {dic mp : Nat} (k : Nat) :
    ∀ {i : Nat} {s s' : Win}, WinCrc s → winCopy tab dic mp k i s = .ok s' → WinCrc s' := by
  induction k with
  | zero => intro i s s' hw h; cases h; exact hw
  | succ k ih =>
    intro i s s' hw h
    obtain ⟨c, h1, h2⟩ := bind_ok h
    obtain ⟨s1, h3, h4⟩ := bind_ok h2
    exact ih (winPut_crc ht hw h3) h4

theorem decodeLoop_crc {σ : Type} {k : Source σ} {tab : Arr} (ht : CrcTab tab) {dic adj orig : Nat} (f : Nat) :
    ∀ {n : Nat} {s : Win} {d : σ} {x : Nat × Win × σ}, WinCrc s → decodeLoop k tab dic adj orig f n s d = .ok x → WinCrc x.2.1 := by
  induction f with
  | zero => intro n s d x _ h; cases h
  | succ f ih =>
    intro n s d x hw h
    rw [decodeLoop] at h
    split at h
    · obtain ⟨⟨c, d1⟩, h1, h2⟩ := bind_ok h
      simp only [] at h2
      split at h2
      · obtain ⟨s1, h3, h4⟩ := bind_ok h2
        exact ih (winPut_crc ht hw h3) h4
      · obtain ⟨⟨p, d2⟩, h3, h4⟩ := bind_ok h2
        obtain ⟨s1, h5, h6⟩ := bind_ok h4
        exact ih (winCopy_crc ht _ hw h5) h6
    · cases h
      exact hw

/-- Whatever the tokens, the checksum reported is that of the bytes written, which are bytes. -/
theorem decodeFrom_crc {σ : Type} {k : Source σ} {tab w0 : Arr} (ht : CrcTab tab) (hw0 : ∀ i, w0.get i < 256) {dic adj orig : Nat}
    {d : σ} {x : List Nat × Nat × σ}
    (h : decodeFrom k tab w0 dic adj orig d = .ok x) : x.2.1 = crc16 0 x.1 ∧ IsBytes x.1 := by
  unfold decodeFrom at h
  obtain ⟨⟨n, s, d1⟩, h1, h2⟩ := bind_ok h
  have hw : WinCrc s := decodeLoop_crc ht _ ⟨hw0, (by intro x hx; cases hx), rfl⟩ h1
  have hrev : ∀ {l : List Nat}, IsBytes l → IsBytes l.reverse := fun hl x hx => hl x (List.mem_reverse.mp hx)
  simp only [] at h2
  split at h2
  · obtain ⟨s2, h3, h4⟩ := bind_ok h2
    cases h4
    have := winFlush_crc ht hw h3
    exact ⟨this.crc, hrev this.bytes⟩
  · cases h2
    exact ⟨hw.crc, hrev hw.bytes⟩

theorem decodeWin_crc {σ : Type} {k : Source σ} {tab : Arr} (ht : CrcTab tab) {dic adj orig : Nat} {d : σ} {x : List Nat × Nat × σ}
    (h : decodeWin k tab dic adj orig d = .ok x) : x.2.1 = crc16 0 x.1 ∧ IsBytes x.1 :=
  decodeFrom_crc ht (fun i => by simp) h

theorem decodeSt1_crc {tab : Arr} (ht : CrcTab tab) {dicbit original packed : Nat} {h : Hf} {inp : List Nat} {o : DecOut}
    (ho : decodeSt1 dicbit tab h original packed inp = .ok o) : o.crc = crc16 0 o.out ∧ IsBytes o.out := by
  unfold decodeSt1 at ho
  obtain ⟨d, h1, h2⟩ := bind_ok ho
  obtain ⟨⟨out, crc, d'⟩, h3, h4⟩ := bind_ok h2
  cases h4
  exact decodeWin_crc ht h3

end Lha
