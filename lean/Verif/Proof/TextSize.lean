import Verif.Proof.Bound
import Verif.Proof.Codec
/-!
# The encoder never reallocates its text buffer
-/

namespace Lha

theorem modRange_size {f : Nat → Nat} (n : Nat) : ∀ {s : Nat} {a a' : Arr}, modRange f n s a = .ok a' → a'.size = a.size := by
  induction n with
  | zero => intro s a a' h; cases h; rfl
  | succ n ih =>
    intro s a a' h
    obtain ⟨v, h1, h2⟩ := bind_ok h
    obtain ⟨a1, h3, h4⟩ := bind_ok h2
    rw [ih h4, wr_size h3]

theorem copyDown_size {d : Nat} (n : Nat) : ∀ {i : Nat} {a a' : Arr}, copyDown d n i a = .ok a' → a'.size = a.size := by
  induction n with
  | zero => intro s a a' h; cases h; rfl
  | succ n ih =>
    intro s a a' h
    obtain ⟨v, h1, h2⟩ := bind_ok h
    obtain ⟨a1, h3, h4⟩ := bind_ok h2
    rw [ih h4, wr_size h3]

theorem wrList_size (l : List Nat) : ∀ {i : Nat} {a a' : Arr}, wrList i l a = .ok a' → a'.size = a.size := by
  induction l with
  | nil => intro s a a' h; cases h; rfl
  | cons x l ih =>
    intro s a a' h
    obtain ⟨a1, h3, h4⟩ := bind_ok h
    rw [ih h4, wr_size h3]

theorem fillAll_size {n v : Nat} {a a' : Arr} (h : fillAll n v a = .ok a') : a'.size = a.size := by
  unfold fillAll at h
  split at h
  · rename_i hn
    cases h
    simp [hn]
  · exact fillRange_size _ h

theorem freadText_size {tab : Arr} {at_ n : Nat} {s : Lz} {x : Nat × Lz} (h : freadText tab at_ n s = .ok x) :
    x.2.text.size = s.text.size := by
  unfold freadText at h
  simp only [] at h
  obtain ⟨a, h1, h2⟩ := bind_ok h
  obtain ⟨c, h3, h4⟩ := bind_ok h2
  cases h4
  exact wrList_size _ h1

theorem insertHash_size {g : Geo} {s s' : Lz} (h : insertHash g s = .ok s') : s'.text.size = s.text.size := by
  unfold insertHash at h
  obtain ⟨a, h1, h2⟩ := bind_ok h
  obtain ⟨b, h3, h4⟩ := bind_ok h2
  obtain ⟨c, h5, h6⟩ := bind_ok h4
  cases h6
  rfl

theorem updateDict_size {g : Geo} {tab : Arr} {s s' : Lz} (h : updateDict g tab s = .ok s') : s'.text.size = s.text.size := by
  unfold updateDict at h
  obtain ⟨t, h1, h2⟩ := bind_ok h
  obtain ⟨⟨n, s1⟩, h3, h4⟩ := bind_ok h2
  obtain ⟨_, _, h6⟩ := bind_ok h4
  obtain ⟨_, _, h8⟩ := bind_ok h6
  obtain ⟨_, _, h10⟩ := bind_ok h8
  cases h10
  have := freadText_size h3
  simp only [] at this ⊢
  rw [this, copyDown_size _ h1]

theorem nextToken_size {g : Geo} {tab : Arr} {s s' : Lz} (h : nextToken g tab s = .ok s') : s'.text.size = s.text.size := by
  unfold nextToken at h
  simp only [] at h
  split at h
  · obtain ⟨s1, h1, h2⟩ := bind_ok h
    obtain ⟨t, h3, h4⟩ := bind_ok h2
    cases h4
    have := updateDict_size h1
    simpa using this
  · rw [ok_bind] at h
    obtain ⟨t, h3, h4⟩ := bind_ok h
    cases h4
    rfl

theorem searchDict1_size {g : Geo} {s : Lz} {tok off max : Nat} {m : Match} {x : Lz × Match}
    (h : searchDict1 g s tok off max m = .ok x) : x.1.text = s.text := by
  unfold searchDict1 at h
  obtain ⟨sp, h1, h2⟩ := bind_ok h
  obtain ⟨⟨c, m1⟩, h3, h4⟩ := bind_ok h2
  simp only [] at h4
  split at h4
  · obtain ⟨_, _, h6⟩ := bind_ok h4
    cases h6
    rfl
  · cases h4
    rfl

theorem searchDict_size {g : Geo} {s : Lz} {mn : Nat} {x : Lz × Match} (h : searchDict g s mn = .ok x) :
    x.1.text.size = s.text.size := by
  unfold searchDict at h
  simp only [] at h
  obtain ⟨⟨o, t⟩, h1, h2⟩ := bind_ok h
  simp only [] at h2
  generalize (if o = g.maxmatch - 3 then (0, s.token) else (o, t)) = pr at h2
  obtain ⟨o2, t2⟩ := pr
  simp only [] at h2
  obtain ⟨⟨s1, m1⟩, h3, h4⟩ := bind_ok h2
  have e1 := searchDict1_size h3
  simp only [] at h4 e1
  split at h4
  · obtain ⟨⟨s2, m2⟩, h5, h6⟩ := bind_ok h4
    have e2 := searchDict1_size h5
    simp only [] at h6 e2
    split at h6
    · cases h6; rw [e2, e1]
    · cases h6; rw [e2, e1]
  · rw [ok_bind] at h4
    simp only [] at h4
    split at h4
    · cases h4; rw [e1]
    · cases h4; rw [e1]

theorem skipLoop_size {g : Geo} {tab : Arr} (n : Nat) : ∀ {s s' : Lz}, skipLoop g tab n s = .ok s' →
    s'.text.size = s.text.size := by
  induction n with
  | zero => intro s s' h; cases h; rfl
  | succ n ih =>
    intro s s' h
    obtain ⟨s1, h1, h2⟩ := bind_ok h
    obtain ⟨s2, h3, h4⟩ := bind_ok h2
    rw [ih h4, insertHash_size h3, nextToken_size h1]

theorem encodeLoop_size {σ : Type} {k : Sink σ} {g : Geo} {tab : Arr} (f : Nat) : ∀ {s : Lz} {m : Match} {c : Nat} {o : σ}
    {x : Lz × Nat × σ}, encodeLoop k g tab f s m c o = .ok x → x.1.text.size = s.text.size := by
  induction f with
  | zero => intro s m c o x h; cases h
  | succ f ih =>
    intro s m c o x h
    rw [encodeLoop] at h
    split at h
    · obtain ⟨s1, h1, h2⟩ := bind_ok h
      obtain ⟨⟨s2, m2⟩, h3, h4⟩ := bind_ok h2
      obtain ⟨s3, h5, h6⟩ := bind_ok h4
      have e2 := searchDict_size h3
      simp only [] at e2 h6
      have e3 : s3.text.size = s.text.size := by rw [insertHash_size h5, e2, nextToken_size h1]
      split at h6
      · obtain ⟨_, _, h8⟩ := bind_ok h6
        obtain ⟨_, _, h10⟩ := bind_ok h8
        rw [ih h10, e3]
      · obtain ⟨_, _, h8⟩ := bind_ok h6
        obtain ⟨s4, h9, h10⟩ := bind_ok h8
        obtain ⟨s5, h11, h12⟩ := bind_ok h10
        obtain ⟨⟨s6, m6⟩, h13, h14⟩ := bind_ok h12
        obtain ⟨s7, h15, h16⟩ := bind_ok h14
        have e6 := searchDict_size h13
        simp only [] at e6 h16
        rw [ih h16, insertHash_size h15, e6, nextToken_size h11, skipLoop_size _ h9, e3]
    · cases h; rfl

theorem encodeLz_size {σ : Type} {k : Sink σ} {g : Geo} {tab : Arr} {b : LzBufs} {D : List Nat} {o : σ} {r : LzOut σ}
    (h : encodeLz k g tab b D o = .ok (some r)) : r.bufs.text.size = b.text.size := by
  unfold encodeLz at h
  obtain ⟨hp, _, h2⟩ := bind_ok h
  obtain ⟨hf, _, h4⟩ := bind_ok h2
  obtain ⟨tx, h5, h6⟩ := bind_ok h4
  split at h6
  · cases h6
  · obtain ⟨⟨v, s1⟩, h7, h8⟩ := bind_ok h6
    have e1 := freadText_size h7
    simp only [] at e1 h8
    obtain ⟨t, _, h10⟩ := bind_ok h8
    obtain ⟨s2, h11, h12⟩ := bind_ok h10
    have e2 := insertHash_size h11
    simp only [] at e2
    obtain ⟨⟨s3, c, o2⟩, h13, h14⟩ := bind_ok h12
    have e3 := encodeLoop_size _ h13
    cases h14
    simp only [] at e3 ⊢
    rw [e3, e2, e1, fillAll_size h5]

theorem encode_size {g : Geo} {tab : Arr} {p : Proc} {size : Nat} {D : List Nat} {r : EncOut}
    (h : encode g tab p size D = .ok (some r)) : r.proc.b.text.size = (allocBufs g p.b p.h).1.text.size := by
  unfold encode at h
  simp only [] at h
  obtain ⟨e, _, h2⟩ := bind_ok h
  obtain ⟨x, h3, h4⟩ := bind_ok h2
  cases x with
  | none => cases h4
  | some y =>
    simp only [] at h4
    obtain ⟨e2, _, h6⟩ := bind_ok h4
    cases h6
    exact encodeLz_size h3

theorem fillRange_panic (v : Nat) (n : Nat) : ∀ {s : Nat} {a : Arr}, a.size < s + n → s ≤ a.size → fillRange v n s a = panic := by
  induction n with
  | zero => intro s a h1 h2; omega
  | succ n ih =>
    intro s a h1 h2
    rw [fillRange]
    by_cases hs : s < a.size
    · rw [wr_ok hs, ok_bind, ih (by simp; omega) (by simp; omega)]
    · rw [wr_panic (by omega)]; rfl

/-- A text buffer that is too small for the geometry: the initialisation panics. -/
theorem encode_small {g : Geo} (hg : GeoM g) {tab : Arr} {p : Proc} (hh : HfOk p.h) (hb : p.h.buf.size = 65535)
    (h1 : p.b.hpos.size = 32768) (h2 : p.b.hflag.size = 32768) (h3 : p.b.text.size < g.txtsiz + 1) (size : Nat) (D : List Nat) :
    encode g tab p size D = panic := by
  obtain ⟨np, pbit, hset, q1, h17, hnp, hpb, hpb2⟩ := setNp_ok hg.ok
  have ha : allocBufs g p.b p.h = (p.b, p.h) := by
    unfold allocBufs
    rw [if_pos (by omega)]
  unfold encode
  rw [ha]
  simp only []
  obtain ⟨e0, b1, b2, b3⟩ := encodeStart_ok hset h17 p.h hh hb ⟨[], 0, size, 0, 0, false⟩ rfl rfl rfl
  obtain ⟨_, c1, _, _⟩ := fillAll_ok 32768 0 p.b.hpos (by omega)
  obtain ⟨_, c2, _, _⟩ := fillAll_ok 32768 0 p.b.hflag (by omega)
  rw [b1, ok_bind]
  unfold encodeLz
  rw [c1, ok_bind, c2, ok_bind]
  have : fillAll (g.txtsiz + 1) 32 p.b.text = panic := by
    unfold fillAll
    rw [if_neg (by omega), fillRange_panic _ _ (by omega) (by omega)]
  rw [this]
  rfl

end Lha
