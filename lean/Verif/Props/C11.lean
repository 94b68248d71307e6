import Verif.Proof.Extract
import Verif.Proof.Methods
/-!
# C11: `DecompresBytes` never returns unverified content

False for stored entries (their checksum is never computed), true for all compressed methods.
-/

namespace Lha

open Spec

/-- `data` is the verified content of an entry of the archive `a` named `want`. -/
def Verified (f : Fmt) (tab : Arr) (a want data : List Nat) : Prop :=
  ∃ k h0 h rest, getHeader f tab h0 (a.drop k) = .ok (.got h rest) ∧ h.name = want ∧
    (h.method ≠ lh0 ∧ h.method ≠ [45, 108, 122, 52, 45] ∧ h.method ≠ [45, 112, 109, 48, 45] → h.hasCrc = true → crc16 0 data = h.crc)

/-- A `bufio.Writer` passes on nothing or at least 4096 bytes. -/
theorem bufStep_inv {t b n : Nat} (h : b ≤ 4096 ∧ b ≤ t ∧ (t - b = 0 ∨ 4096 ≤ t - b)) :
    bufStep b n ≤ 4096 ∧ bufStep b n ≤ t + n ∧ (t + n - bufStep b n = 0 ∨ 4096 ≤ t + n - bufStep b n) := by
  unfold bufStep
  split
  · omega
  · split
    · omega
    · split <;> omega

theorem bufFull_inv (k n : Nat) : bufFull k n ≤ 4096 ∧ bufFull k n ≤ n * k ∧ (n * k - bufFull k n = 0 ∨ 4096 ≤ n * k - bufFull k n) := by
  induction n with
  | zero => exact ⟨Nat.zero_le _, Nat.zero_le _, Or.inl (by rw [Nat.zero_mul, Nat.zero_sub])⟩
  | succ n ih => rw [Nat.succ_mul]; exact bufStep_inv ih

theorem unflushed_short {m : Nat} {out : List Nat} (h : (unflushed m out).length < 4096) : unflushed m out = [] := by
  have hi := bufStep_inv (n := out.length % pieceOf m) (bufFull_inv (pieceOf m) (out.length / pieceOf m))
  have hd : out.length / pieceOf m * pieceOf m + out.length % pieceOf m = out.length := by
    rw [Nat.mul_comm]; exact Nat.div_add_mod _ _
  rw [hd] at hi
  change bufLeft (pieceOf m) out.length ≤ 4096 ∧ bufLeft (pieceOf m) out.length ≤ out.length ∧
    (out.length - bufLeft (pieceOf m) out.length = 0 ∨ 4096 ≤ out.length - bufLeft (pieceOf m) out.length) at hi
  unfold unflushed at h ⊢
  rw [List.length_take] at h
  rcases hi.2.2 with h0 | h0
  · rw [h0, List.take_zero]
  · omega

theorem extractOneStream_short {oth : Oth} {tab : Arr} {hf hf' : Hf} {h : Hdr} {inp x : List Nat}
    (hd : extractOneStream oth tab hf h inp = .ok (.error (hf', x))) (hx : x.length < 4096) : x = [] := by
  unfold extractOneStream at hd
  split at hd
  · cases hd; rfl
  · split at hd
    · obtain ⟨d, _, h2⟩ := bind_ok hd
      split at h2
      · cases h2; exact unflushed_short hx
      · cases h2
    · cases hd; rfl

theorem extractBytesLoop_verified {f : Fmt} {oth : Oth} (hoth : OthCrc oth)
    {tab : Arr} (ht : CrcTab tab) {a want : List Nat}
    (hst1 : ∀ m h o p inp d, decodeLzhuf oth tab m h o p inp = .ok d → ∃ k, d.rest = inp.drop k) (n : Nat) :
    ∀ {h : Hdr} {hf : Hf} {data : List Nat} {k : Nat} {r : ReadOut}, data = [] ∨ Verified f tab a want data →
    extractBytesLoop f oth tab want n h hf data (a.drop k) = .ok r → (r.err = false ∨ r.data.length < 4096) → r.data = [] ∨ Verified f tab a want r.data := by
  induction n with
  | zero => intro h hf data k r _ hr; cases hr
  | succ n ih =>
    intro h hf data k r hv hr he
    unfold extractBytesLoop at hr
    obtain ⟨x, hx, hr⟩ := bind_ok hr
    split at hr
    · cases hr; exact hv
    · cases hr; exact hv
    · cases hr; exact hv
    · rename_i g rest
      obtain ⟨_, k1, _, hk1⟩ := getHeader_got hx
      rw [List.drop_drop] at hk1
      split at hr
      · rename_i hname
        obtain ⟨y, hy, hr⟩ := bind_ok hr
        split at hr
        · cases hr
          rcases he with he | he
          · cases he
          · exact Or.inl (extractOneStream_short hy he)
        · rename_i d
          have hver : Verified f tab a want d.out := ⟨k, h, g, rest, hx, hname, fun hm => extractOneStream_crc hoth ht hm hy⟩
          obtain ⟨k2, hk2⟩ : ∃ k, d.rest = rest.drop k := by
            unfold extractOneStream at hy
            split at hy
            · cases hy
            · split at hy
              · obtain ⟨x, h1, hd⟩ := bind_ok hy
                split at hd
                · cases hd
                · cases hd; exact hst1 _ _ _ _ _ _ h1
              · cases hy
          rw [hk1, List.drop_drop] at hk2
          split at hr
          · split at hr
            · cases hr; exact Or.inr hver
            · rename_i r' hsk
              unfold skipTo at hsk
              cases hrd : readF g.packedSize d.rest with
              | none => rw [hrd] at hsk; cases hsk
              | some z =>
                rw [hrd] at hsk
                cases hsk
                rw [(readF_some hrd).2, hk2, List.drop_drop] at hr
                exact ih (Or.inr hver) hr he
          · rw [hk2] at hr
            exact ih (Or.inr hver) hr he
      · unfold skipTo at hr
        cases hrd : readF g.packedSize rest with
        | none =>
          rw [hrd] at hr
          have : (Option.map Prod.snd (none : Option (List Nat × List Nat))).getD [] = a.drop a.length := by simp
          rw [this] at hr
          exact ih hv hr he
        | some z =>
          rw [hrd] at hr
          simp only [Option.map_some, Option.getD_some] at hr
          rw [(readF_some hrd).2, hk1, List.drop_drop] at hr
          exact ih hv hr he

/-- What every decoder leaves of the input is the end of the input. -/
def OthRest (oth : Oth) : Prop := ∀ m h o p inp d, oth m h o p inp = .ok d → ∃ k, d.rest = inp.drop k

theorem decodeLzhuf_rest {oth : Oth} (hoth : OthRest oth) {tab : Arr} (m : Nat) (h : Hf) (o p : Nat) (inp : List Nat) (d : DecOut)
    (hd : decodeLzhuf oth tab m h o p inp = .ok d) : ∃ k, d.rest = inp.drop k := by
  unfold decodeLzhuf at hd
  split at hd
  · obtain ⟨⟨x, n, rest⟩, h1, h2⟩ := bind_ok hd
    cases h2
    unfold copyfile at h1
    split at h1
    · obtain ⟨⟨y, n'⟩, _, h3⟩ := bind_ok h1
      cases h3
      exact ⟨inp.length, by simp⟩
    · cases h1; exact ⟨0, rfl⟩
  · split at hd
    · exact ⟨_, (decodeSt1_adv hd).1⟩
    · split at hd
      · exact ⟨_, (decodeSt1_adv hd).1⟩
      · split at hd
        · exact ⟨_, (decodeSt1_adv hd).1⟩
        · split at hd
          · exact ⟨_, (decodeSt1_adv hd).1⟩
          · exact hoth _ _ _ _ _ _ hd

/-- The same with the decoders of lh1-lh3, lzs, lz5 and pm2 as a parameter. -/
theorem decompresBytes_verified (f : Fmt) (oth : Oth) (hoth : OthCrc oth) (hrest : OthRest oth) (tab : Arr) (ht : makeCrcTable = .ok tab)
    (sfx : Bool) (want : List Nat) (hf : Hf) (a : List Nat) (r : ReadOut)
    (hr : decompresBytes f oth tab sfx want hf (some a) = .ok r) (he : r.err = false ∨ r.data.length < 4096) :
    r.data = [] ∨ Verified f tab a want r.data := by
  obtain ⟨tab', ht1, ht2⟩ := makeCrcTable_ok
  rw [ht1] at ht
  cases ht
  unfold decompresBytes at hr
  simp only [] at hr
  split at hr
  · obtain ⟨a', h1, h2⟩ := bind_ok hr
    unfold seekLhaHeader at h1
    obtain ⟨_, _, h3⟩ := bind_ok h1
    cases h3
    exact extractBytesLoop_verified hoth ht2 (decodeLzhuf_rest hrest) _ (Or.inl rfl) h2 he
  · rw [ok_bind] at hr
    exact extractBytesLoop_verified (k := 0) hoth ht2 (decodeLzhuf_rest hrest) _ (Or.inl rfl) hr he

/-- **C11**, the part that holds.  (Full statement: the same for stored entries.)  Whatever the archive file contains: if `DecompresBytes`
returns data and no error, there is an entry of that name in the archive and, unless it is a stored one (lh0, lz4, pm0), the checksum of the
data is that in the header of the entry. -/
theorem C11_verified_partial (f : Fmt) (tab : Arr) (ht : makeCrcTable = .ok tab) (sfx : Bool) (want : List Nat) (hf : Hf) (a : List Nat)
    (r : ReadOut) (hr : decompresBytes f (others tab) tab sfx want hf (some a) = .ok r) (he : r.err = false) :
    r.data = [] ∨ Verified f tab a want r.data := by
  obtain ⟨tab', ht1, ht2⟩ := makeCrcTable_ok
  have ht' := ht
  rw [ht1] at ht'
  cases ht'
  exact decompresBytes_verified f (others tab) (fun m h o p inp d hd => others_crc ht2 m h o p inp d hd)
    (fun m h o p inp d hd => others_rest m h o p inp d hd) tab ht sfx want hf a r hr (Or.inl he)

/-- An entry stored at the end of an archive without end mark. -/
theorem read_stored (f : Fmt) (oth : Oth) (tab : Arr) (gst : Nat) (h : Hdr) (ho : EntryOk h 0) (D : List Nat) (hD : D.length % 2048 = 0)
    (hne : D ≠ []) (h1 : h.originalSize = D.length) (h2 : h.packedSize = D.length) (hf : Hf) :
    ∃ g, getHeader f tab newHdr (writeLevel0 f gst h ((h.name ++ [0]).map (wByte f)) ++ D) = .ok (.got g D) ∧ g.method = lh0 ∧
      g.hasCrc = true ∧ g.crc = h.crc ∧
      (h.crc = 0 → decompresBytes f oth tab false g.name hf (some (writeLevel0 f gst h ((h.name ++ [0]).map (wByte f)) ++ D)) = .ok ⟨false, D, hf⟩) ∧
      (h.crc ≠ 0 → decompresBytes f oth tab false g.name hf (some (writeLevel0 f gst h ((h.name ++ [0]).map (wByte f)) ++ D)) = .ok ⟨true, unflushed 0 D, hf⟩) := by
  obtain ⟨g, e, e1, e2, e3, e4, e5, e6, e7, e8⟩ := entry_read f tab gst h 0 ho D
  have hl : 0 < D.length := List.length_pos_iff.mpr hne
  obtain ⟨pad, c1, c2⟩ := copyfile_ok D.length hl D
  rw [hD] at c2
  have hpad : pad = [] := List.length_eq_zero_iff.mp (by rw [c2])
  rw [hpad, List.append_nil] at c1
  obtain ⟨k, hk⟩ : ∃ k, (writeLevel0 f gst h ((h.name ++ [0]).map (wByte f)) ++ D).length + 1 = k + 2 :=
    ⟨(writeLevel0 f gst h ((h.name ++ [0]).map (wByte f)) ++ D).length - 1, by rw [List.length_append]; omega⟩
  have hdec : decodeLzhuf oth tab 0 hf g.originalSize g.packedSize D = .ok ⟨D, 0, D.length, [], hf⟩ := by
    unfold decodeLzhuf
    rw [if_pos (Or.inl rfl), e3, h1, c1]
    rfl
  refine ⟨g, e, ?_, e5, e4, ?_, ?_⟩
  · have := List.findIdx?_eq_some_iff_getElem.mp ho.idx
    obtain ⟨_, h3, _⟩ := this
    simp only [decide_eq_true_eq] at h3
    rw [e1, ← h3]; rfl
  · intro hc
    have hv : extractOneStream oth tab hf g D = .ok (.ok ⟨D, 0, D.length, [], hf⟩) := by
      unfold extractOneStream
      simp only [e1, ho.idx]
      rw [if_pos ⟨e6, ho.ndir⟩, hdec, ok_bind]
      simp only []
      rw [if_neg (by rw [e4, hc]; simp)]
    unfold decompresBytes
    simp only [Bool.false_eq_true, if_false]
    rw [ok_bind, hk]
    unfold extractBytesLoop
    rw [e, ok_bind]
    simp only []
    rw [if_pos trivial, hv, ok_bind]
    simp only []
    rw [if_neg (by rw [e2, h2]; simp)]
    unfold extractBytesLoop
    rfl
  · intro hc
    have hv : extractOneStream oth tab hf g D = .ok (.error (hf, unflushed 0 D)) := by
      unfold extractOneStream
      simp only [e1, ho.idx]
      rw [if_pos ⟨e6, ho.ndir⟩, hdec, ok_bind]
      simp only []
      rw [if_pos ⟨e5, by rw [e4]; exact Ne.symm hc⟩]
    unfold decompresBytes
    simp only [Bool.false_eq_true, if_false]
    rw [ok_bind, hk]
    unfold extractBytesLoop
    rw [e, ok_bind]
    simp only []
    rw [if_pos trivial, hv, ok_bind]

/-- A header of an entry of any size, method, checksum. -/
theorem some_entry (mi : Nat) (hmi : mi < 14) (hd : mi ≠ 11) (n k c : Nat) (hn : n < 2 ^ 32) (hk : k < 2 ^ 32) (hc : c < 2 ^ 16) :
    ∃ h, EntryOk h mi ∧ h.originalSize = n ∧ h.packedSize = k ∧ h.crc = c := by
  obtain ⟨i1, i2, i3, i4, i5, i6, i7, i8, i9⟩ := initHeader_facts ⟨0, 0o644, 0, 0, fun _ => ⟨1970, 1, 1, 0, 0, 0⟩⟩ (by decide) [97] 0
  generalize initHeader ⟨0, 0o644, 0, 0, fun _ => ⟨1970, 1, 1, 0, 0, 0⟩⟩ 0 [97] 0 false = h0 at *
  have key : ∀ i : Fin 14, (methods.getD i.val []).length = 5 ∧ methods.findIdx? (· = methods.getD i.val []) = some i.val := by decide
  exact ⟨{ h0 with method := methods.getD mi [], originalSize := n, packedSize := k, crc := c },
    ⟨i1, (key ⟨mi, hmi⟩).1, hk, hn, hc, i3, i4, i5, (key ⟨mi, hmi⟩).2, hd⟩, rfl, rfl, rfl⟩

/-- **C11 is false** for stored entries: every content `D` whose length is a multiple of 2048 is returned without an error from an archive that
says its checksum is 0, be that so or not; and if the archive says its checksum is anything else, right or wrong, the content is refused. -/
theorem C11_false (f : Fmt) (oth : Oth) (tab : Arr) (hf : Hf) (D : List Nat) (hne : D ≠ []) (hD : D.length % 2048 = 0) (hlen : D.length < 2 ^ 32)
    (c : Nat) (hc : c < 2 ^ 16) : ∃ a g, getHeader f tab newHdr a = .ok (.got g D) ∧ g.method = lh0 ∧ g.hasCrc = true ∧ g.crc = c ∧
      (c = 0 → decompresBytes f oth tab false g.name hf (some a) = .ok ⟨false, D, hf⟩) ∧
      (c ≠ 0 → ∃ x, decompresBytes f oth tab false g.name hf (some a) = .ok ⟨true, x, hf⟩) := by
  obtain ⟨h, ho, h1, h2, h3⟩ := some_entry 0 (by decide) (by decide) D.length D.length c hlen hlen hc
  obtain ⟨g, e1, e2, e3, e4, e5, e6⟩ := read_stored f oth tab 0 h ho D hD hne h1 h2 hf
  exact ⟨_, g, e1, e2, e3, by rw [e4, h3], fun hc => e5 (by rw [h3, hc]), fun hc => ⟨_, e6 (by rw [h3]; exact hc)⟩⟩

theorem crc16_zeros (n : Nat) : ∀ s, s < 65536 → crc16 s (List.replicate n 0) = 0 → s = 0 := by
  induction n with
  | zero => intro s _ h; exact h
  | succ n ih =>
    intro s hs h
    rw [List.replicate_succ, show (0 :: List.replicate n 0 : List Nat) = [0] ++ List.replicate n 0 from rfl, crc16_append] at h
    have h2 := ih _ (crc16_lt _ _ hs) h
    have h3 : crc16 s [0] = stpN 8 s := crcBits_zeros 8 s
    exact stpN_eq_zero 8 s hs (h3 ▸ h2)

/-- A content of the right length whose checksum is not 0. -/
example : (65 :: List.replicate 2047 0).length % 2048 = 0 ∧ crc16 0 (65 :: List.replicate 2047 0) ≠ 0 := by
  refine ⟨by rw [List.length_cons, List.length_replicate], ?_⟩
  intro h
  rw [show ∀ l : List Nat, 65 :: l = [65] ++ l from fun _ => rfl, crc16_append] at h
  exact absurd (crc16_zeros _ _ (crc16_lt _ _ (by decide)) h) (by decide)

/-- The hypotheses of `C11_verified_partial` are met, with non-empty data, by the archives of C01 (`C01_round_trip_partial` gives a call that
returns data and no error) and by this one. -/
example (f : Fmt) (tab : Arr) (hf : Hf) : ∃ a want r, decompresBytes f (others tab) tab false want hf (some a) = .ok r ∧ r.err = false ∧ r.data ≠ [] := by
  have hne : List.replicate 2048 0 ≠ [] := fun h => by
    have := congrArg List.length h
    rw [List.length_replicate] at this
    exact absurd this (by decide)
  obtain ⟨a, g, _, _, _, _, h, _⟩ := C11_false f (others tab) tab hf (List.replicate 2048 0) hne (by rw [List.length_replicate])
    (by rw [List.length_replicate]; decide) 0 (by decide)
  exact ⟨a, _, _, h rfl, rfl, hne⟩

end Lha
