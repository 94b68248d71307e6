import Verif.Model.Extract
import Verif.Proof.Bound
/-!
# C80: self-extracting archives are read like others

The property: from a file whose name ends in `.exe` or `.com`, consisting of a program and an archive behind it (or of an archive only), the same is
extracted as from the archive.
-/

namespace Lha

theorem seekLoop_cases (b : List Nat) (n : Nat) : ∀ i p, seekLoop b n i p = .ok () ∨ seekLoop b n i p = panic := by
  induction n with
  | zero => intro i p; exact Or.inl rfl
  | succ n ih =>
    intro i p
    unfold seekLoop
    split
    · simp only []
      split
      · split
        · exact Or.inl rfl
        · split
          · exact Or.inl rfl
          · exact ih _ _
      · exact ih _ _
    · exact Or.inr rfl

theorem seekLoop_short (b : List Nat) (n : Nat) : ∀ i p, i + n ≤ 32768 → seekLoop b n i p = .ok () := by
  induction n with
  | zero => intro i p _; rfl
  | succ n ih =>
    intro i p hi
    unfold seekLoop
    rw [if_pos (by omega)]
    simp only []
    split
    · split
      · rfl
      · split
        · rfl
        · exact ih _ _ (by omega)
    · exact ih _ _ (by omega)

/-- What is left of the file: nothing of the first 64 KiB. -/
theorem seek_short {a : List Nat} (h : a.length ≤ 32768) : seekLhaHeader a = .ok [] := by
  unfold seekLhaHeader
  simp only []
  rw [seekLoop_short _ _ _ _ (by rw [List.length_take]; omega), ok_bind, List.drop_eq_nil_of_le (by omega)]

theorem seek_cases (a : List Nat) : seekLhaHeader a = .ok (a.drop 65536) ∨ seekLhaHeader a = panic := by
  unfold seekLhaHeader
  simp only []
  rcases seekLoop_cases ((a.take 65536) ++ List.replicate (65536 - (a.take 65536).length) 0) (a.take 65536).length 0 (List.replicate 65536 0) with h | h
  · rw [h]; exact Or.inl rfl
  · rw [h]; exact Or.inr rfl

/-- **C80 is false**: whatever is in a file of at most 32 KiB called `.exe` or `.com`, reading and extracting finds no entry and reports no error. -/
theorem C80_false (f : Fmt) (oth : Oth) (tab : Arr) (o : Opts) (want a : List Nat) (ha : a.length ≤ 32768) (hf : Hf) (s : Sys) :
    decompresBytes f oth tab true want hf (some a) = .ok ⟨false, [], hf⟩ ∧ decompressD f oth tab o true want hf s (some a) = .ok (false, s, hf) ∧
      commandExtractD f oth tab o true hf s (some a) = .ok (false, s, hf) := by
  unfold decompresBytes decompressD commandExtractD
  simp only [if_true]
  rw [seek_short ha]
  exact ⟨rfl, rfl, rfl⟩

/-- **C80 (partial).** Full statement: see the head of the file.  What is true: unless the call panics, what is extracted is what the archive behind the first 64 KiB contains; so a program of exactly
that length is skipped. -/
theorem C80_partial (f : Fmt) (oth : Oth) (tab : Arr) (o : Opts) (want stub a : List Nat) (hs : stub.length = 65536) (hf : Hf) (s : Sys) :
    (∀ r, decompresBytes f oth tab true want hf (some (stub ++ a)) = .ok r → decompresBytes f oth tab false want hf (some a) = .ok r) ∧
    (∀ r, decompressD f oth tab o true want hf s (some (stub ++ a)) = .ok r → decompressD f oth tab o false want hf s (some a) = .ok r) ∧
    ∀ r, commandExtractD f oth tab o true hf s (some (stub ++ a)) = .ok r → commandExtractD f oth tab o false hf s (some a) = .ok r := by
  have hd : (stub ++ a).drop 65536 = a := by rw [← hs]; simp
  have hc := seek_cases (stub ++ a)
  rw [hd] at hc
  unfold decompresBytes decompressD commandExtractD
  simp only [if_true, Bool.false_eq_true, if_false]
  rcases hc with hc | hc <;> rw [hc]
  · exact ⟨fun _ h => h, fun _ h => h, fun _ h => h⟩
  · exact ⟨fun _ h => (by cases h), fun _ h => (by cases h), fun _ h => (by cases h)⟩

/-- `C80_partial` is about calls that return, as they do if the program begins with what looks like a header. -/
theorem seek_stub (stub a : List Nat) (hs : stub.length = 65536) (h2 : stub.getD 2 0 = 0x2d) (h3 : stub.getD 3 0 = 0x6c) (h6 : stub.getD 6 0 = 0x2d)
    (h20 : stub.getD 20 0 = 0) (h0 : stub.getD 0 0 > 20) (h1 : stub.getD 1 0 = 0) : seekLhaHeader (stub ++ a) = .ok a := by
  have ht : (stub ++ a).take 65536 = stub := by rw [← hs]; simp
  have hd : (stub ++ a).drop 65536 = a := by rw [← hs]; simp
  unfold seekLhaHeader
  simp only []
  rw [ht, hd, hs, Nat.sub_self]
  have key : ∀ n, seekLoop (stub ++ List.replicate 0 0) (n + 1) 0 (List.replicate 65536 0) = .ok () := by
    intro n
    have hp : ∀ i, i < 21 → (copyInto (List.replicate 65536 0) (((stub ++ List.replicate 0 0).take (65535 - 0)).drop 0)).getD i 0 = stub.getD i 0 := by
      intro i hi
      unfold copyInto
      have e1 : ((stub ++ List.replicate 0 0).take (65535 - 0)).drop 0 = stub.take 65535 := by simp
      rw [e1, List.length_replicate, List.take_take]
      simp only [List.getD_eq_getElem?_getD]
      rw [List.getElem?_append_left (by rw [List.length_take]; omega), List.getElem?_take_of_lt (by omega)]
    unfold seekLoop
    rw [if_pos (by omega)]
    simp only []
    rw [hp 2 (by omega), hp 3 (by omega), hp 6 (by omega), hp 20 (by omega), hp 0 (by omega), hp 1 (by omega), if_pos ⟨h2, Or.inl h3, h6⟩, if_pos ⟨Or.inl h20, h0, h1⟩]
  rw [key 65535, ok_bind]

/-- Such a program. -/
example (a : List Nat) : seekLhaHeader (([25, 0, 45, 108, 104, 53, 45] ++ List.replicate 65529 0) ++ a) = .ok a := by
  refine seek_stub _ a ?_ rfl rfl rfl ?_ (by decide : 25 > 20) rfl
  · rw [List.length_append, List.length_replicate]; rfl
  · rw [List.getD_eq_getElem?_getD, List.getElem?_append_right (by decide), List.getElem?_replicate, if_pos (by decide)]; rfl

theorem copyInto_mem {p x : List Nat} {c : Nat} (h : c ∈ copyInto p x) : c ∈ p ∨ c ∈ x := by
  unfold copyInto at h
  rcases List.mem_append.1 h with h | h
  · exact Or.inr (List.mem_of_mem_take h)
  · exact Or.inl (List.mem_of_mem_drop h)

theorem seekLoop_crash (b : List Nat) (hb : 0x2d ∉ b) (n : Nat) : ∀ i p, i ≤ 32768 → 32768 < i + n → 0x2d ∉ p → seekLoop b n i p = panic := by
  induction n with
  | zero => intro i p h1 h2; omega
  | succ n ih =>
    intro i p h1 h2 hp
    unfold seekLoop
    by_cases hi : i = 32768
    · rw [if_neg (by omega)]
    · rw [if_pos (by omega)]
      simp only []
      have hq : 0x2d ∉ copyInto p ((b.take (65535 - i)).drop i) := by
        intro h
        rcases copyInto_mem h with h | h
        · exact hp h
        · exact hb (List.mem_of_mem_take (List.mem_of_mem_drop h))
      have h2d : (copyInto p ((b.take (65535 - i)).drop i)).getD 2 0 ≠ 0x2d := by
        rw [List.getD_eq_getElem?_getD]
        intro h
        cases hc : (copyInto p ((b.take (65535 - i)).drop i))[2]? with
        | none => rw [hc] at h; simp at h
        | some c =>
          rw [hc] at h
          have : c = 0x2d := h
          subst this
          exact hq (List.mem_of_getElem? hc)
      rw [if_neg (fun h => h2d h.1)]
      exact ih (i + 1) _ (by omega) (by omega) hq

/-- **C80 is false of longer files, too**: with more than 32 KiB, and no `-` in the first 64 KiB (so that no method name is found there), the calls crash.  (By `seek_cases`
nothing of the first 64 KiB is ever read.) -/
theorem C80_crash (f : Fmt) (oth : Oth) (tab : Arr) (o : Opts) (want a : List Nat) (ha : 32768 < a.length) (hd : 0x2d ∉ a.take 65536) (hf : Hf) (s : Sys) :
    decompresBytes f oth tab true want hf (some a) = panic ∧ decompressD f oth tab o true want hf s (some a) = panic ∧
      commandExtractD f oth tab o true hf s (some a) = panic := by
  have hk : seekLhaHeader a = panic := by
    unfold seekLhaHeader
    simp only []
    rw [seekLoop_crash _ (by
      intro h
      rcases List.mem_append.1 h with h | h
      · exact hd h
      · have := List.eq_of_mem_replicate h
        omega) _ 0 _ (by omega) (by rw [List.length_take]; omega) (by intro h; have := List.eq_of_mem_replicate h; omega)]
    rfl
  unfold decompresBytes decompressD commandExtractD
  simp only [if_true]
  rw [hk]
  exact ⟨rfl, rfl, rfl⟩

/-- Such a file: a program of 40000 bytes. -/
example : 32768 < (List.replicate 40000 144).length ∧ 0x2d ∉ (List.replicate 40000 144).take 65536 := by
  refine ⟨by rw [List.length_replicate]; omega, fun h => ?_⟩
  have := List.eq_of_mem_replicate (List.mem_of_mem_take h)
  omega

end Lha
