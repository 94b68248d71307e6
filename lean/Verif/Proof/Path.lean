import Verif.Spec.Path
import Verif.Proof.Archive
/-!
# File names on extraction
-/

namespace Lha

open Spec

theorem comps_cons (l : List Nat) : ∃ h t, comps l = h :: t := by
  cases l with
  | nil => exact ⟨_, _, rfl⟩
  | cons c l =>
    unfold comps
    split
    · exact ⟨_, _, rfl⟩
    · split <;> exact ⟨_, _, rfl⟩

/-- What the automaton has accepted in each state. -/
def TravOk (s : Nat) (h : List Nat) : Prop := (s = 0 ∧ h = [0x2e, 0x2e]) ∨ (s = 1 ∧ h = [0x2e]) ∨ (s = 2 ∧ h = [])

theorem trav_sound (l : List Nat) : ∀ (s : Nat) (h : List Nat) (t : List (List Nat)), comps l = h :: t → travLoop s l = true →
    TravOk s h ∨ [0x2e, 0x2e] ∈ t := by
  induction l with
  | nil =>
    intro s h t hc ht
    cases hc
    unfold travLoop at ht
    left; right; right
    exact ⟨by simpa using ht, rfl⟩
  | cons c l ih =>
    intro s h t hc ht
    obtain ⟨h', t', hc'⟩ := comps_cons l
    unfold comps at hc
    by_cases hs : c = 0x2f
    · rw [if_pos hs] at hc
      cases hc
      rw [hc']
      unfold travLoop at ht
      match s, ht with
      | 0, ht =>
        simp only [hs] at ht
        rcases ih 3 h' t' hc' ht with h | h
        · rcases h with h | h | h <;> omega
        · right; exact List.mem_cons_of_mem _ h
      | 1, ht =>
        simp only [hs] at ht
        rcases ih 0 h' t' hc' ht with h | h
        · rcases h with ⟨_, h⟩ | h | h
          · right; rw [h]; exact List.mem_cons_self ..
          · omega
          · omega
        · right; exact List.mem_cons_of_mem _ h
      | 2, ht => left; right; right; exact ⟨rfl, rfl⟩
      | s + 3, ht =>
        simp only [hs, if_true] at ht
        rcases ih 0 h' t' hc' ht with h | h
        · rcases h with ⟨_, h⟩ | h | h
          · right; rw [h]; exact List.mem_cons_self ..
          · omega
          · omega
        · right; exact List.mem_cons_of_mem _ h
    · rw [if_neg hs, hc'] at hc
      cases hc
      unfold travLoop at ht
      match s, ht with
      | 0, ht =>
        simp only [] at ht
        split at ht
        · rename_i hd
          rcases ih 1 h' t hc' ht with h | h
          · rcases h with ⟨h, _⟩ | ⟨_, h⟩ | ⟨h, _⟩
            · omega
            · left; left; exact ⟨rfl, by rw [h, hd]⟩
            · omega
          · right; exact h
        · rcases ih 3 h' t hc' ht with h | h
          · rcases h with h | h | h <;> omega
          · right; exact h
      | 1, ht =>
        simp only [hs] at ht
        split at ht
        · rename_i hd
          rcases ih 2 h' t hc' ht with h | h
          · rcases h with ⟨h, _⟩ | ⟨h, _⟩ | ⟨_, h⟩
            · omega
            · omega
            · left; right; left; exact ⟨rfl, by rw [h, hd]⟩
          · right; exact h
        · rcases ih 3 h' t hc' ht with h | h
          · rcases h with h | h | h <;> omega
          · right; exact h
      | 2, ht =>
        simp only [hs] at ht
        rcases ih 3 h' t hc' ht with h | h
        · rcases h with h | h | h <;> omega
        · right; exact h
      | s + 3, ht =>
        simp only [hs, if_false] at ht
        rcases ih (s + 3) h' t hc' ht with h | h
        · rcases h with h | h | h <;> omega
        · right; exact h

theorem trav_complete (l : List Nat) : ∀ (s : Nat) (h : List Nat) (t : List (List Nat)), comps l = h :: t → [] ∉ t → (s = 0 → h ≠ []) →
    TravOk s h ∨ [0x2e, 0x2e] ∈ t → travLoop s l = true := by
  induction l with
  | nil =>
    intro s h t hc _ _ ht
    cases hc
    unfold travLoop
    rcases ht with (⟨_, h⟩ | ⟨_, h⟩ | ⟨h, _⟩) | h
    · cases h
    · cases h
    · simp [h]
    · cases h
  | cons c l ih =>
    intro s h t hc hne h0 ht
    obtain ⟨h', t', hc'⟩ := comps_cons l
    unfold comps at hc
    by_cases hs : c = 0x2f
    · rw [if_pos hs] at hc
      cases hc
      rw [hc'] at ht hne
      have hne1 : h' ≠ [] := fun e => hne (by rw [e]; exact List.mem_cons_self ..)
      have hne2 : [] ∉ t' := fun e => hne (List.mem_cons_of_mem _ e)
      have key : [0x2e, 0x2e] ∈ h' :: t' → travLoop 0 l = true := by
        intro hm
        refine ih 0 h' t' hc' hne2 (fun _ => hne1) ?_
        rcases List.mem_cons.mp hm with hm | hm
        · left; left; exact ⟨rfl, hm.symm⟩
        · right; exact hm
      unfold travLoop
      match s, ht, h0 with
      | 0, ht, h0 => exact absurd rfl (h0 rfl)
      | 1, ht, h0 =>
        simp only [hs]
        refine key ?_
        rcases ht with (⟨h, _⟩ | ⟨_, h⟩ | ⟨h, _⟩) | h
        · omega
        · cases h
        · omega
        · exact h
      | 2, ht, h0 => simp [hs]
      | s + 3, ht, h0 =>
        simp only [hs, if_true]
        refine key ?_
        rcases ht with (⟨h, _⟩ | ⟨h, _⟩ | ⟨h, _⟩) | h
        · omega
        · omega
        · omega
        · exact h
    · rw [if_neg hs, hc'] at hc
      cases hc
      have hrest : [0x2e, 0x2e] ∈ t → ∀ s, s ≠ 0 → travLoop s l = true := fun hm s hs => ih s h' t hc' hne (fun e => absurd e hs) (Or.inr hm)
      unfold travLoop
      match s, ht with
      | 0, ht =>
        simp only []
        rcases ht with (⟨_, h⟩ | ⟨h, _⟩ | ⟨h, _⟩) | h
        · cases h
          rw [if_pos rfl]
          exact ih 1 _ t hc' hne (by omega) (Or.inl (Or.inr (Or.inl ⟨rfl, rfl⟩)))
        · omega
        · omega
        · exact hrest h _ (by split <;> omega)
      | 1, ht =>
        simp only [hs]
        rcases ht with (⟨h, _⟩ | ⟨_, h⟩ | ⟨h, _⟩) | h
        · omega
        · cases h
          rw [if_pos rfl]
          exact ih 2 _ t hc' hne (by omega) (Or.inl (Or.inr (Or.inr ⟨rfl, rfl⟩)))
        · omega
        · exact hrest h _ (by split <;> simp)
      | 2, ht =>
        simp only [hs]
        rcases ht with (⟨h, _⟩ | ⟨h, _⟩ | ⟨_, h⟩) | h
        · omega
        · omega
        · cases h
        · simp only [if_false]; exact hrest h _ (by omega)
      | s + 3, ht =>
        simp only [hs, if_false]
        rcases ht with (⟨h, _⟩ | ⟨h, _⟩ | ⟨h, _⟩) | h
        · omega
        · omega
        · omega
        · exact hrest h _ (by omega)

/-! ## The name of the file created -/

theorem lastSlash_drop (name : List Nat) : 0x2f ∉ name.drop (lastSlash name + 1) ∧
    (0x2f ∉ name ∨ name[lastSlash name]? = some 0x2f) := by
  rcases split_last_slash name with h | ⟨A, Y, rfl, h⟩
  · exact ⟨fun e => h (List.mem_of_mem_drop e), Or.inl h⟩
  · rw [lastSlash_some A Y h]
    refine ⟨?_, Or.inr (by simp)⟩
    rw [show A ++ 0x2f :: Y = (A ++ [0x2f]) ++ Y by simp, show A.length + 1 = (A ++ [0x2f]).length by simp, List.drop_left]
    exact h

theorem skipSlashes_gt {name : List Nat} (n : Nat) : ∀ {p q : Nat}, skipSlashes name n p = .ok q → p ≤ q ∧ (name[p]? = some 0x2f → p < q) := by
  induction n with
  | zero => intro p q h; cases h
  | succ n ih =>
    intro p q h
    unfold skipSlashes at h
    obtain ⟨c, h1, h2⟩ := bind_ok h
    split at h2
    · have := (ih h2).1
      exact ⟨by omega, fun _ => by omega⟩
    · rename_i hc
      cases h2
      refine ⟨Nat.le_refl _, fun e => ?_⟩
      unfold at_ at h1
      rw [e] at h1
      cases h1
      exact absurd rfl hc

theorem stripDevice_ge {name : List Nat} (n : Nat) : ∀ {p : Nat} {x : Nat × Nat}, stripDevice name n p = .ok x → p ≤ x.1 := by
  induction n with
  | zero => intro p q h; cases h
  | succ n ih =>
    intro p q h
    unfold stripDevice at h
    obtain ⟨c, h1, h2⟩ := bind_ok h
    split at h2
    · cases h2; exact Nat.le_succ _
    · have := ih h2; omega

theorem not_mem_drop {name : List Nat} {a b : Nat} (h : 0x2f ∉ name.drop a) (hab : a ≤ b) : 0x2f ∉ name.drop b := by
  intro e
  apply h
  have : name.drop b = (name.drop a).drop (b - a) := by rw [List.drop_drop]; congr 1; omega
  rw [this] at e
  exact List.mem_of_mem_drop e

theorem set_drop_noslash {name : List Nat} {a p : Nat} (h : 0x2f ∉ name.drop a) : 0x2f ∉ (name.set p 0x2e).drop a := by
  intro e
  obtain ⟨i, hi, he⟩ := List.mem_iff_getElem.mp e
  rw [List.getElem_drop, List.getElem_set] at he
  split at he
  · omega
  · apply h
    rw [← he]
    refine List.mem_iff_getElem.mpr ⟨i, ?_, ?_⟩
    · simpa using hi
    · rw [List.getElem_drop]

theorem oskName_noslash {ext : Nat} {name : List Nat} {p a : Nat} {x : List Nat × Nat} (h : 0x2f ∉ name.drop a) (ha : a ≤ p)
    (hx : oskName ext name p = .ok x) : 0x2f ∉ x.1.drop x.2 := by
  unfold oskName at hx
  split at hx
  · obtain ⟨⟨q, c⟩, h1, h2⟩ := bind_ok hx
    have hq := stripDevice_ge _ h1
    simp only [] at h2 hq
    have hd : ∀ l : List Nat, 0x2f ∉ l.drop a → 0x2f ∉ l.drop q := fun l hl => not_mem_drop hl (by omega)
    split at h2
    · split at h2
      · cases h2; exact hd _ (set_drop_noslash h)
      · cases h2
    · obtain ⟨d, _, h2⟩ := bind_ok h2
      split at h2
      · cases h2; exact hd _ (set_drop_noslash h)
      · cases h2; exact hd _ h
  · cases hx; exact not_mem_drop h ha

theorem makeName_spec {o : Opts} {q : List Nat} {x : Option (List Nat)} (hq : 0x2f ∉ q) (h : makeName o q = .ok x) :
    ∃ n, x = some n ∧ 0x2f ∉ n := by
  unfold makeName at h
  rw [if_neg hq] at h
  split at h
  · split at h
    · cases h
    · cases h; exact ⟨_, rfl, fun e => hq (List.mem_of_mem_take e)⟩
  · simp only [] at h
    split at h
    · cases h; exact ⟨_, rfl, fun e => hq (List.mem_of_mem_take (List.mem_of_mem_drop e))⟩
    · cases h

/-- `entryName` gives no name only when the traversal check fires (in particular `makeName` never gives up), and the name has
no '/'. -/
theorem entryName_spec {o : Opts} {h : Hdr} {x : Option (List Nat × List Nat)} (hx : entryName o h = .ok x) :
    (x = none → o.ignoreDir = false ∧ isDirectoryTraversal (h.name.drop (lastSlash h.name)) = true) ∧
      ∀ n m, x = some (n, m) → 0x2f ∉ n := by
  obtain ⟨k1, k2⟩ := lastSlash_drop h.name
  have fin : ∀ (l q : List Nat) (x : Option (List Nat × List Nat)), 0x2f ∉ q →
      (makeName o q >>= fun n => (.ok (n.map (fun n => (n, l))) : G (Option (List Nat × List Nat)))) = .ok x →
      ∃ n m, x = some (n, m) ∧ 0x2f ∉ n := by
    intro l q x hq hx
    obtain ⟨y, h1, h2⟩ := bind_ok hx
    obtain ⟨n, rfl, hn⟩ := makeName_spec hq h1
    cases h2
    exact ⟨n, l, rfl, hn⟩
  have done : (∃ n m, x = some (n, m) ∧ 0x2f ∉ n) →
      (x = none → o.ignoreDir = false ∧ isDirectoryTraversal (h.name.drop (lastSlash h.name)) = true) ∧ ∀ n m, x = some (n, m) → 0x2f ∉ n := by
    rintro ⟨n, m, rfl, hn⟩
    refine ⟨fun e => (by cases e), fun n' m' e => ?_⟩
    cases e; exact hn
  unfold entryName at hx
  simp only [] at hx
  split at hx
  · split at hx
    · exact done (fin _ _ _ k1 hx)
    · cases hx
  · rename_i hi
    split at hx
    · rename_i ht
      cases hx
      exact ⟨fun _ => ⟨by simpa using hi, ht⟩, fun n m e => by cases e⟩
    · obtain ⟨c, h1, h2⟩ := bind_ok hx
      split at h2
      · rename_i hc
        obtain ⟨p1, h5, h3⟩ := bind_ok h2
        obtain ⟨⟨nm, p⟩, h6, h4⟩ := bind_ok h3
        have hat : h.name[lastSlash h.name]? = some 0x2f := by
          unfold at_ at h1
          split at h1
          · rename_i e; cases h1; rw [e, hc]
          · cases h1
        have hp := (skipSlashes_gt _ h5).2 hat
        exact done (fin _ _ _ (oskName_noslash k1 hp h6) h4)
      · rename_i hc
        rw [ok_bind] at h2
        have hno : 0x2f ∉ h.name := by
          rcases k2 with k2 | k2
          · exact k2
          · unfold at_ at h1
            rw [k2] at h1
            cases h1
            exact absurd rfl hc
        exact done (fin _ _ _ (fun e => hno (List.mem_of_mem_drop e)) h2)

theorem extractOne_noslash {oth : Oth} {tab : Arr} {o : Opts} {fs : Fs} {hf : Hf} {h : Hdr} {inp : List Nat} {x : OneOut}
    (hx : extractOne oth tab o fs hf h inp = .ok (some x)) : ∀ n d, x.file = some (n, d) → 0x2f ∉ n := by
  unfold extractOne at hx
  obtain ⟨y, h1, h2⟩ := bind_ok hx
  have hs := (entryName_spec h1).2
  intro n d hd
  split at h2
  · cases h2
  · rename_i nm hn
    split at h2
    · cases h2
    · split at h2
      · split at h2
        · obtain ⟨dd, _, h3⟩ := bind_ok h2
          cases h3
          cases hd
          exact hs _ _ rfl
        · cases h2; cases hd
      · split at h2
        · split at h2
          · cases h2
          · cases h2; cases hd
        · split at h2
          · cases h2; cases hd
          · cases h2

theorem extractLoop_noslash {f : Fmt} {oth : Oth} {tab : Arr} {o : Opts} {fs : Fs} {need : List Nat → Bool} (n : Nat) :
    ∀ {h : Hdr} {hf : Hf} {files : List (List Nat × List Nat)} {inp : List Nat} {r : FilesOut}, (∀ x ∈ files, 0x2f ∉ x.1) →
    extractLoop f oth tab o fs need n h hf files inp = .ok r → ∀ x ∈ r.files, 0x2f ∉ x.1 := by
  induction n with
  | zero => intro h hf files inp r _ hr; cases hr
  | succ n ih =>
    intro h hf files inp r hfl hr
    unfold extractLoop at hr
    obtain ⟨x, _, hr⟩ := bind_ok hr
    split at hr
    · cases hr; exact hfl
    · cases hr; exact hfl
    · cases hr; exact hfl
    · split at hr
      · obtain ⟨y, h1, hr⟩ := bind_ok hr
        split at hr
        · cases hr; exact hfl
        · rename_i d
          have hfl' : ∀ x ∈ files ++ d.file.toList, 0x2f ∉ x.1 := by
            intro x hx
            rcases List.mem_append.mp hx with hx | hx
            · exact hfl x hx
            · cases hd : d.file with
              | none => rw [hd] at hx; cases hx
              | some y =>
                rw [hd] at hx
                simp at hx
                rw [hx]
                exact extractOne_noslash h1 y.1 y.2 hd
          simp only [] at hr
          split at hr
          · split at hr
            · cases hr; exact hfl'
            · exact ih hfl' hr
          · exact ih hfl' hr
      · exact ih hfl hr

end Lha
