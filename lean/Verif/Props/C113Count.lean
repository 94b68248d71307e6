import Verif.Props.C113
/-!
# C113, how often

`Verif/Props/C113.lean` says where the control characters of a listing come from; here: how many there are.
-/

namespace Lha

open Spec

/-- Printable, or a line feed. -/
def Plain (l : List Nat) : Prop := ∀ c ∈ l, Printable c ∨ c = 10

namespace Plain

instance (l : List Nat) : Decidable (Plain l) := inferInstanceAs (Decidable (∀ c ∈ l, (32 ≤ c ∧ c ≠ 127) ∨ c = 10))

theorem nil : Plain [] := fun c hc => by cases hc

theorem append {a b : List Nat} (ha : Plain a) (hb : Plain b) : Plain (a ++ b) := fun c hc => (List.mem_append.mp hc).elim (ha c) (hb c)

theorem ite {p : Prop} [Decidable p] {a b : List Nat} (ha : Plain a) (hb : Plain b) : Plain (if p then a else b) := by
  by_cases h : p
  · rw [if_pos h]; exact ha
  · rw [if_neg h]; exact hb

theorem ite_str {p : Prop} [Decidable p] {a b : String} (ha : Plain (str a)) (hb : Plain (str b)) : Plain (str (if p then a else b)) := by
  by_cases h : p
  · rw [if_pos h]; exact ha
  · rw [if_neg h]; exact hb

theorem spaces (n : Nat) : Plain (List.replicate n 32) := fun c hc => by
  rw [(List.mem_replicate.mp hc).2]
  exact Or.inl ⟨by omega, by omega⟩

theorem quiet {a : List Nat} (h : Quiet a) : Plain a := by
  intro c hc
  induction h with
  | nil => simp at hc
  | lf _ ih => rcases List.mem_cons.mp hc with rfl | hc; exacts [Or.inr rfl, ih hc]
  | ascii h1 h2 _ ih => rcases List.mem_cons.mp hc with rfl | hc; exacts [Or.inl ⟨h1, by omega⟩, ih hc]
  | latin h1 h2 h3 _ ih =>
    rcases List.mem_cons.mp hc with rfl | hc
    · exact Or.inl ⟨by omega, by omega⟩
    · rcases List.mem_cons.mp hc with rfl | hc
      · exact Or.inl ⟨by omega, by omega⟩
      · exact ih hc

theorem dec (n : Nat) : Plain (dec n) := quiet (quiet_dec n)

theorem padl {a : List Nat} (w : Nat) (h : Plain a) : Plain (padl w a) := (spaces _).append h

theorem padr {a : List Nat} (w : Nat) (h : Plain a) : Plain (padr w a) := h.append (spaces _)

theorem hex4 (n : Nat) : Plain (hex4 n) := by
  unfold Lha.hex4
  intro c hc
  rcases List.mem_append.mp hc with hc | hc
  · rw [(List.mem_replicate.mp hc).2]; exact Or.inl ⟨by decide, by decide⟩
  · have := (hex_digits n).1 c hc
    exact Or.inl ⟨by omega, by omega⟩

theorem size (k : Look) (p o : Nat) : Plain (sizeText k p o) := by
  unfold sizeText percentText
  exact ((((Plain.ite ((padl 7 (dec p)).append (by decide)) nil).append (padl 7 (dec o))).append (by decide)).append (Plain.ite (by decide)
    ((padl 5 (((dec _).append (by decide)).append (dec _))).append (by decide))))

theorem perm (mode : Nat) : Plain ((permChars mode).map Char.toNat) := by
  intro c hc
  obtain ⟨d, hd, rfl⟩ := List.mem_map.mp hc
  simp only [permChars, List.mem_cons, List.not_mem_nil, or_false] at hd
  rcases hd with rfl | rfl | rfl | rfl | rfl | rfl | rfl | rfl | rfl | rfl <;> (split_ifs <;> exact Or.inl ⟨by decide, by decide⟩)

theorem osk (mode : Nat) : Plain (oskChars mode) := by
  intro c hc
  simp only [oskChars, List.mem_cons, List.not_mem_nil, or_false] at hc
  rcases hc with rfl | rfl | rfl | rfl | rfl | rfl | rfl | rfl <;> (split_ifs <;> exact Or.inl ⟨by decide, by decide⟩)

theorem label (t : Nat) : Plain (str (systemLabel t)) := by
  unfold systemLabel
  iterate 12 refine ite_str (by decide +kernel) ?_
  decide +kernel

theorem bar (k : Look) : Plain (barText k) := by
  unfold barText
  split_ifs <;> decide +kernel

theorem head (k : Look) : Plain (headText k) := by
  unfold headText
  refine Plain.append ?_ (bar k)
  split_ifs <;> decide +kernel

theorem tail (k : Look) (a b c : Nat) : Plain (tailText k a b c) := by
  unfold tailText
  have hs : Plain [if a = 1 then 32 else 115] := by split_ifs <;> decide
  exact ((((((((((bar k).append (by decide)).append (padl 9 (dec a))).append (by decide)).append hs).append (by decide)).append (size k b c)).append (by decide)).append
    (Plain.ite (spaces 11) nil)).append (spaces _)).append (by decide)

/-- None of a control character other than the line feed. -/
theorem count {a : List Nat} (h : Plain a) {c : Nat} (h1 : ¬ Printable c) (h2 : c ≠ 10) : a.count c = 0 :=
  List.count_eq_zero.mpr fun hc => (h c hc).elim h1 h2

end Plain

/-- The NULs printed for an entry that are not of its texts: one behind the permissions of Unix entries, one behind the method in the full style (and one for each byte the
method is shorter than five). -/
def ownNuls (k : Look) (g : Hdr) : Nat := (if g.extendType = 0x55 then 1 else 0) + if k.full then 1 + (5 - g.method.length) else 0

section
variable {c : Nat} (h1 : ¬ Printable c) (h2 : c ≠ 10)
include h1 h2

theorem count_name (h : Hdr) : (nameText h).count c ≤ h.name.count c + h.realname.count c := by
  unfold nameText
  split_ifs
  · omega
  · rw [List.count_append, List.count_append, Plain.count (show Plain (str " -> ") by decide) h1 h2]
    omega

theorem count_perm (h : Hdr) : (permText h).count c ≤ if c = 0 then (if h.extendType = 0x55 then 1 else 0) else 0 := by
  have hnul : ([0, 32] : List Nat).count c = if c = 0 then 1 else 0 := by
    by_cases h : c = 0
    · subst h; rfl
    · rw [if_neg h]
      refine List.count_eq_zero.mpr fun hc => ?_
      simp only [List.mem_cons, List.not_mem_nil, or_false] at hc
      rcases hc with hc | hc
      · exact h hc
      · exact h1 (by subst hc; exact ⟨by decide, by decide⟩)
  unfold permText
  by_cases a1 : h.extendType = 0x55
  · rw [if_pos a1, if_pos a1, List.count_append, Plain.count (Plain.perm _) h1 h2, hnul]
    omega
  · rw [if_neg a1]
    refine le_of_eq_of_le (Plain.count ?_ h1 h2) (Nat.zero_le _)
    refine Plain.ite Plain.nil (Plain.ite ((Plain.osk _).append (by decide)) (Plain.padr 11 fun c hc => ?_))
    exact Plain.label _ c (List.mem_of_mem_take hc)

theorem count_owner {h : Hdr} {t : List Nat} (ht : ownerText h = .ok t) : t.count c ≤ h.user.count c + h.group.count c := by
  unfold ownerText at ht
  split at ht
  · obtain ⟨u, hu, ht⟩ := bind_ok ht
    obtain ⟨g, hg, ht⟩ := bind_ok ht
    cases ht
    have key : ∀ {name : List Nat} {id : Nat} {x : List Nat ⊕ Nat}, ownerOf name id = .ok x → ∀ n, x = .inl n → n = name := by
      intro name id x hx n hn
      unfold ownerOf at hx
      split at hx
      · cases hx
      · split at hx
        · cases hx; cases hn; rfl
        · cases hx; cases hn
    have k1 : (match u with | .inl n => padl 5 (n.take 5) | .inr i => padl 5 (dec i)).count c ≤ h.user.count c := by
      cases u with
      | inl n =>
        have := key hu n rfl
        subst this
        simp only []
        unfold padl
        rw [List.count_append, Plain.count (Plain.spaces _) h1 h2, Nat.zero_add]
        exact (List.take_sublist 5 _).count_le c
      | inr i => rw [Plain.count (Plain.padl 5 (Plain.dec i)) h1 h2]; omega
    have k2 : (match g with | .inl n => padr 5 (n.take 5) | .inr i => padr 5 (dec i)).count c ≤ h.group.count c := by
      cases g with
      | inl n =>
        have := key hg n rfl
        subst this
        simp only []
        unfold padr
        rw [List.count_append, Plain.count (Plain.spaces _) h1 h2, Nat.add_zero]
        exact (List.take_sublist 5 _).count_le c
      | inr i => rw [Plain.count (Plain.padr 5 (Plain.dec i)) h1 h2]; omega
    rw [List.count_append, List.count_append, List.count_append, Plain.count (show Plain [47] by decide) h1 h2, Plain.count (show Plain [32] by decide) h1 h2]
    rw [Nat.add_zero, Nat.add_zero]
    exact Nat.add_le_add k1 k2
  · cases ht
    rw [Plain.count (Plain.spaces _) h1 h2]; omega

theorem count_method (m : List Nat) : ((m ++ List.replicate 5 0).take 5).count c ≤ m.count c + if c = 0 then 5 - m.length else 0 := by
  rw [List.take_append, List.count_append, List.take_replicate, List.count_replicate]
  have := (List.take_sublist 5 m).count_le c
  have e : (0 == c) = decide (c = 0) := by
    by_cases h : c = 0
    · subst h; rfl
    · simp [h]; omega
  rw [e]
  split_ifs with a b <;> simp_all

theorem count_row {k : Look} {h : Hdr} {t : List Nat} (ht : rowText k h = .ok t) : t.count c ≤ (texts h).count c + if c = 0 then ownNuls k h else 0 := by
  unfold rowText at ht
  obtain ⟨o, ho, ht⟩ := bind_ok ht
  cases ht
  have a1 := count_name h1 h2 h
  have a2 := count_perm h1 h2 h
  have a3 := count_owner h1 h2 ho
  have a4 := count_method h1 h2 h.method
  have b1 : ([32] : List Nat).count c = 0 := Plain.count (by decide) h1 h2
  have b2 : ([10] : List Nat).count c = 0 := Plain.count (by decide) h1 h2
  have b3 : ([0] : List Nat).count c = if c = 0 then 1 else 0 := by
    by_cases h : c = 0
    · subst h; rfl
    · rw [if_neg h]; exact List.count_eq_zero.mpr (by simpa using h)
  have b4 : (if h.hasCrc then hex4 h.crc else str "****").count c = 0 := Plain.count (Plain.ite (Plain.hex4 _) (by decide)) h1 h2
  have b5 : (str " [" ++ dec h.level ++ str "]").count c = 0 := Plain.count (((show Plain (str " [") by decide).append (Plain.dec _)).append (by decide)) h1 h2
  have b6 : (stampText k).count c = 0 := Plain.count (Plain.spaces _) h1 h2
  have b7 : (sizeText k h.packedSize h.originalSize).count c = 0 := Plain.count (Plain.size _ _ _) h1 h2
  unfold ownNuls texts
  cases k.verbose <;> cases k.full <;>
    simp only [List.count_append, List.count_nil, Bool.false_eq_true, if_true, if_false, b1, b2, b3, b4, b6, b7] at a1 a2 a3 a4 b5 ⊢ <;>
    by_cases hc : c = 0 <;> simp only [hc, if_true, if_false] at a1 a2 a3 a4 b5 ⊢ <;> omega

theorem listLoopT_count (f : Fmt) (tab : Arr) (o : Opts) (k : Look) : ∀ (n : Nat) (h : Hdr) (err : Bool) (text : List Nat) (a b d : Nat) (inp : List Nat)
    (err' : Bool) (text' : List Nat) (a' b' d' : Nat), listLoopT f tab o k n h err text a b d inp = .ok (err', text', a', b', d') →
    ∃ gs, Headed f tab h inp gs ∧ text'.count c ≤ text.count c + (gs.map fun g => (texts g).count c + if c = 0 then ownNuls k g else 0).sum := by
  intro n
  induction n with
  | zero => intro h err text a b d inp err' text' a' b' d' hl; cases hl
  | succ n ih =>
    intro h err text a b d inp err' text' a' b' d' hl
    unfold listLoopT at hl
    obtain ⟨x, hx, hl⟩ := bind_ok hl
    cases x with
    | eof => cases hl; exact ⟨[], .stop, by simp⟩
    | bad => cases hl; exact ⟨[], .stop, by simp⟩
    | fin => cases hl; exact ⟨[], .stop, by simp⟩
    | got g rest =>
      simp only [] at hl
      by_cases hn : needFile o g.name
      · rw [if_pos hn] at hl
        obtain ⟨r, hr, hl⟩ := bind_ok hl
        obtain ⟨gs, w, e⟩ := ih _ _ _ _ _ _ _ _ _ _ _ _ hl
        refine ⟨g :: gs, .next hx w, ?_⟩
        have := count_row h1 h2 hr
        rw [List.count_append] at e
        rw [List.map_cons, List.sum_cons]
        omega
      · rw [if_neg hn] at hl
        obtain ⟨gs, w, e⟩ := ih _ _ _ _ _ _ _ _ _ _ _ _ hl
        refine ⟨g :: gs, .next hx w, ?_⟩
        rw [List.map_cons, List.sum_cons]
        omega

/-- **C113 (partial), how often.**  A control character other than the line feed is printed at most as often as it stands in the texts of the headers read; a NUL once more for each
Unix entry, and once more for each entry in the full style. -/
theorem C113_count_partial (f : Fmt) (tab : Arr) (o : Opts) (k : Look) (a : List Nat) (err : Bool) (text : List Nat)
    (h : commandListT f tab o k (some a) = .ok (err, text)) :
    ∃ gs, Headed f tab newHdr a gs ∧ text.count c ≤ (gs.map fun g => (texts g).count c + if c = 0 then ownNuls k g else 0).sum := by
  unfold commandListT at h
  simp only [] at h
  obtain ⟨⟨err1, text1, n1, p1, o1⟩, hl, h⟩ := bind_ok h
  cases h
  obtain ⟨gs, w, e⟩ := listLoopT_count h1 h2 f tab o k _ _ _ _ _ _ _ _ _ _ _ _ _ hl
  refine ⟨gs, w, ?_⟩
  rw [Plain.count (Plain.ite Plain.nil (Plain.head k)) h1 h2] at e
  rw [List.count_append, Plain.count (Plain.ite Plain.nil (Plain.tail k _ _ _)) h1 h2]
  show text1.count c + 0 ≤ _
  omega

end

/-- The theorem speaks about NUL and ESC. -/
example : ¬ Printable 0 ∧ 0 ≠ 10 ∧ ¬ Printable 27 ∧ 27 ≠ 10 := ⟨fun h => absurd h.1 (by decide), by decide, fun h => absurd h.1 (by decide), by decide⟩

end Lha
