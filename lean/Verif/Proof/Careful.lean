import Verif.Proof.Links
/-!
# What extraction does to the current directory
-/

namespace Lha

open Spec

/-- Nothing is ever made by `makeParentPath`: what does not exist is refused before. -/
theorem makeParentPath_state (s : Sys) (n : List Nat) : (makeParentPath s n).2 = s := by
  unfold makeParentPath
  split
  · rfl
  · rfl
  · rfl
  · rename_i x _ hx
    unfold Sys.lstat at hx
    split at hx
    · cases hx
    · split at hx
      · cases hx
      · unfold Sys.mkdirAll
        split
        · rfl
        · split at hx
          · cases hx
          · rename_i y hy
            rw [hy]
            split <;> simp_all

/-- No link is ever made: the real name contains a NUL. -/
theorem symlink_none (s : Sys) {t : List Nat} (ht : 0 ∈ t) (n : List Nat) : symlinkWithMakePath s t n = s := by
  have key : ∀ s : Sys, s.symlink t n = (false, s) := fun s => by unfold Sys.symlink; rw [if_pos (Or.inl ht)]
  unfold symlinkWithMakePath
  rw [key]
  simp only [Bool.false_eq_true, if_false]
  rw [makeParentPath_state, key]

/-- The same contents, whatever the attributes. -/
inductive SameContent : Option Node → Option Node → Prop
  | refl (x) : SameContent x x
  | file (c m m') : SameContent (some (.file c m)) (some (.file c m'))
  | dir (m m') : SameContent (some (.dir m)) (some (.dir m'))

theorem SameContent.trans {a b c : Option Node} (h1 : SameContent a b) (h2 : SameContent b c) : SameContent a c := by
  cases h1 with
  | refl => exact h2
  | file c m m' => cases h2 with
    | refl => exact .file ..
    | file => exact .file ..
  | dir m m' => cases h2 with
    | refl => exact .dir ..
    | dir => exact .dir ..

/-- A regular file. -/
def IsFile (x : Option Node) : Prop := ∃ c m, x = some (.file c m)

theorem SameContent.isFile {a b : Option Node} (h : SameContent a b) : IsFile a ↔ IsFile b := by
  cases h with
  | refl => exact Iff.rfl
  | file c m m' => exact ⟨fun _ => ⟨_, _, rfl⟩, fun _ => ⟨_, _, rfl⟩⟩
  | dir m m' => exact ⟨fun ⟨_, _, h⟩ => (by cases h), fun ⟨_, _, h⟩ => (by cases h)⟩

theorem SameContent.isNone {a b : Option Node} (h : SameContent a b) (hn : b = none) : a = none := by
  subst hn
  cases h
  rfl

/-- From `s` to `s'` while the lines `used` were read.  `lax`: attributes do not count. -/
structure Careful (lax : Bool) (used : List (List Nat)) (s s' : Sys) : Prop where
  answers : s.answers = used ++ s'.answers
  outside : ∃ x, s'.outside = s.outside ++ x ∧ ∀ y ∈ x, lax = true ∧ ∃ n, y = .attr n
  node : ∀ n, (s'.node n = s.node n ∨ lax = true ∧ SameContent (s.node n) (s'.node n)) ∨
    0x2f ∉ n ∧ IsFile (s'.node n) ∧ (s.node n = none ∨ IsFile (s.node n) ∧ ∃ a ∈ used, a.head? = some 0x59)

theorem Careful.refl (lax : Bool) (s : Sys) : Careful lax [] s s :=
  ⟨rfl, ⟨[], by simp, by simp⟩, fun _ => Or.inl (Or.inl rfl)⟩

theorem Careful.trans {lax : Bool} {u v : List (List Nat)} {s s' s'' : Sys} (h : Careful lax u s s') (h' : Careful lax v s' s'') :
    Careful lax (u ++ v) s s'' := by
  refine ⟨by rw [h.answers, h'.answers, List.append_assoc], ?_, ?_⟩
  · obtain ⟨x, x1, x2⟩ := h.outside
    obtain ⟨y, y1, y2⟩ := h'.outside
    refine ⟨x ++ y, by rw [y1, x1, List.append_assoc], fun z hz => ?_⟩
    rcases List.mem_append.mp hz with hz | hz
    · exact x2 z hz
    · exact y2 z hz
  · intro n
    have same : (s'.node n = s.node n ∨ lax = true ∧ SameContent (s.node n) (s'.node n)) → SameContent (s.node n) (s'.node n) := by
      rintro (e | ⟨_, e⟩)
      · rw [e]; exact .refl _
      · exact e
    rcases h.node n with a | ⟨a1, a2, a3⟩
    · rcases h'.node n with b | ⟨b1, b2, b3⟩
      · left
        rcases a with a | ⟨l, a⟩
        · rw [← a]; exact b
        · refine Or.inr ⟨l, a.trans ?_⟩
          rcases b with b | ⟨_, b⟩
          · rw [b]; exact .refl _
          · exact b
      · refine Or.inr ⟨b1, b2, ?_⟩
        rcases b3 with b3 | ⟨b3, y, b4, b5⟩
        · exact Or.inl ((same a).isNone b3)
        · exact Or.inr ⟨(same a).isFile.mpr b3, y, List.mem_append_right _ b4, b5⟩
    · have hf : IsFile (s''.node n) := by
        rcases h'.node n with (b | ⟨_, b⟩) | ⟨_, b2, _⟩
        · rw [b]; exact a2
        · exact b.isFile.mp a2
        · exact b2
      refine Or.inr ⟨a1, hf, ?_⟩
      rcases a3 with a3 | ⟨a3, y, a4, a5⟩
      · exact Or.inl a3
      · exact Or.inr ⟨a3, y, List.mem_append_left _ a4, a5⟩

/-- Only 'Y' is an answer. -/
theorem inquire_ok {ls r : List (List Nat)} (h : inquire ls = .ok r) : ∃ u, ls = u ++ r ∧ ∃ a ∈ u, a.head? = some 0x59 := by
  induction ls with
  | nil => cases h
  | cons l ls ih =>
    unfold inquire at h
    cases l with
    | nil => cases h
    | cons c cs =>
      simp only [] at h
      split at h
      · rename_i hc
        cases h
        exact ⟨[c :: cs], rfl, _, List.mem_cons_self, by simp [hc]⟩
      · obtain ⟨u, h1, a, h2, h3⟩ := ih h
        exact ⟨(c :: cs) :: u, by rw [h1]; rfl, a, List.mem_cons_of_mem _ h2, h3⟩

/-- After a question: what may be there. -/
theorem inquireExtract_ok {s s' : Sys} {n : List Nat} {up : Bool} (h : inquireExtract s false n = .ok (up, s')) :
    ∃ u, s = { s' with answers := u ++ s'.answers } ∧
      (up = true → n = [] ∨ s.node n = none ∨ IsFile (s.node n) ∧ ∃ a ∈ u, a.head? = some 0x59) := by
  unfold inquireExtract at h
  split at h
  · rename_i hl
    cases h
    refine ⟨[], rfl, fun _ => ?_⟩
    unfold Sys.lstat at hl
    split at hl
    · left; assumption
    · split at hl
      · cases hl
      · split at hl
        · right; left; assumption
        · cases hl
  · cases h
    exact ⟨[], rfl, fun h => by cases h⟩
  · rename_i c m hl
    simp only [Bool.false_eq_true, if_false] at h
    obtain ⟨ls, h1, h⟩ := bind_ok h
    cases h
    obtain ⟨u, h2, h3⟩ := inquire_ok h1
    refine ⟨u, ?_, fun _ => Or.inr (Or.inr ⟨?_, h3⟩)⟩
    · show s = { s with answers := u ++ ls }
      rw [← h2]
    · unfold Sys.lstat at hl
      split at hl
      · cases hl
      · split at hl
        · cases hl
        · split at hl
          · cases hl
          · rename_i x hx
            cases hl
            exact ⟨_, _, hx⟩
  · cases h
    exact ⟨[], rfl, fun h => by cases h⟩

/-- Writing or adjusting a file that may be touched. -/
theorem careful_touch {s s1 s2 : Sys} {n : List Nat} {u : List (List Nat)} (lax : Bool) (hs : s = { s1 with answers := u ++ s1.answers })
    (hn : 0x2f ∉ n) (hmay : s.node n = none ∨ IsFile (s.node n) ∧ ∃ a ∈ u, a.head? = some 0x59) (h1 : s2.answers = s1.answers)
    (h2 : s2.outside = s1.outside) (h3 : ∀ m, m ≠ n → s2.node m = s1.node m) (h4 : s2.node n = s1.node n ∨ IsFile (s2.node n)) :
    Careful lax u s s2 := by
  subst hs
  refine ⟨by rw [h1], ⟨[], by rw [h2]; simp, by simp⟩, fun m => ?_⟩
  by_cases hm : m = n
  · subst hm
    rcases h4 with h4 | h4
    · exact Or.inl (Or.inl h4)
    · exact Or.inr ⟨hn, h4, hmay⟩
  · exact Or.inl (Or.inl (h3 m hm))

theorem careful_asked {s s1 : Sys} {u : List (List Nat)} (lax : Bool) (hs : s = { s1 with answers := u ++ s1.answers }) : Careful lax u s s1 := by
  subst hs
  exact ⟨rfl, ⟨[], by simp, by simp⟩, fun m => Or.inl (Or.inl rfl)⟩

/-- Adjusting attributes without having asked. -/
theorem careful_adjust (s : Sys) (n : List Nat) (h : Hdr) : Careful true [] s (adjustInfo s n h) := by
  unfold adjustInfo
  simp only []
  have node : ∀ x, s.lstat n = .is x → s.node n = some x := by
    intro x hx
    unfold Sys.lstat at hx
    split at hx
    · cases hx
    · split at hx
      · cases hx
      · split at hx
        · cases hx
        · cases hx; assumption
  split
  · exact .refl _ _
  · exact .refl _ _
  · rename_i c m hl
    refine ⟨rfl, ⟨[], by simp [Sys.set], by simp⟩, fun k => Or.inl ?_⟩
    by_cases hk : k = n
    · subst hk
      right
      refine ⟨rfl, ?_⟩
      rw [node _ hl]
      simp only [Sys.set, if_true]
      exact .file ..
    · left; simp [Sys.set, hk]
  · rename_i m hl
    refine ⟨rfl, ⟨[], by simp [Sys.set], by simp⟩, fun k => Or.inl ?_⟩
    by_cases hk : k = n
    · subst hk
      right
      refine ⟨rfl, ?_⟩
      rw [node _ hl]
      simp only [Sys.set, if_true]
      exact .dir ..
    · left; simp [Sys.set, hk]
  · refine ⟨rfl, ⟨[.attr n], rfl, ?_⟩, fun k => Or.inl (Or.inl rfl)⟩
    intro y hy
    exact ⟨rfl, n, by simpa using hy⟩

/-- Adjusting the attributes of a regular file, or of nothing. -/
theorem adjustInfo_file (s : Sys) (n : List Nat) (h : Hdr) (hf : n = [] ∨ s.node n = none ∨ IsFile (s.node n)) :
    (adjustInfo s n h).answers = s.answers ∧ (adjustInfo s n h).outside = s.outside ∧ (∀ m, m ≠ n → (adjustInfo s n h).node m = s.node m) ∧
      ((adjustInfo s n h).node n = s.node n ∨ IsFile ((adjustInfo s n h).node n)) ∧ (n = [] → adjustInfo s n h = s) := by
  have hs : n = [] → s.lstat n = .missing := fun e => by unfold Sys.lstat; rw [if_pos e]
  unfold adjustInfo
  simp only []
  split
  · exact ⟨rfl, rfl, fun _ _ => rfl, Or.inl rfl, fun _ => rfl⟩
  · exact ⟨rfl, rfl, fun _ _ => rfl, Or.inl rfl, fun _ => rfl⟩
  · rename_i c m hl
    refine ⟨rfl, rfl, fun k hk => by simp [Sys.set, hk], Or.inr ⟨_, _, if_pos rfl⟩, fun e => ?_⟩
    rw [hs e] at hl; cases hl
  all_goals
    rename_i hl
    exfalso
    rcases hf with hf | hf
    · rw [hs hf] at hl; cases hl
    · unfold Sys.lstat at hl
      split at hl
      · cases hl
      · split at hl
        · cases hl
        · rcases hf with hf | ⟨c, m, hf⟩
          · rw [hf] at hl; cases hl
          · rw [hf] at hl
            cases hl
            first | done | (rename_i h1 h2; exact absurd rfl (h1 _ _))

theorem write_file (s : Sys) (n c : List Nat) (hf : s.node n = none ∨ IsFile (s.node n)) :
    (s.write n c).answers = s.answers ∧ (s.write n c).outside = s.outside ∧ (∀ m, m ≠ n → (s.write n c).node m = s.node m) ∧
      IsFile ((s.write n c).node n) := by
  unfold Sys.write
  rcases hf with hf | ⟨d, m, hf⟩
  · rw [hf]
    exact ⟨rfl, rfl, fun k hk => by simp [Sys.set, hk], _, _, if_pos rfl⟩
  · rw [hf]
    exact ⟨rfl, rfl, fun k hk => by simp [Sys.set, hk], _, _, if_pos rfl⟩

/-- One entry, without `Force`. -/
theorem extractOneD_careful {oth : Oth} {tab : Arr} {o : Opts} (hF : o.force = false) {s s' : Sys} {hf : Hf} {h : Hdr} (hr : RealOk h)
    {inp : List Nat} {r : Option OneOut} (hx : extractOneD oth tab o s hf h inp = .ok (r, s')) : ∃ u, Careful o.ignoreDir u s s' := by
  unfold extractOneD at hx
  obtain ⟨en, he, hx⟩ := bind_ok hx
  split at hx
  · cases hx; exact ⟨[], .refl _ _⟩
  · rename_i name hname
    have hns := (entryName_spec he).2 name hname rfl
    simp only [] at hx
    split at hx
    · cases hx; exact ⟨[], .refl _ _⟩
    · rename_i m _
      split at hx
      · rw [hF] at hx
        obtain ⟨⟨up, s1⟩, h1, hx⟩ := bind_ok hx
        obtain ⟨u, hu, hup⟩ := inquireExtract_ok h1
        simp only [] at hx
        split at hx
        · cases hx; exact ⟨u, careful_asked _ hu⟩
        · rename_i hnot
          have hup' : up = true := by simpa using hnot
          split at hx
          · rename_i hcan
            obtain ⟨d, _, hx⟩ := bind_ok hx
            cases hx
            have hne : name ≠ [] := by
              intro e
              unfold Sys.canCreate at hcan
              rw [e] at hcan
              simp at hcan
            have hmay := (hup hup').resolve_left hne
            have hsn : s.node = s1.node := by rw [hu]
            obtain ⟨w1, w2, w3, w4⟩ := write_file s1 name d.out (by
              rw [← hsn]; exact hmay.imp id And.left)
            exact ⟨u, careful_touch _ hu hns hmay w1 w2 w3 (Or.inr w4)⟩
          · cases hx; exact ⟨u, careful_asked _ hu⟩
      · split at hx
        · split at hx
          · rename_i hig
            cases hx
            rw [hig]
            split
            · exact ⟨[], .refl _ _⟩
            · exact ⟨[], careful_adjust _ _ _⟩
          · split at hx
            · rw [hF] at hx
              obtain ⟨⟨up, s1⟩, h1, hx⟩ := bind_ok hx
              obtain ⟨u, hu, hup⟩ := inquireExtract_ok h1
              simp only [] at hx
              split at hx
              · cases hx; exact ⟨u, careful_asked _ hu⟩
              · rename_i hnot
                have hup' : up = true := by simpa using hnot
                cases hx
                rw [symlink_none s1 hr.nul]
                have hmay := hup hup'
                have hsn : s.node = s1.node := by rw [hu]
                obtain ⟨w1, w2, w3, w4, w5⟩ := adjustInfo_file s1 name { h with name := hname } (by
                  rw [← hsn]; exact hmay.imp id (Or.imp id And.left))
                rcases hmay with hmay | hmay
                · rw [w5 hmay]; exact ⟨u, careful_asked _ hu⟩
                · exact ⟨u, careful_touch _ hu hns hmay w1 w2 w3 w4⟩
            · have hp := makeParentPath_state s name
              generalize makeParentPath s name = z at hx hp
              obtain ⟨ok, s1⟩ := z
              simp only [] at hx hp
              rw [hp] at hx
              split at hx
              · cases hx
              · cases hx; exact ⟨[], .refl _ _⟩
        · rw [hF] at hx
          simp only [Bool.false_eq_true, if_false] at hx
          cases hx
          exact ⟨[], .refl _ _⟩

/-- What `extractOneD` leaves of the input is the end of the input. -/
theorem extractOneD_rest {tab : Arr} {o : Opts} {s s' : Sys} {hf : Hf} {h : Hdr} {inp : List Nat} {d : OneOut}
    (hx : extractOneD (others tab) tab o s hf h inp = .ok (some d, s')) : ∃ k, d.rest = inp.drop k := by
  unfold extractOneD at hx
  obtain ⟨en, he, hx⟩ := bind_ok hx
  split at hx
  · cases hx
  · simp only [] at hx
    split at hx
    · cases hx
    · split at hx
      · obtain ⟨⟨up, s1⟩, h1, hx⟩ := bind_ok hx
        simp only [] at hx
        split at hx
        · cases hx; exact ⟨0, rfl⟩
        · split at hx
          · obtain ⟨d, hd, hx⟩ := bind_ok hx
            cases hx
            exact decodeLzhuf_drop hd
          · cases hx; exact ⟨0, rfl⟩
      · split at hx
        · split at hx
          · cases hx; exact ⟨0, rfl⟩
          · split at hx
            · obtain ⟨⟨up, s1⟩, h1, hx⟩ := bind_ok hx
              simp only [] at hx
              split at hx
              · cases hx; exact ⟨0, rfl⟩
              · cases hx; exact ⟨0, rfl⟩
            · generalize makeParentPath s _ = z at hx
              obtain ⟨ok, s1⟩ := z
              simp only [] at hx
              split at hx
              · cases hx
              · cases hx; exact ⟨0, rfl⟩
        · split at hx
          · cases hx; exact ⟨0, rfl⟩
          · cases hx

/-- A whole archive, whatever is in it. -/
theorem extractLoopD_careful {f : Fmt} {tab : Arr} {o : Opts} (hF : o.force = false) {need : List Nat → Bool} (n : Nat) :
    ∀ {h : Hdr} {hf hf' : Hf} {s s' : Sys} {inp : List Nat} {e : Bool}, IsBytes inp → RealOk h →
      extractLoopD f (others tab) tab o need n h hf s inp = .ok (e, s', hf') → ∃ u, Careful o.ignoreDir u s s' := by
  induction n with
  | zero => intro h hf hf' s s' inp e _ _ hx; cases hx
  | succ n ih =>
    intro h hf hf' s s' inp e hi hr hx
    unfold extractLoopD at hx
    obtain ⟨x, hg, hx⟩ := bind_ok hx
    split at hx
    · cases hx; exact ⟨[], .refl _ _⟩
    · cases hx; exact ⟨[], .refl _ _⟩
    · cases hx; exact ⟨[], .refl _ _⟩
    · rename_i g rest
      obtain ⟨hr', hi'⟩ := getHeader_real hi hr hg
      split at hx
      · obtain ⟨⟨r, s1⟩, h1, hx⟩ := bind_ok hx
        obtain ⟨u, hu⟩ := extractOneD_careful hF hr' h1
        split at hx
        · rename_i heq
          cases heq
          cases hx
          exact ⟨u, hu⟩
        · rename_i d s2 heq
          cases heq
          obtain ⟨k, hk⟩ := extractOneD_rest h1
          have hb : IsBytes d.rest := by rw [hk]; exact isBytes_drop hi' _
          simp only [] at hx
          split at hx
          · split at hx
            · cases hx; exact ⟨u, hu⟩
            · rename_i q hq
              unfold skipTo at hq
              obtain ⟨⟨a, b⟩, h2, h3⟩ := Option.map_eq_some_iff.mp hq
              have hbq : IsBytes q := by rw [← h3]; show IsBytes b; rw [(readF_some h2).2]; exact isBytes_drop hb _
              obtain ⟨v, hv⟩ := ih hbq (h := { g with name := d.name }) hr' hx
              exact ⟨u ++ v, hu.trans hv⟩
          · obtain ⟨v, hv⟩ := ih hb (h := { g with name := d.name }) hr' hx
            exact ⟨u ++ v, hu.trans hv⟩
      · have hb : IsBytes ((skipTo g.packedSize rest).getD []) := by
          unfold skipTo
          cases hq : readF g.packedSize rest with
          | none => intro x hx; cases hx
          | some ab =>
            obtain ⟨a, b⟩ := ab
            show IsBytes b
            rw [(readF_some hq).2]
            exact isBytes_drop hi' _
        exact ih hb hr' hx

end Lha
