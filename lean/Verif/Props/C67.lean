import Verif.Props.C55
/-!
# C67: `Decompress(header)` touches only the file asked for
-/

namespace Lha

open Spec

theorem at_ok {name : List Nat} {p c : Nat} (h : at_ name p = .ok c) : name[p]? = some c := by
  unfold at_ at h
  split at h
  · rename_i e; cases h; exact e
  · cases h

theorem noslash_at {name : List Nat} {a p : Nat} (h : 0x2f ∉ name.drop a) (hap : a ≤ p) : name[p]? ≠ some 0x2f := by
  intro e
  apply h
  obtain ⟨k, hk⟩ : ∃ k, p = a + k := ⟨p - a, by omega⟩
  rw [hk, ← List.getElem?_drop] at e
  exact List.mem_of_getElem? e

theorem skipSlashes_one {name : List Nat} {n p q : Nat} (h : skipSlashes name n p = .ok q) (h1 : name[p]? = some 0x2f)
    (h2 : 0x2f ∉ name.drop (p + 1)) : q = p + 1 := by
  cases n with
  | zero => cases h
  | succ n =>
    unfold skipSlashes at h
    obtain ⟨c, hc, h⟩ := bind_ok h
    rw [at_ok hc] at h1
    cases h1
    rw [if_pos rfl] at h
    cases n with
    | zero => cases h
    | succ n =>
      unfold skipSlashes at h
      obtain ⟨c, hc, h⟩ := bind_ok h
      rw [if_neg (fun e => noslash_at h2 (Nat.le_refl _) (by rw [at_ok hc, e]))] at h
      cases h
      rfl

theorem stripDevice_end {name : List Nat} {a : Nat} (h2 : 0x2f ∉ name.drop a) (n : Nat) : ∀ {p : Nat} {x : Nat × Nat}, a ≤ p →
    stripDevice name n p = .ok x → name.length ≤ x.1 := by
  induction n with
  | zero => intro p x _ h; cases h
  | succ n ih =>
    intro p x hp h
    unfold stripDevice at h
    obtain ⟨c, hc, h⟩ := bind_ok h
    split at h
    · rename_i hor
      cases h
      rcases hor with hor | hor
      · exact hor
      · exact absurd (by rw [at_ok hc, hor]) (noslash_at h2 hp)
    · exact ih (by omega) h

/-- Names from OS-9 with a '/' are never accepted; other names are left alone. -/
theorem oskName_same {ext : Nat} {name : List Nat} {p : Nat} {x : List Nat × Nat} (h2 : 0x2f ∉ name.drop p) (h : oskName ext name p = .ok x) :
    x = (name, p) := by
  unfold oskName at h
  split at h
  · exfalso
    obtain ⟨⟨q, c⟩, h1, h⟩ := bind_ok h
    have := stripDevice_end h2 _ (Nat.le_refl _) h1
    simp only [] at h this
    split at h
    · rw [if_neg (by omega)] at h; cases h
    · obtain ⟨d, hd, _⟩ := bind_ok h
      have := at_ok hd
      rw [List.getElem?_eq_none (by omega)] at this
      cases this
  · cases h; rfl

/-- The file an entry is extracted to is determined by the name in its header: what follows the last '/', without the last character (a NUL in every
header written by this library). -/
theorem entryName_only {o : Opts} (hi : o.ignoreDir = false) (hd : o.extDir = []) {h : Hdr} {n m : List Nat} (hx : entryName o h = .ok (some (n, m))) :
    n = (lastName h.name).dropLast ∧ m = h.name := by
  have fin : ∀ (l q : List Nat), 0x2f ∉ q →
      (makeName o q >>= fun n => (.ok (n.map (fun n => (n, l))) : G (Option (List Nat × List Nat)))) = .ok (some (n, m)) →
      n = q.dropLast ∧ m = l := by
    intro l q hq hx
    obtain ⟨y, h1, h2⟩ := bind_ok hx
    unfold makeName at h1
    rw [if_neg hq, if_pos hd] at h1
    split at h1
    · cases h1
    · cases h1
      cases h2
      exact ⟨by rw [List.dropLast_eq_take], rfl⟩
  unfold entryName at hx
  simp only [hi, Bool.false_eq_true, if_false] at hx
  split at hx
  · cases hx
  · obtain ⟨c, h1, h2⟩ := bind_ok hx
    rcases split_last_slash h.name with hs | ⟨A, Y, hn, hY⟩
    · have hc : c ≠ 0x2f := by
        rintro rfl
        exact hs (List.mem_of_getElem? (at_ok h1))
      rw [if_neg hc, ok_bind, lastSlash_none _ hs] at h2
      rw [lastName_of hs (Or.inl rfl)]
      exact fin _ _ hs h2
    · have hl : lastSlash h.name = A.length := by rw [hn]; exact lastSlash_some A Y hY
      have hdr : h.name.drop (A.length + 1) = Y := by
        rw [hn, show A ++ 0x2f :: Y = (A ++ [0x2f]) ++ Y by simp, show A.length + 1 = (A ++ [0x2f]).length by simp, List.drop_left]
      have hat : h.name[A.length]? = some 0x2f := by rw [hn]; simp
      rw [hl] at h1 h2
      have hc : c = 0x2f := by
        have := (at_ok h1).symm.trans hat
        exact Option.some.inj this
      rw [if_pos hc] at h2
      obtain ⟨p1, h5, h3⟩ := bind_ok h2
      obtain ⟨⟨nm, p⟩, h6, h4⟩ := bind_ok h3
      have hp := skipSlashes_one h5 hat (by rw [hdr]; exact hY)
      subst hp
      have := oskName_same (by rw [hdr]; exact hY) h6
      cases this
      simp only [] at h4
      rw [hdr] at h4
      rw [lastName_of hY (Or.inr ⟨A, hn⟩)]
      exact fin _ _ hY h4

/-- Everything but `n` is as before. -/
def OnlyAt (n : List Nat) (s s' : Sys) : Prop := ∀ m, m ≠ n → s'.node m = s.node m

theorem onlyAt_asked {s s1 : Sys} {f : Bool} {n : List Nat} {up : Bool} (h : inquireExtract s f n = .ok (up, s1)) : s1.node = s.node := by
  unfold inquireExtract at h
  split at h
  · cases h; rfl
  · cases h; rfl
  · split at h
    · cases h; rfl
    · obtain ⟨ls, _, h⟩ := bind_ok h
      cases h; rfl
  · cases h; rfl

theorem onlyAt_adjust (s : Sys) (n : List Nat) (h : Hdr) : OnlyAt n s (adjustInfo s n h) := by
  intro m hm
  unfold adjustInfo
  simp only []
  split <;> simp [Sys.set, hm]

theorem onlyAt_write (s : Sys) (n c : List Nat) : OnlyAt n s (s.write n c) := by
  intro m hm
  unfold Sys.write
  split <;> simp [Sys.set, hm]

theorem onlyAt_symlink (s : Sys) (t n : List Nat) : OnlyAt n s (symlinkWithMakePath s t n) := by
  have key : ∀ (s : Sys) m, m ≠ n → (s.symlink t n).2.node m = s.node m := by
    intro s m hm
    unfold Sys.symlink
    split <;> simp [Sys.set, hm]
  intro m hm
  unfold symlinkWithMakePath
  have k1 := key s m hm
  generalize s.symlink t n = z at k1 ⊢
  obtain ⟨ok, s1⟩ := z
  simp only [] at k1 ⊢
  split
  · exact k1
  · rw [makeParentPath_state, key s1 m hm, k1]

theorem extractOneD_only {oth : Oth} {tab : Arr} {o : Opts} (hi : o.ignoreDir = false) (hd : o.extDir = []) {s s' : Sys} {hf : Hf} {h : Hdr}
    {inp : List Nat} {r : Option OneOut} (hx : extractOneD oth tab o s hf h inp = .ok (r, s')) : OnlyAt (lastName h.name).dropLast s s' := by
  unfold extractOneD at hx
  obtain ⟨en, he, hx⟩ := bind_ok hx
  have refl : OnlyAt (lastName h.name).dropLast s s := fun _ _ => rfl
  split at hx
  · cases hx; exact refl
  · rename_i name hname
    obtain ⟨rfl, rfl⟩ := entryName_only hi hd he
    simp only [] at hx
    split at hx
    · cases hx; exact refl
    · split at hx
      · obtain ⟨⟨up, s1⟩, h1, hx⟩ := bind_ok hx
        have hs := onlyAt_asked h1
        simp only [] at hx
        split at hx
        · cases hx; intro m _; rw [hs]
        · split at hx
          · obtain ⟨d, _, hx⟩ := bind_ok hx
            cases hx
            intro m hm
            rw [onlyAt_write s1 _ _ m hm, hs]
          · cases hx; intro m _; rw [hs]
      · split at hx
        · rw [if_neg (by simp [hi])] at hx
          split at hx
          · obtain ⟨⟨up, s1⟩, h1, hx⟩ := bind_ok hx
            have hs := onlyAt_asked h1
            simp only [] at hx
            split at hx
            · cases hx; intro m _; rw [hs]
            · cases hx
              intro m hm
              rw [onlyAt_adjust _ _ _ m hm, onlyAt_symlink s1 _ _ m hm, hs]
          · have hp := makeParentPath_state s (lastName h.name).dropLast
            generalize makeParentPath s _ = z at hx hp
            obtain ⟨ok, s1⟩ := z
            simp only [] at hx hp
            rw [hp] at hx
            split at hx
            · cases hx
            · cases hx; exact refl
        · split at hx
          · cases hx; exact onlyAt_adjust _ _ _
          · cases hx; exact refl

theorem extractLoopD_only {f : Fmt} {oth : Oth} {tab : Arr} {o : Opts} (hi : o.ignoreDir = false) (hd : o.extDir = []) {want : List Nat} (n : Nat) :
    ∀ {h : Hdr} {hf hf' : Hf} {s s' : Sys} {inp : List Nat} {e : Bool},
      extractLoopD f oth tab o (· = want) n h hf s inp = .ok (e, s', hf') → OnlyAt (lastName want).dropLast s s' := by
  induction n with
  | zero => intro h hf hf' s s' inp e hx; cases hx
  | succ n ih =>
    intro h hf hf' s s' inp e hx
    unfold extractLoopD at hx
    obtain ⟨x, hg, hx⟩ := bind_ok hx
    split at hx
    · cases hx; exact fun _ _ => rfl
    · cases hx; exact fun _ _ => rfl
    · cases hx; exact fun _ _ => rfl
    · rename_i g rest
      split at hx
      · rename_i hw
        have hw : g.name = want := by simpa using hw
        obtain ⟨⟨r, s1⟩, h1, hx⟩ := bind_ok hx
        have ho := extractOneD_only hi hd h1
        rw [hw] at ho
        have tr : ∀ {s2}, OnlyAt (lastName want).dropLast s1 s2 → OnlyAt (lastName want).dropLast s s2 := fun h2 m hm => (h2 m hm).trans (ho m hm)
        split at hx
        · rename_i heq
          cases heq
          cases hx
          exact ho
        · rename_i d s2 heq
          cases heq
          simp only [] at hx
          split at hx
          · split at hx
            · cases hx; exact ho
            · exact tr (ih hx)
          · exact tr (ih hx)
      · exact ih hx

/-- **C67.**  Whatever the archive, whether or not an error is returned, and even with `Force`: all that `Decompress(header)` has touched in the directory is
the file named in that header (the last component of the name, which in a header ends with a NUL). -/
theorem C67 (f : Fmt) (oth : Oth) (tab : Arr) (o : Opts) (hi : o.ignoreDir = false) (hd : o.extDir = []) (sfx : Bool) (want : List Nat) (hf : Hf)
    (s : Sys) (arch : Option (List Nat)) (e : Bool) (s' : Sys) (hf' : Hf)
    (h : decompressD f oth tab o sfx (want ++ [0]) hf s arch = .ok (e, s', hf')) (n : List Nat) (hn : n ≠ lastName want) : s'.node n = s.node n := by
  have hl : (lastName (want ++ [0])).dropLast = lastName want := by
    have : lastName (want ++ [0]) = lastName want ++ [0] := by
      unfold lastName
      simp
    rw [this]; simp
  unfold decompressD at h
  split at h
  · cases h; rfl
  · simp only [] at h
    split at h
    · obtain ⟨b, hb, h⟩ := bind_ok h
      exact extractLoopD_only hi hd _ h n (by rw [hl]; exact hn)
    · rw [ok_bind] at h
      exact extractLoopD_only hi hd _ h n (by rw [hl]; exact hn)

/-- And the file asked for is extracted, if it is the only one of that name, from an archive as in C59. -/
theorem C67_extracts (f : Fmt) (hg : f.generic = false) (tab : Arr) (ht : makeCrcTable = .ok tab) (hf : Hf) (hok : GOk hf) (s : Sys)
    (es1 es2 : List Entry) (e : Entry) (he : Sound e) (hes : ∀ x ∈ es1 ++ es2, x.Ok ∧ x.name ≠ e.name) (hinc : NonInc 1024 (es1 ++ e :: es2))
    (hcan : s.Creatable (lastName e.name)) (hnew : s.node (lastName e.name) = none) (t : List Nat) (htl : Tail t) :
    ∃ hf', GOk hf' ∧ decompressD f (others tab) tab Opts.default false (e.name ++ [0]) hf s (some (archive (es1 ++ e :: es2) t)) =
      .ok (false, s.set (lastName e.name) (.file e.content s.fresh), hf') := by
  have skip : ∀ (l : List Entry) (s : Sys), (∀ x ∈ l, x.name ≠ e.name) → RunD tab Opts.default (fun n => decide (n = e.name ++ [0])) s l s := by
    intro l
    induction l with
    | nil => intro s _; exact .nil s
    | cons x l ih =>
      intro s hx
      refine .cons (s1 := s) ?_ (ih s fun y hy => hx y (List.mem_cons_of_mem _ hy))
      intro g hf T _ P
      refine Or.inl ⟨?_, rfl⟩
      rw [P.name]
      simpa using hx x List.mem_cons_self
  have app : ∀ {s1 s2 s3 : Sys} {l l' : List Entry}, RunD tab Opts.default (fun n => decide (n = e.name ++ [0])) s1 l s2 →
      RunD tab Opts.default (fun n => decide (n = e.name ++ [0])) s2 l' s3 → RunD tab Opts.default (fun n => decide (n = e.name ++ [0])) s1 (l ++ l') s3 := by
    intro s1 s2 s3 l l' h1 h2
    induction h1 with
    | nil => exact h2
    | cons h _ ih => exact .cons h (ih h2)
  have hrun := app (skip es1 s fun x hx => (hes x (List.mem_append_left _ hx)).2)
    (.cons (he.step_new ht (fun n => decide (n = e.name ++ [0])) (by simp) hcan hnew) (skip es2 _ fun x hx => (hes x (List.mem_append_right _ hx)).2))
  obtain ⟨hf', ok', h⟩ := hrun.loop f hg htl ((archive (es1 ++ e :: es2) t).length + 1) newHdr hf (by have := archive_length (es1 ++ e :: es2) t; omega)
    (by
      intro x hx
      simp only [List.mem_append, List.mem_cons] at hx
      rcases hx with hx | rfl | hx
      · exact (hes x (List.mem_append_left _ hx)).1
      · exact he.ok
      · exact (hes x (List.mem_append_right _ hx)).1) hok newHdr_method (by rw [newHdr_name]; exact hinc)
  refine ⟨hf', ok', ?_⟩
  unfold decompressD
  simp only [Bool.false_eq_true, if_false]
  rw [ok_bind, h]

/-- The hypotheses are met by `x/e` in an archive with `x/a`, and the sample directory. -/
example : Sound (sampleEntry [45, 108, 122, 115, 45] [120, 47, 101] [0xa0, 0x80] [65]) ∧
    (sampleEntry [45, 108, 122, 115, 45] [120, 47, 97] [0xa0, 0x80] [65]).Ok ∧
    NonInc 1024 ([] ++ sampleEntry [45, 108, 122, 115, 45] [120, 47, 101] [0xa0, 0x80] [65] ::
      [sampleEntry [45, 108, 122, 115, 45] [120, 47, 97] [0xa0, 0x80] [65]]) ∧
    Sys.sample.Creatable (lastName [120, 47, 101]) ∧ Sys.sample.node (lastName [120, 47, 101]) = none :=
  ⟨sample_sound _ (by decide) (by decide) (by decide), (sample_sound _ (by decide) (by decide) (by decide)).ok, ⟨by decide, by decide, trivial⟩,
    ⟨by decide, by decide, rfl⟩, rfl⟩

end Lha
