import Verif.Props.C116
/-!
# C116: damage elsewhere in the archive does not change the contents of a file
-/

namespace Lha

open Spec

theorem lastOf_other {want : List Nat} : ∀ (es : List Entry) (d : List Nat), (∀ y ∈ es, y.name ≠ want) → lastOf want d es = d := by
  intro es
  induction es with
  | nil => intro d _; rfl
  | cons y es ih =>
    intro d hd
    unfold lastOf
    rw [List.foldl_cons, if_neg (hd y List.mem_cons_self)]
    exact ih d fun z hz => hd z (List.mem_cons_of_mem _ hz)

theorem elsewhere_loop (f : Fmt) (hg : f.generic = false) {tab : Arr} (ht : makeCrcTable = .ok tab) (want : List Nat) {v : Nat} (hv : v < 256) {x : List Nat} {hf' : Hf} (es : List Entry) :
    ∀ (n : Nat) (h : Hdr) (hf : Hf) (data : List Nat) (i : Nat), (∀ y ∈ es, y.Ok ∧ (y.name = want → Sound y ∧ y.crc = crc16 0 y.content)) → GOk hf → h.method.length = 5 →
      NonInc h.name.length es → IsBytes (archive es [0]) → (i < (archive es [0]).length → v ≠ (archive es [0]).getD i 0) → ¬ Unnoticed es i v → ¬ InContents es want i →
      extractBytesLoop f (others tab) tab (want ++ [0]) n h hf data ((archive es [0]).set i v) = .ok ⟨false, x, hf'⟩ → x = lastOf want data es := by
  induction es with
  | nil =>
    intro n h hf data i _ _ _ _ _ _ _ _ hr
    exact short_end f (others tab) tab _ n h hf data _ (by rw [List.length_set]; simp [archive]) hr
  | cons y es ih =>
    intro n h hf data i hes hok hmt hinc hb hne hfirst hcont hr
    obtain ⟨hy, hw⟩ := hes y List.mem_cons_self
    rw [archive_cons] at hb hne hr
    have hi0 : i = 0 → v ≠ 0 ∧ (((y.bytes ++ archive es [0]).drop 2).take v).sum % 256 ≠ y.body.sum % 256 := fun hc =>
      ⟨fun h0 => hfirst ⟨[], y, es, rfl, hc, Or.inl h0⟩, fun h0 => hfirst ⟨[], y, es, rfl, hc, Or.inr (by rw [archive_cons]; exact h0)⟩⟩
    have hb' : IsBytes (archive es [0]) := fun b hb1 => hb b (List.mem_append_right _ hb1)
    have hes' := fun z hz => hes z (List.mem_cons_of_mem y hz)
    have hyl : y.bytes.length = y.header.length + y.packed.length := by unfold Entry.bytes; rw [List.length_append]
    cases n with
    | zero => cases hr
    | succ n =>
      unfold extractBytesLoop at hr
      by_cases hi : i < y.header.length
      · have hlt : i < (y.bytes ++ archive es [0]).length := by rw [List.length_append]; omega
        obtain ⟨r, h1, hr⟩ := bind_ok hr
        rw [damaged_refused f hg tab hy hb hi0 hi hv (hne hlt) hmt hinc.1 h1] at hr
        cases hr
      by_cases hj : i < y.bytes.length
      · -- packed data of another file
        have hnw : y.name ≠ want := fun hc => hcont ⟨[], y, es, rfl, hc, by simp [archive]; omega, by simpa [archive] using hj⟩
        obtain ⟨P, T, hP, hs, hT⟩ := set_entry y (archive es [0]) v (Nat.le_of_not_lt hi)
        have hT : T = archive es [0] := by
          rcases hT with h | ⟨h, _⟩
          · exact h
          · omega
        subst hT
        have ho' : ({ y with packed := P } : Entry).Ok := ⟨hy.method, hy.name, hy.nul, hy.bs, by show P.length < _; rw [hP]; exact hy.packed, hy.content, hy.crc, hy.perm, hy.kind⟩
        obtain ⟨g, e1, G⟩ := entry_parse f hg tab { y with packed := P } ho' h hmt hinc.1 (archive es [0])
        have hgn : g.name = y.name ++ [0] := G.name
        have hpk : g.packedSize = P.length := G.packed
        rw [hs, e1, ok_bind] at hr
        simp only [] at hr
        rw [if_neg (by rw [hgn]; intro hc; exact hnw (List.append_cancel_right hc)), hpk, skip_packed] at hr
        unfold lastOf
        rw [List.foldl_cons, if_neg hnw]
        refine ih n g hf data (archive es [0]).length hes' hok (by rw [show g.method = y.method from G.method]; exact hy.method) (by rw [hgn, List.length_append]; exact hinc.2) hb'
          (fun hc => absurd hc (Nat.lt_irrefl _)) ?_ ?_ ?_
        · rintro ⟨es1, z, es2, hz1, hz2, hz5⟩
          rw [hz1] at hz2
          unfold archive at hz2
          simp only [List.flatMap_append, List.flatMap_cons, List.length_append, List.length_cons, List.length_nil] at hz2
          omega
        · rintro ⟨es1, z, es2, hz1, _, _, hz2⟩
          rw [hz1] at hz2
          unfold archive at hz2
          simp only [List.flatMap_append, List.flatMap_cons, List.length_append, List.length_cons, List.length_nil] at hz2
          omega
        · rw [List.set_eq_of_length_le (Nat.le_refl _)]; exact hr
      · -- behind this file
        rw [List.set_append_right _ _ (by omega)] at hr
        obtain ⟨g, e1, G⟩ := entry_parse f hg tab y hy h hmt hinc.1 ((archive es [0]).set (i - y.bytes.length) v)
        rw [e1, ok_bind] at hr
        simp only [] at hr
        have go : ∀ (hf : Hf) (data : List Nat), GOk hf →
            extractBytesLoop f (others tab) tab (want ++ [0]) n g hf data ((archive es [0]).set (i - y.bytes.length) v) = .ok ⟨false, x, hf'⟩ → x = lastOf want data es := by
          intro hf data hok
          refine ih n g hf data _ hes' hok (by rw [G.method]; exact hy.method) (by rw [G.name, List.length_append]; exact hinc.2) hb' (fun hlt => ?_) ?_ ?_
          · have := hne (by rw [List.length_append]; omega)
            rwa [List.getD_append_right _ _ _ _ (by omega)] at this
          · rintro ⟨es1, z, es2, hz1, hz2, hz5⟩
            refine hfirst ⟨y :: es1, z, es2, by rw [hz1]; rfl, ?_, hz5⟩
            rw [archive_cons, List.length_append]
            omega
          · rintro ⟨es1, z, es2, hz1, hz2, hz3, hz4⟩
            refine hcont ⟨y :: es1, z, es2, by rw [hz1]; rfl, hz2, ?_, ?_⟩ <;> rw [archive_cons, List.length_append] <;> omega
        unfold lastOf
        rw [List.foldl_cons]
        by_cases hwant : y.name = want
        · rw [if_pos hwant]
          obtain ⟨⟨_, hk, m, hidx, hp⟩, hcrc⟩ := hw hwant
          obtain ⟨hf1, ok1, hdec⟩ := hp.decodes ht hf hok ((archive es [0]).set (i - y.bytes.length) v)
          have hvv : extractOneStream (others tab) tab hf g (y.packed ++ (archive es [0]).set (i - y.bytes.length) v) =
              .ok (.ok ⟨y.content, crc16 0 y.content, y.packed.length, (archive es [0]).set (i - y.bytes.length) v, hf1⟩) := by
            unfold extractOneStream
            simp only [G.method, hidx]
            rw [if_pos ⟨(G.fileType hy).trans hk, hp.ndir⟩, G.original, G.packed, hdec, ok_bind]
            simp only []
            rw [if_neg (by rw [G.crc, hcrc]; simp)]
          rw [if_pos (by rw [G.name, hwant]), hvv, ok_bind] at hr
          simp only [] at hr
          rw [if_neg (by rw [G.packed]; simp)] at hr
          exact go hf1 y.content ok1 hr
        · rw [if_neg hwant]
          rw [if_neg (by rw [G.name]; intro hc; exact hwant (List.append_cancel_right hc)), G.packed, skip_packed] at hr
          exact go hf data hok hr

/-- **C116, damage elsewhere (partial).**  Full statement: if one byte of an archive is changed that does not belong to the packed data of a file, `DecompresBytes` for that file returns an error
or exactly the contents of the file.  Proved here for a valid file anywhere in an archive of any number of entries of other names (valid headers, any packed data, packed by any method), names
not getting longer, level-0 headers, and any byte: of its header, of other headers, of other files, the end mark.  Only for the first byte of an entry two kinds of new
values are left out, the end mark (`C116_false_end`) and lengths for which the sum of the header is right by chance (`C116_false`). -/
theorem C116_elsewhere_partial (f : Fmt) (hg : f.generic = false) (tab : Arr) (ht : makeCrcTable = .ok tab) (es1 es2 : List Entry) (e : Entry) (he : Sound e) (hc : e.crc = crc16 0 e.content)
    (hes : ∀ y ∈ es1 ++ es2, y.Ok ∧ y.name ≠ e.name) (hinc : NonInc 1024 (es1 ++ e :: es2)) (hb : IsBytes (archive (es1 ++ e :: es2) [0])) (i v : Nat) (hv : v < 256)
    (hne : v ≠ (archive (es1 ++ e :: es2) [0]).getD i 0) (hfirst : ¬ Unnoticed (es1 ++ e :: es2) i v) (hin : ¬ InContents (es1 ++ e :: es2) e.name i) (hf : Hf) (hok : GOk hf)
    (x : List Nat) (hf' : Hf)
    (hr : decompresBytes f (others tab) tab false (e.name ++ [0]) hf (some ((archive (es1 ++ e :: es2) [0]).set i v)) = .ok ⟨false, x, hf'⟩) : x = e.content := by
  unfold decompresBytes at hr
  simp only [Bool.false_eq_true, if_false] at hr
  rw [ok_bind] at hr
  have h := elsewhere_loop f hg ht e.name hv (es1 ++ e :: es2) _ newHdr hf [] i ?_ hok newHdr_method (by rw [newHdr_name]; exact hinc) hb (fun _ => hne) hfirst hin hr
  · rw [h]
    unfold lastOf
    rw [List.foldl_append, List.foldl_cons, if_pos rfl]
    exact lastOf_other es2 e.content fun y hy => (hes y (List.mem_append_right _ hy)).2
  · intro y hy
    rcases List.mem_append.mp hy with h1 | h1
    · exact ⟨(hes y (List.mem_append_left _ h1)).1, fun hc => absurd hc (hes y (List.mem_append_left _ h1)).2⟩
    · rcases List.mem_cons.mp h1 with rfl | h1
      · exact ⟨he.ok, fun _ => ⟨he, hc⟩⟩
      · exact ⟨(hes y (List.mem_append_right _ h1)).1, fun hc => absurd hc (hes y (List.mem_append_right _ h1)).2⟩

/-- **C116 fails for the first byte of an entry, in every archive**: if the first byte of an entry is changed to 0, `DecompresBytes` for it (or any file behind it) returns
no error and nothing, whatever is in the file.  The byte is read as the end of the archive. -/
theorem C116_false_end (f : Fmt) (hg : f.generic = false) (tab : Arr) (ht : makeCrcTable = .ok tab) (es1 es2 : List Entry) (e : Entry) (want : List Nat)
    (hes : ∀ y ∈ es1, y.Ok ∧ y.name ≠ want) (hinc : NonInc 1024 es1) (t : List Nat) (hf : Hf) (hok : GOk hf) :
    ∃ hf', decompresBytes f (others tab) tab false (want ++ [0]) hf (some ((archive (es1 ++ e :: es2) t).set (archive es1 []).length 0)) = .ok ⟨false, [], hf'⟩ := by
  obtain ⟨r, hr⟩ : ∃ r, (archive (es1 ++ e :: es2) t).set (archive es1 []).length 0 = archive es1 (0 :: r) := by
    have h1 : archive (es1 ++ e :: es2) t = archive es1 [] ++ archive (e :: es2) t := by simp [archive]
    have h2 : ∀ r, archive es1 (0 :: r) = archive es1 [] ++ 0 :: r := by intro r; simp [archive]
    refine ⟨(archive (e :: es2) t).drop 1, ?_⟩
    rw [h1, h2, List.set_append_right _ _ (Nat.le_refl _), Nat.sub_self]
    have : 0 < (archive (e :: es2) t).length := by
      have := archive_length (e :: es2) t
      simp at this
      omega
    cases h : archive (e :: es2) t with
    | nil => rw [h] at this; simp at this
    | cons b l => rfl
  have hl : es1.length < (archive es1 (0 :: r)).length + 1 := by
    have := archive_length es1 (0 :: r)
    omega
  obtain ⟨hf', _, h⟩ := extractBytesLoop_good f hg ht want (t := 0 :: r) (Or.inr ⟨r, rfl⟩) es1 _ newHdr hf [] hl
    (fun y hy => ⟨(hes y hy).1, fun hc => absurd hc (hes y hy).2⟩) hok newHdr_method (by rw [newHdr_name]; exact hinc)
  refine ⟨hf', ?_⟩
  unfold decompresBytes
  simp only [Bool.false_eq_true, if_false]
  rw [ok_bind, hr, h, lastOf_other es1 [] fun y hy => (hes y hy).2]

/-- Two files. -/
def pairEntries : List Entry := [sampleEntry [45, 108, 122, 115, 45] [98] [0xa0, 0x80] [65], sampleEntry [45, 108, 122, 115, 45] [99] [0xa0, 0x80] [65]]

/-- The hypotheses of `C116_elsewhere_partial`, without an error: a byte of the packed data of the other file. -/
example (tab : Arr) (ht : makeCrcTable = .ok tab) : Sound (sampleEntry [45, 108, 122, 115, 45] [98] [0xa0, 0x80] [65]) ∧ NonInc 1024 pairEntries ∧ IsBytes (archive pairEntries [0]) ∧
    1 ≠ (archive pairEntries [0]).getD 76 0 ∧ ¬ Unnoticed pairEntries 76 1 ∧ ¬ InContents pairEntries [98] 76 ∧ GOk Hf.fresh ∧
    ∃ x hf', decompresBytes ⟨false, false⟩ (others tab) tab false ([98] ++ [0]) Hf.fresh (some ((archive pairEntries [0]).set 76 1)) = .ok ⟨false, x, hf'⟩ := by
  have len : ∀ es1 x es2, pairEntries = es1 ++ x :: es2 → (es1 = [] ∧ x.name = [98]) ∨ ((archive es1 []).length = 39 ∧ x.name = [99]) := by
    intro es1 x es2 h
    match es1 with
    | [] => cases h; exact Or.inl ⟨rfl, rfl⟩
    | [a] => cases h; exact Or.inr ⟨by decide, rfl⟩
    | a :: b :: es1 =>
      have := congrArg List.length h
      simp [pairEntries] at this
  refine ⟨sample_sound _ (by decide) (by decide) (by decide), ⟨by decide, by decide, trivial⟩, by unfold IsBytes; decide +kernel, by decide +kernel, ?_, ?_,
    ⟨by constructor <;> rfl, by constructor <;> rfl⟩, ?_⟩
  · rintro ⟨es1, x, es2, h1, h2, _⟩
    rcases len _ _ _ h1 with ⟨rfl, _⟩ | ⟨h, _⟩
    · cases h2
    · omega
  · rintro ⟨es1, x, es2, h1, h2, h3, h4⟩
    rcases len _ _ _ h1 with ⟨rfl, _⟩ | ⟨h, h5⟩
    · cases h1
      revert h4
      decide
    · rw [h5] at h2
      cases h2
  · exact ⟨[65], reads_of_eval ht _ _ _ (by decide +kernel)⟩

/-- The hypotheses of `C116_false_end`: the second of these files is asked for. -/
example : (∀ y ∈ [sampleEntry [45, 108, 122, 115, 45] [98] [0xa0, 0x80] [65]], y.Ok ∧ y.name ≠ [99]) ∧ NonInc 1024 [sampleEntry [45, 108, 122, 115, 45] [98] [0xa0, 0x80] [65]] ∧
    (sampleEntry [45, 108, 122, 115, 45] [99] [0xa0, 0x80] [65]).name = [99] ∧ (sampleEntry [45, 108, 122, 115, 45] [99] [0xa0, 0x80] [65]).content ≠ [] := by
  refine ⟨?_, ⟨by decide, trivial⟩, rfl, by decide⟩
  intro y hy
  rw [List.mem_singleton.mp hy]
  exact ⟨(sample_sound _ (by decide) (by decide) (by decide)).ok, by decide⟩

end Lha
