import Verif.Props.C53
/-!
# C54: extracting without directories
-/

namespace Lha

open Spec

/-- The options of a user who wants directories to be ignored. -/
def Opts.flat : Opts := { Opts.default with ignoreDir := true }

theorem makeName_plain (o : Opts) (ho : o.extDir = []) (q : List Nat) (hq : 0x2f ∉ q) : makeName o (q ++ [0]) = .ok (some q) := by
  unfold makeName
  rw [if_neg (by simp [hq]), if_pos ho, if_neg (by simp)]
  simp

theorem Parsed.entryName_flat {e : Entry} {g : Hdr} (h : Parsed e g) (hs : 0x2f ∈ e.name ∨ e.name ≠ []) :
    Lha.entryName Opts.flat g = .ok (some (if 0x2f ∈ e.name then lastName e.name else e.name.drop 1, g.name)) := by
  rw [h.entryName_ignore Opts.flat rfl]
  split
  · rw [makeName_plain _ rfl _ (lastName_noslash _)]
    rfl
  · rename_i hn
    obtain ⟨c, X, hX⟩ : ∃ c X, e.name = c :: X := by
      rcases hs with hs | hs
      · exact absurd hs hn
      · cases hc : e.name with
        | nil => exact absurd hc hs
        | cons c X => exact ⟨c, X, rfl⟩
    rw [hX, List.cons_append, List.drop_one, List.tail_cons, makeName_plain _ rfl _ (fun hc => hn (by rw [hX]; exact List.mem_cons_of_mem _ hc))]
    rfl

/-- What a list of entries is extracted to. -/
theorem extract_flat (f : Fmt) (hg : f.generic = false) (tab : Arr) (ht : makeCrcTable = .ok tab) (fs : Fs) (hcan : ∀ n, fs.can n = true)
    (es : List Entry) (hes : ∀ e ∈ es, Sound e) (hne : ∀ e ∈ es, e.name ≠ []) (hinc : NonInc 1024 es) (t : List Nat) (htl : Tail t) (hf : Hf)
    (hok : GOk hf) : ∃ hf', GOk hf' ∧ commandExtract f (others tab) tab Opts.flat fs false hf (some (archive es t)) =
      .ok ⟨false, es.map (fun e => (if 0x2f ∈ e.name then lastName e.name else e.name.drop 1, e.content)), hf'⟩ := by
  have h1 : (es.map fun e => (e, some (if 0x2f ∈ e.name then lastName e.name else e.name.drop 1, e.content))).map Prod.fst = es := by
    simp [Function.comp_def]
  have h2 : (es.map fun e => (e, some (if 0x2f ∈ e.name then lastName e.name else e.name.drop 1, e.content))).filterMap Prod.snd =
      es.map (fun e => (if 0x2f ∈ e.name then lastName e.name else e.name.drop 1, e.content)) := by
    simp [List.filterMap_map, Function.comp_def]
  obtain ⟨hf', ok', h3⟩ := extractLoop_does f hg tab Opts.flat fs (needFile Opts.flat) htl
    (es.map fun e => (e, some (if 0x2f ∈ e.name then lastName e.name else e.name.drop 1, e.content)))
    ((archive es t).length + 1) newHdr hf [] (by have := archive_length es t; simp; omega) (by
      intro x hx
      obtain ⟨e, he, rfl⟩ := List.mem_map.mp hx
      exact ⟨(hes e he).ok, (hes e he).does ht Opts.flat fs _ _ (hcan _) (by simp [needFile, Opts.flat, Opts.default])
        (fun g P => P.entryName_flat (Or.inr (hne e he)))⟩)
    hok newHdr_method (by rw [h1, newHdr_name]; exact hinc)
  rw [h1, h2] at h3
  refine ⟨hf', ok', ?_⟩
  unfold commandExtract
  simp only [Bool.false_eq_true, if_false]
  rw [ok_bind, h3]
  rfl

/-- **C54 (partial).**  Full statement: with `IgnoreDirectory` set, `CommandExtract` writes every entry under the last component of its name.  Proved
for archives as in C42 in which every name has a directory part. -/
theorem C54_partial (f : Fmt) (hg : f.generic = false) (tab : Arr) (ht : makeCrcTable = .ok tab) (fs : Fs) (hcan : ∀ n, fs.can n = true)
    (es : List Entry) (hes : ∀ e ∈ es, Sound e) (hdir : ∀ e ∈ es, 0x2f ∈ e.name) (hinc : NonInc 1024 es) (t : List Nat) (htl : Tail t) (hf : Hf)
    (hok : GOk hf) : ∃ hf', GOk hf' ∧ commandExtract f (others tab) tab Opts.flat fs false hf (some (archive es t)) =
      .ok ⟨false, es.map (fun e => (lastName e.name, e.content)), hf'⟩ := by
  obtain ⟨hf', ok', h⟩ := extract_flat f hg tab ht fs hcan es hes (fun e he h0 => by have := hdir e he; rw [h0] at this; cases this) hinc t htl hf hok
  have hm : es.map (fun e => (if 0x2f ∈ e.name then lastName e.name else e.name.drop 1, e.content)) = es.map (fun e => (lastName e.name, e.content)) :=
    List.map_congr_left (fun e he => by rw [if_pos (hdir e he)])
  rw [hm] at h
  exact ⟨hf', ok', h⟩

/-- **C54 is false** of names without a directory part: the file is created under a name that lacks the first character, … -/
theorem C54_false (f : Fmt) (hg : f.generic = false) (tab : Arr) (ht : makeCrcTable = .ok tab) (fs : Fs) (hcan : ∀ n, fs.can n = true)
    (e : Entry) (he : Sound e) (hne : e.name ≠ []) (hs : 0x2f ∉ e.name) (t : List Nat) (htl : Tail t) (hf : Hf) (hok : GOk hf) :
    ∃ hf', commandExtract f (others tab) tab Opts.flat fs false hf (some (archive [e] t)) = .ok ⟨false, [(e.name.drop 1, e.content)], hf'⟩ ∧
      e.name.drop 1 ≠ lastName e.name := by
  obtain ⟨hf', _, h⟩ := extract_flat f hg tab ht fs hcan [e] (by simpa using he) (by simpa using hne)
    ⟨by have := he.ok.name; omega, trivial⟩ t htl hf hok
  refine ⟨hf', ?_, ?_⟩
  · rw [h]
    simp [hs]
  · rw [lastName_of hs (Or.inl rfl)]
    intro hc
    have h1 := congrArg List.length hc
    have h2 := List.length_pos_iff.mpr hne
    simp at h1
    omega

/-- … and an archive that holds `ab` and `b` ends up with a single file. -/
theorem C54_false_clash (f : Fmt) (hg : f.generic = false) (tab : Arr) (ht : makeCrcTable = .ok tab) (fs : Fs) (hcan : ∀ n, fs.can n = true)
    (e e' : Entry) (he : Sound e) (he' : Sound e') (hne : e.name ≠ []) (hs : 0x2f ∉ e.name) (hn : ∃ A, e'.name = A ++ 0x2f :: e.name.drop 1)
    (hlen : e.name.length ≤ e'.name.length) (t : List Nat) (htl : Tail t) (hf : Hf) (hok : GOk hf) :
    ∃ n hf', commandExtract f (others tab) tab Opts.flat fs false hf (some (archive [e', e] t)) = .ok ⟨false, [(n, e'.content), (n, e.content)], hf'⟩ ∧
      lastName e'.name ≠ lastName e.name := by
  obtain ⟨A, hA⟩ := hn
  have hs' : 0x2f ∉ e.name.drop 1 := fun hc => hs (List.mem_of_mem_drop hc)
  obtain ⟨hf', _, h⟩ := extract_flat f hg tab ht fs hcan [e', e] (by simp [he, he']) (by simp [hne, hA])
    ⟨by have := he'.ok.name; omega, by show e.name.length < _; omega, trivial⟩ t htl hf hok
  refine ⟨e.name.drop 1, hf', ?_, ?_⟩
  · rw [h]
    simp only [List.map_cons, List.map_nil, hs, if_false, lastName_of hs' (Or.inr ⟨A, hA⟩)]
    rw [if_pos (by rw [hA]; simp)]
  · rw [lastName_of hs (Or.inl rfl), lastName_of hs' (Or.inr ⟨A, hA⟩)]
    intro hc
    have h1 := congrArg List.length hc
    have h2 := List.length_pos_iff.mpr hne
    simp at h1
    omega

/-- The hypotheses of `C54_false_clash` are met by `d/b` and `ab`, those of the others by one of them. -/
example : Sound (sampleEntry [45, 108, 122, 115, 45] [100, 47, 98] [0xa0, 0x80] [65]) ∧
    Sound (sampleEntry [45, 108, 122, 115, 45] [97, 98] [0xa0, 0x80] [65]) ∧
    (∃ A, (sampleEntry [45, 108, 122, 115, 45] [100, 47, 98] [0xa0, 0x80] [65]).name = A ++ 0x2f ::
      (sampleEntry [45, 108, 122, 115, 45] [97, 98] [0xa0, 0x80] [65]).name.drop 1) :=
  ⟨sample_sound _ (by decide) (by decide) (by decide), sample_sound _ (by decide) (by decide) (by decide), [100], rfl⟩

end Lha
