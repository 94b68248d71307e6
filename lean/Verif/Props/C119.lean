import Verif.Model.Dry
import Verif.Spec.Named
import Verif.Props.C38
import Verif.Props.C42
import Verif.Props.C66
import Verif.Props.C85
/-!
# C119: extracting with `Noexec` tells whether extracting will fail

It reads all headers, and reports damaged ones and unknown methods.  It does not look at the data: false in general.
-/

namespace Lha

open Spec

theorem named_idx {x : List Nat} (h : x ∈ named) : ∃ m, methods.findIdx? (· = x) = some m := by
  have key : ∀ x ∈ named, (methods.findIdx? (· = x)).isSome = true := by decide +kernel
  exact Option.isSome_iff_exists.1 (key x h)

theorem unnamed_idx {x : List Nat} (h : x ∉ named) : methods.findIdx? (· = x) = none := by
  have key : ∀ y ∈ methods, y ∈ named := by decide +kernel
  rw [List.findIdx?_eq_none_iff]
  intro y hy
  simp only [decide_eq_false_iff_not]
  rintro rfl
  exact h (key _ hy)

theorem skip_exact (P T : List Nat) : skipTo P.length (P ++ T) = some T := by
  unfold skipTo readF
  by_cases h : P = []
  · subst h; simp
  · rw [if_neg (by simp [h])]; simp

/-- One entry. -/
theorem extractOneN_entry {e : Entry} (ho : e.Ok) {g : Hdr} (P : Parsed e g) (force : Bool) (w : List (List Nat)) (s : Sys) (hf : Hf) (inp : List Nat) :
    extractOneN ⟨false, force, [], w⟩ s hf g inp = .ok (if e.method ∈ named then some ⟨0, inp, hf, g.name, none⟩ else none, s) := by
  unfold extractOneN
  rw [show entryName ⟨false, force, [], w⟩ g = entryName Opts.default g from rfl, P.entryName, ok_bind]
  simp only [P.method]
  by_cases hm : e.method ∈ named
  · obtain ⟨m, hm'⟩ := named_idx hm
    simp only [hm', if_pos hm, P.fileType ho]
    rcases ho.kind with hk | hk
    · simp only [hk]
      by_cases h11 : m = 11
      · simp [h11]
      · simp [h11]
    · simp [hk]
  · simp only [unnamed_idx hm, if_neg hm]

/-- The entries are passed over. -/
theorem extractLoopN_prefix (f : Fmt) (hg : f.generic = false) (tab : Arr) (force : Bool) (w : List (List Nat)) (need : List Nat → Bool) (X : List Nat) (hf : Hf) (s : Sys)
    (es : List Entry) :
    ∀ (n : Nat) (h : Hdr), es.length < n → (∀ e ∈ es, e.Ok ∧ (need (e.name ++ [0]) = true → e.method ∈ named)) → h.method.length = 5 →
      NonInc h.name.length es →
      ∃ k h', n = es.length + k ∧ h'.method.length = 5 ∧ (∀ fs, NonInc h.name.length (es ++ fs) → NonInc h'.name.length fs) ∧
        extractLoopN f tab ⟨false, force, [], w⟩ need n h hf s (archive es X) = extractLoopN f tab ⟨false, force, [], w⟩ need k h' hf s X := by
  induction es with
  | nil =>
    intro n h hn _ hm _
    exact ⟨n, h, by simp, hm, fun fs hfs => hfs, by simp [archive]⟩
  | cons e es ih =>
    intro n h hn hgood hm hinc
    obtain ⟨n, rfl⟩ : ∃ k, n = k + 1 := ⟨n - 1, by simp at hn; omega⟩
    obtain ⟨ho, hk⟩ := hgood e List.mem_cons_self
    obtain ⟨g, e1, P⟩ := entry_parse f hg tab e ho h hm hinc.1 (archive es X)
    have hl : g.name.length = e.name.length + 1 := by rw [P.name, List.length_append]; rfl
    obtain ⟨k, h', k1, k3, k4, k5⟩ := ih n g (by simp at hn; omega)
      (fun e' he' => hgood e' (List.mem_cons_of_mem _ he')) (by rw [P.method]; exact ho.method) (by rw [hl]; exact hinc.2)
    refine ⟨k, h', by simp; omega, k3, fun fs hfs => k4 fs (by rw [hl]; exact hfs.2), ?_⟩
    rw [← k5]
    conv_lhs => unfold extractLoopN
    rw [archive_cons, e1, ok_bind]
    simp only []
    by_cases hn' : need g.name = true
    · rw [if_pos hn', extractOneN_entry ho P, if_pos (hk (by rw [← P.name]; exact hn')), ok_bind]
      simp only []
      by_cases hz : 0 ≠ g.packedSize
      · have hk' : skipTo g.packedSize (e.packed ++ archive es X) = some (archive es X) := by rw [P.packed]; exact skip_exact _ _
        rw [if_pos hz, hk']
      · have : e.packed = [] := List.eq_nil_of_length_eq_zero (by rw [← P.packed]; omega)
        rw [if_neg hz, this]
        rfl
    · rw [if_neg hn', P.packed, skip_packed]

/-- How the loop ends. -/
theorem extractLoopN_ends (f : Fmt) (hg : f.generic = false) (tab : Arr) (force : Bool) (w : List (List Nat)) (need : List Nat → Bool) (hf : Hf) (s : Sys) (es : List Entry)
    (hes : ∀ e ∈ es, e.Ok ∧ (need (e.name ++ [0]) = true → e.method ∈ named)) :
    (NonInc 1024 es → ∀ t, Tail t →
      extractLoopN f tab ⟨false, force, [], w⟩ need ((archive es t).length + 1) newHdr hf s (archive es t) = .ok (false, s, hf)) ∧
    (∀ e, e.Ok → NonInc 1024 (es ++ [e]) → ∀ X Y, IsBytes X → Damaged e X Y →
      extractLoopN f tab ⟨false, force, [], w⟩ need ((archive es Y).length + 1) newHdr hf s (archive es Y) = .ok (true, s, hf)) ∧
    (∀ e, e.Ok → NonInc 1024 (es ++ [e]) → e.method ∉ named → need (e.name ++ [0]) = true → ∀ R,
      extractLoopN f tab ⟨false, force, [], w⟩ need ((archive es (e.bytes ++ R)).length + 1) newHdr hf s (archive es (e.bytes ++ R)) = .ok (true, s, hf)) := by
  have key : ∀ X, NonInc 1024 es → ∃ k h', h'.method.length = 5 ∧ (∀ fs, NonInc 1024 (es ++ fs) → NonInc h'.name.length fs) ∧
      extractLoopN f tab ⟨false, force, [], w⟩ need ((archive es X).length + 1) newHdr hf s (archive es X) = extractLoopN f tab ⟨false, force, [], w⟩ need (k + 1) h' hf s X := by
    intro X hinc
    have hl := archive_length es X
    obtain ⟨k, h', k1, k2, k3, k4⟩ := extractLoopN_prefix f hg tab force w need X hf s es ((archive es X).length + 1) newHdr (by omega) hes newHdr_method
      (by rw [newHdr_name]; exact hinc)
    obtain ⟨k, rfl⟩ : ∃ j, k = j + 1 := ⟨k - 1, by omega⟩
    exact ⟨k, h', k2, fun fs h => k3 fs (by rw [newHdr_name]; exact h), k4⟩
  refine ⟨?_, ?_, ?_⟩
  · intro hinc t htl
    obtain ⟨k, h', k1, k2, k3⟩ := key t hinc
    rw [k3]
    unfold extractLoopN
    rcases tail_end f tab h' htl with e | e
    · rw [e, ok_bind]
    · rw [e, ok_bind]
  · intro e ho hinc X Y hX hd
    obtain ⟨k, h', k1, k2, k3⟩ := key Y hinc.left
    rw [k3]
    unfold extractLoopN
    rw [hd.bad f hg ho hX k1 (k2 [e] hinc).1, ok_bind]
  · intro e ho hinc hm hn R
    obtain ⟨k, h', k1, k2, k3⟩ := key (e.bytes ++ R) hinc.left
    obtain ⟨g, e1, P⟩ := entry_parse f hg tab e ho h' k1 (k2 [e] hinc).1 R
    rw [k3]
    unfold extractLoopN
    rw [e1, ok_bind]
    simp only []
    rw [if_pos (by rw [P.name]; exact hn), extractOneN_entry ho P, if_neg hm, ok_bind]

/-- **C119 (partial).**  Full statement: `CommandExtract` and `Decompress` with `Noexec` return an error exactly when they would without.  Proved: for any number of entries with
known methods (files or directories, whatever their data) and the default directory, whatever names are asked for, a dry run reports no error if the archive ends behind them; if
the header that follows is damaged as in C66, or the entry that follows has an unknown method and is looked at, it does.  It changes nothing. -/
theorem C119_partial (f : Fmt) (hg : f.generic = false) (tab : Arr) (force : Bool) (w : List (List Nat)) (want : List Nat) (hf : Hf) (s : Sys) (es : List Entry)
    (hes : ∀ e ∈ es, e.Ok ∧ e.method ∈ named) :
    (NonInc 1024 es → ∀ t, Tail t →
      commandExtractN f tab ⟨false, force, [], w⟩ false hf s (some (archive es t)) = .ok (false, s, hf) ∧
      decompressN f tab ⟨false, force, [], w⟩ false want hf s (some (archive es t)) = .ok (false, s, hf)) ∧
    (∀ e, e.Ok → NonInc 1024 (es ++ [e]) → ∀ X Y, IsBytes X → Damaged e X Y →
      commandExtractN f tab ⟨false, force, [], w⟩ false hf s (some (archive es Y)) = .ok (true, s, hf) ∧
      decompressN f tab ⟨false, force, [], w⟩ false want hf s (some (archive es Y)) = .ok (true, s, hf)) ∧
    (∀ e, e.Ok → NonInc 1024 (es ++ [e]) → e.method ∉ named → ∀ R,
      commandExtractN f tab ⟨false, force, [], []⟩ false hf s (some (archive es (e.bytes ++ R))) = .ok (true, s, hf) ∧
      decompressN f tab ⟨false, force, [], w⟩ false (e.name ++ [0]) hf s (some (archive es (e.bytes ++ R))) = .ok (true, s, hf)) := by
  have hes' : ∀ need : List Nat → Bool, ∀ e ∈ es, e.Ok ∧ (need (e.name ++ [0]) = true → e.method ∈ named) := fun _ e he => ⟨(hes e he).1, fun _ => (hes e he).2⟩
  have A := fun w need => extractLoopN_ends f hg tab force w need hf s es (hes' need)
  exact ⟨fun hinc t htl => ⟨(A w _).1 hinc t htl, (A w (· = want)).1 hinc t htl⟩, fun e ho hinc X Y hX hd => ⟨(A w _).2.1 e ho hinc X Y hX hd, (A w (· = want)).2.1 e ho hinc X Y hX hd⟩,
    fun e ho hinc hm R => ⟨(A [] _).2.2 e ho hinc hm (by simp [needFile]) R, (A w (· = e.name ++ [0])).2.2 e ho hinc hm (by simp) R⟩⟩

/-- **C119**, entries not looked at: with `Decompress` of a name the methods of the other entries do not matter; with `CommandExtract`, those of entries not asked for do not. -/
theorem C119_others_partial (f : Fmt) (hg : f.generic = false) (tab : Arr) (force : Bool) (w : List (List Nat)) (want : List Nat) (hf : Hf) (s : Sys) (es : List Entry)
    (hinc : NonInc 1024 es) (t : List Nat) (htl : Tail t) :
    ((∀ e ∈ es, e.Ok ∧ (e.name = want → e.method ∈ named)) →
      decompressN f tab ⟨false, force, [], w⟩ false (want ++ [0]) hf s (some (archive es t)) = .ok (false, s, hf)) ∧
    (w ≠ [] → (∀ x ∈ w, 0 ∉ x) → (∀ e ∈ es, e.Ok) → commandExtractN f tab ⟨false, force, [], w⟩ false hf s (some (archive es t)) = .ok (false, s, hf)) := by
  constructor
  · intro hes
    exact (extractLoopN_ends f hg tab force w (· = want ++ [0]) hf s es (fun e he => ⟨(hes e he).1, fun h => (hes e he).2 (by simpa using h)⟩)).1 hinc t htl
  · intro hw h0 hes
    refine (extractLoopN_ends f hg tab force w _ hf s es (fun e he => ⟨hes e he, fun h => ?_⟩)).1 hinc t htl
    rcases (C38_needFile_partial _ _).mp h with h | h
    · exact absurd h hw
    · exact absurd (by simp : 0 ∈ e.name ++ [0]) (h0 _ h)

/-- **C119**, compared with extracting: under the hypotheses of C58 and C66 (new names that can be created, sound data) the dry run returns an error exactly when extracting does,
whether the archive ends behind its entries or the next header is damaged. -/
theorem C119_same_partial (f : Fmt) (hg : f.generic = false) (tab : Arr) (ht : makeCrcTable = .ok tab) (hf : Hf) (hok : GOk hf) (s : Sys) (es : List Entry)
    (hes : ∀ e ∈ es, Sound e ∨ DirEntry e)
    (hcan : ∀ e ∈ es, s.Creatable (lastName e.name)) (hnew : ∀ e ∈ es, s.node (lastName e.name) = none)
    (hdist : es.Pairwise fun a b => lastName a.name ≠ lastName b.name) :
    (NonInc 1024 es → ∀ t, Tail t → ∃ s' hf', commandExtractD f (others tab) tab Opts.default false hf s (some (archive es t)) = .ok (false, s', hf') ∧
      commandExtractN f tab Opts.default false hf s (some (archive es t)) = .ok (false, s, hf)) ∧
    (∀ e, e.Ok → NonInc 1024 (es ++ [e]) → ∀ X Y, IsBytes X → Damaged e X Y →
      ∃ s' hf', commandExtractD f (others tab) tab Opts.default false hf s (some (archive es Y)) = .ok (true, s', hf') ∧
        commandExtractN f tab Opts.default false hf s (some (archive es Y)) = .ok (true, s, hf)) := by
  have hes' : ∀ e ∈ es, e.Ok ∧ e.method ∈ named := by
    intro e he
    rcases hes e he with h | h
    · refine ⟨h.ok, Classical.byContradiction fun hm => ?_⟩
      obtain ⟨m, hm', _⟩ := h.packed
      rw [unnamed_idx hm] at hm'
      cases hm'
    · exact ⟨h.ok, by rw [h.method]; decide +kernel⟩
  obtain ⟨A, B, _⟩ := C119_partial f hg tab false [] [] hf s es hes'
  constructor
  · intro hinc t htl
    obtain ⟨hf', s', _, h, _⟩ := C58_partial f hg tab ht t htl hf hok s es hes hinc hcan hnew hdist
    exact ⟨s', hf', h, (A hinc t htl).1⟩
  · intro e ho hinc X Y hX hd
    obtain ⟨hf', s', _, h, _⟩ := C66_extract_partial f hg tab ht hf hok s es hes e ho hinc hcan hnew hdist X Y hX hd
    exact ⟨s', hf', h, (B e ho hinc X Y hX hd).1⟩

/-- An empty directory. -/
def emptyDir : Sys := ⟨fun _ => none, [], [], fun _ => true, ⟨0, 0, 0, 0⟩, false⟩

/-- What extracting does to the archive of C85 on which decoding never ends. -/
theorem hang5_extract : (makeCrcTable >>= fun tab =>
    (commandExtractD ⟨false, false⟩ (others tab) tab Opts.default false Hf.fresh emptyDir (some hangArchive5)).map (·.1)) = .error .diverge := by
  decide +kernel

theorem hang5_dry : (makeCrcTable >>= fun tab =>
    (commandExtractN ⟨false, false⟩ tab Opts.default false Hf.fresh emptyDir (some hangArchive5)).map (·.1)) = .ok false := by
  decide +kernel

/-- **C119 is false**: for the archive of C85 the dry run reports no error, and extracting never returns. -/
theorem C119_false (tab : Arr) (ht : makeCrcTable = .ok tab) :
    (∃ s hf, commandExtractN ⟨false, false⟩ tab Opts.default false Hf.fresh emptyDir (some hangArchive5) = .ok (false, s, hf)) ∧
    commandExtractD ⟨false, false⟩ (others tab) tab Opts.default false Hf.fresh emptyDir (some hangArchive5) = .error .diverge := by
  refine ⟨?_, run_diverges (fun tab => commandExtractD ⟨false, false⟩ (others tab) tab Opts.default false Hf.fresh emptyDir (some hangArchive5)) _ hang5_extract tab ht⟩
  have h := hang5_dry
  rw [ht, ok_bind] at h
  cases hk : commandExtractN ⟨false, false⟩ tab Opts.default false Hf.fresh emptyDir (some hangArchive5) with
  | error e => rw [hk] at h; cases h
  | ok r =>
    rw [hk] at h
    obtain ⟨b, s, hf⟩ := r
    have : b = false := by cases h; rfl
    exact ⟨s, hf, by rw [this]⟩

/-- Cases covered: a file `a`, packed with `-lzs-`, and behind it an entry of the unknown method `-lhx-`. -/
example : (∀ e ∈ [sampleEntry [45, 108, 122, 115, 45] [97] [0xa0, 0x80] [65]], e.Ok ∧ e.method ∈ named) ∧
    NonInc 1024 ([sampleEntry [45, 108, 122, 115, 45] [97] [0xa0, 0x80] [65]] ++ [sampleEntry (methodName "-lhx-") [98] [] []]) ∧ Tail [0] ∧
    methodName "-lhx-" ∉ named ∧ (methodName "-lhx-").length = 5 :=
  ⟨fun e he => by rw [List.mem_singleton.1 he]; exact ⟨(sample_sound [97] (by decide) (by decide) (by decide)).ok, by decide +kernel⟩,
    by simp [NonInc, sampleEntry], Or.inr ⟨[], rfl⟩, by decide +kernel, by decide +kernel⟩

end Lha
