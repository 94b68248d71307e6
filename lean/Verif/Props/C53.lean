import Verif.Props.C42
/-!
# C53: extracting into a chosen directory
-/

namespace Lha

open Spec

/-- With `ExtractDirectory` set no name of at most 222 bytes can be dealt with. -/
theorem makeName_dir (o : Opts) (hd : o.extDir ≠ []) (q : List Nat) (hq : 0x2f ∉ q) (hl : q.length ≤ 222) : makeName o q = .error .panic := by
  unfold makeName
  have := List.length_pos_iff.mpr hd
  rw [if_neg hq, if_neg hd]
  simp only []
  rw [if_neg (by omega)]
  rfl

theorem lastName_noslash (l : List Nat) : 0x2f ∉ lastName l := by
  rcases split_last_slash l with hs | ⟨A, Y, hn, hY⟩
  · rw [lastName_of hs (Or.inl rfl)]; exact hs
  · rw [lastName_of hY (Or.inr ⟨A, hn⟩)]; exact hY

/-- **C53 is false**: as soon as `ExtractDirectory` is set, extracting any entry crashes, whatever the directory, the other options and the rest of the
archive are. -/
theorem C53_false (f : Fmt) (hg : f.generic = false) (oth : Oth) (tab : Arr) (o : Opts) (hd : o.extDir ≠ []) (fs : Fs) (e : Entry) (ho : e.Ok)
    (hneed : needFile o (e.name ++ [0]) = true) (R : List Nat) (hf : Hf) :
    commandExtract f oth tab o fs false hf (some (e.bytes ++ R)) = .error .panic := by
  obtain ⟨g, e1, P⟩ := entry_parse f hg tab e ho newHdr newHdr_method (by rw [newHdr_name]; have := ho.name; omega) R
  have hname : entryName o g = .error .panic := by
    have hl := lastName_length e.name
    have h0 := ho.name
    cases hi : o.ignoreDir with
    | false =>
      rw [P.entryName_plain o hi, makeName_dir o hd _ (by simp [lastName_noslash]) (by simp; omega)]
      rfl
    | true =>
      rw [P.entryName_ignore o hi, makeName_dir o hd]
      · rfl
      · split
        · simp [lastName_noslash]
        · rename_i hs
          exact fun hc => hs (by have := List.mem_of_mem_drop hc; simpa using this)
      · split
        · simp; omega
        · simp; omega
  unfold commandExtract
  simp only [Bool.false_eq_true, if_false]
  rw [ok_bind]
  unfold extractLoop
  rw [e1, ok_bind]
  simp only []
  rw [if_pos (by rw [P.name]; exact hneed)]
  unfold extractOne
  rw [hname]
  rfl

/-- **C53 (partial).**  Full statement: with `ExtractDirectory` set, `CommandExtract` writes every entry into that directory under its name.  What
remains: without the option, every entry goes to the current directory (C42), and a call with the option that returns has created nothing
unless the archive holds a name of more than 222 bytes, which a level-0 header cannot. -/
theorem C53_partial (f : Fmt) (hg : f.generic = false) (tab : Arr) (o : Opts) (hd : o.extDir ≠ []) (hw : o.want = []) (fs : Fs)
    (es : List Entry) (hes : ∀ e ∈ es, e.Ok) (t : List Nat) (htl : Tail t) (hf : Hf) (r : FilesOut)
    (hr : commandExtract f (others tab) tab o fs false hf (some (archive es t)) = .ok r) : es = [] ∧ r.files = [] := by
  cases es with
  | nil =>
    refine ⟨rfl, ?_⟩
    unfold commandExtract at hr
    simp only [Bool.false_eq_true, if_false, ok_bind] at hr
    unfold extractLoop at hr
    rcases tail_end f tab newHdr htl with e | e
    · rw [show archive [] t = t from rfl, e, ok_bind] at hr; cases hr; rfl
    · rw [show archive [] t = t from rfl, e, ok_bind] at hr; cases hr; rfl
  | cons e es =>
    rw [archive_cons, C53_false f hg (others tab) tab o hd fs e (hes e List.mem_cons_self) (by simp [needFile, hw])] at hr
    cases hr

/-- The hypotheses are met by the directory `out` and an entry `b`. -/
example : ({ Opts.default with extDir := [111, 117, 116] } : Opts).extDir ≠ [] ∧ (sampleEntry [45, 108, 122, 115, 45] [98] [0xa0, 0x80] [65]).Ok :=
  ⟨by simp, (sample_sound [98] (by decide) (by decide) (by decide)).ok⟩

end Lha
