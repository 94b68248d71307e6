import Verif.Model.Value
import Verif.Props.C38
import Verif.Props.C44
import Verif.Props.C51
import Verif.Props.C62
/-!
# C88: an `Lha` value can be used for several calls

False: `Compress` and `CompressBytes` leave the names they were given in the value, where `Headers` and `CommandExtract` take them for the names asked for and the next
`Compress` or `CompressBytes` for further files to add; `Decompress` and `DecompresBytes` set the header level.
-/

namespace Lha

open Spec

theorem skip_only (P T : List Nat) : skipTo P.length (P ++ T) = some T := by
  unfold skipTo readF
  by_cases h : P = []
  · subst h; simp
  · rw [if_neg (by simp [h])]; simp

/-- Without an exclusion list upper case does not matter. -/
theorem addItems_up (f : Fmt) (tab : Arr) (e : Env) (up : List Nat → List Nat) (m level : Nat) (arch : List Nat) (items : List (List Nat × Option (List Nat))) :
    ∀ st, addItems f tab e up m level arch [] items st = addItems f tab e id m level arch [] items st := by
  induction items with
  | nil => intro st; rfl
  | cons x items ih =>
    intro st
    unfold addItems
    simp only [timesAdded, if_true, ih]

theorem commandAdd_up (f : Fmt) (tab : Arr) (e : Env) (up : List Nat → List Nat) (m level : Nat) (arch : List Nat) (move : Bool) (items : List (List Nat × Option (List Nat)))
    (old : Option (List Nat)) (p : Proc) :
    commandAdd f tab e up m level arch [] move items old p = commandAdd f tab e id m level arch [] move items old p := by
  unfold commandAdd
  simp only [addItems_up f tab e up]

/-- `Headers` with names asked for stops with an error at the first entry. -/
theorem headers_asked (f : Fmt) (hg : f.generic = false) (oth : Oth) (tab : Arr) (o : Opts) (hw : o.want ≠ []) (hn : ∀ w ∈ o.want, 0 ∉ w) (hf : Hf) (en : Entry) (hok : en.Ok)
    (es : List Entry) (t : List Nat) :
    ∃ h, Parsed en h ∧ headers f oth tab o hf (some (archive (en :: es) t)) = .ok ⟨true, [h], hf⟩ := by
  obtain ⟨g, e1, P⟩ := entry_parse f hg tab en hok newHdr newHdr_method (by rw [newHdr_name]; have := hok.name; omega) (archive es t)
  refine ⟨g, P, ?_⟩
  have hneed : needFile o g.name = false := by
    rw [Bool.eq_false_iff]
    intro h
    rcases (C38_needFile_partial _ _).mp h with h | h
    · exact hw h
    · exact hn _ h (by rw [P.name]; simp)
  unfold headers headersLoop
  simp only []
  rw [archive_cons, e1, ok_bind]
  simp only [hneed, Bool.false_eq_true, if_false, P.packed, skip_only]
  rfl

/-- **C88 is false**: whatever `CompressBytes` has put into a new archive (under the hypotheses of C49), listing it with a new `Lha` value succeeds, but with the value just used
it returns an error, and extracting with that value extracts nothing, without an error. -/
theorem C88_false (f : Fmt) (hgen : f.generic = false) (oth : Oth) (tab : Arr) (ht : makeCrcTable = .ok tab) (e : Env) (hperm : e.perm < 512) (up : List Nat → List Nat)
    (m : Nat) (hm : m = 5 ∨ m = 6 ∨ m = 7) (arch name body : List Nat) (hname : name ≠ arch) (hz : 0 ∉ name)
    (hb1 : (baseName name).length ≤ 221) (hb2 : 0 ∉ baseName name) (hb3 : 0x5c ∉ baseName name)
    (p : Proc) (hp : ∀ g, geoOf m = some g → ProcOk g p) (hD : IsBytes body) (hlen : body.length < 2 ^ 32)
    (hfirst : body.getD 0 0 &&& 32 = 0) (hpack : body ≠ [] → Packs m tab p body) (h7 : m = 7 → body.length < 65536) (hf : Hf) (hok : HfOk hf) (fs : Fs) :
    ∃ c v a g hf', Val.compressBytes f tab e up m 0 arch name body none p Val.new = .ok (some c, v) ∧ c.err = false ∧ c.archive = some a ∧
      Val.new.headers f oth tab hf (some a) = .ok ⟨false, [g], hf'⟩ ∧ (∃ h, v.headers f oth tab hf (some a) = .ok ⟨true, [h], hf⟩) ∧
      ∀ r, v.extract f oth tab fs false hf (some a) = .ok r → r.files = [] := by
  obtain ⟨c, a, g, hf1, h1, h2, h3, h4, _⟩ := C01_round_trip_partial f oth tab ht e hperm m hm arch name body hname p hp hD hlen hfirst hpack h7 hf hok
  obtain ⟨c', en, k1, k2, k3, k4, _⟩ := C49_partial f hgen tab ht e hperm m hm arch name body hname hb1 hb2 hb3 p hp hD hlen hfirst hpack
  rw [h1] at k1
  cases k1
  rw [h3] at k3
  cases k3
  have hw : (⟨false, false, [], [name]⟩ : Opts).want ≠ [] := by simp
  have hw0 : ∀ w ∈ (⟨false, false, [], [name]⟩ : Opts).want, 0 ∉ w := by
    intro w hw
    rw [List.mem_singleton.1 hw]
    exact hz
  have hcall : commandAdd f tab e up m 0 arch [] false [(name, some body)] none p = .ok (some c) := by
    rw [← h1, commandAdd_up]
    rfl
  obtain ⟨h, _, k5⟩ := headers_asked f hgen oth tab ⟨false, false, [], [name]⟩ hw hw0 hf en k4 [] [0]
  refine ⟨c, ⟨[name], 0, m, true, [], false, false, false, []⟩, _, g, hf1, ?_, h2, h3, h4, ⟨h, k5⟩, ?_⟩
  · unfold Val.compressBytes
    simp only [Val.new, List.nil_append, List.map_cons, List.map_nil, hcall]
    rfl
  · intro r hr
    exact C38_false f oth tab ⟨false, false, [], [name]⟩ hw hw0 fs false hf _ r hr

/-- **C88 is false** for adding: whatever the first call was given (the archive existed and was left alone, C19), if the archive is removed and the next call on the same value
adds an empty file, the new archive also has an entry for the first name, with the contents of the second file; a new value makes an archive with the second file only. -/
theorem C88_false_add (f : Fmt) (hgen : f.generic = false) (tab : Arr) (ht : makeCrcTable = .ok tab) (e : Env) (hperm : e.perm < 512) (up : List Nat → List Nat)
    (m m1 l1 : Nat) (hm : m = 5 ∨ m = 6 ∨ m = 7) (arch n1 n2 body old : List Nat)
    (hname : ∀ n ∈ [n1, n2], n ≠ arch ∧ (baseName n).length ≤ 221 ∧ 0 ∉ baseName n ∧ 0x5c ∉ baseName n)
    (p : Proc) (hp : ∀ g, geoOf m = some g → ProcOk g p) :
    ∃ v c v' x y c1 v1 z, Val.compressBytes f tab e up m1 l1 arch n1 body (some old) p Val.new = .ok (some ⟨false, some old, [], p⟩, v) ∧
      Val.compressBytes f tab e up m 0 arch n2 [] none p v = .ok (some c, v') ∧ c.err = false ∧
      c.archive = some (archive [x, y] [0]) ∧ x.name = baseName n1 ∧ y.name = baseName n2 ∧ x.content = [] ∧ y.content = [] ∧ x.Ok ∧ y.Ok ∧
      Val.compressBytes f tab e up m 0 arch n2 [] none p Val.new = .ok (some c1, v1) ∧ c1.archive = some (archive [z] [0]) ∧ z.name = baseName n2 ∧ z.content = [] ∧ z.Ok := by
  obtain ⟨c, x, es, h1, h2, h3, h4, h5, h6, _, _, h7, h8⟩ := C51_partial f hgen tab ht e hperm up m hm arch n1 [] [n2] hname false p hp (by intro a ha; cases ha)
    (by decide) (by decide) (fun h => absurd rfl h)
  obtain ⟨c1, z, k1, _, k3, k4, _, k5, k6, _⟩ := C49_partial f hgen tab ht e hperm m hm arch n2 [] (hname n2 (by simp)).1 (hname n2 (by simp)).2.1 (hname n2 (by simp)).2.2.1
    (hname n2 (by simp)).2.2.2 p hp (by intro a ha; cases ha) (by decide) (by decide) (fun h => absurd rfl h)
  obtain ⟨y, hy⟩ : ∃ y, es = [y] := by
    have hl := congrArg List.length h7
    rw [List.length_map, List.length_map] at hl
    exact List.length_eq_one_iff.1 hl
  subst hy
  have hcall : commandAdd f tab e up m 0 arch [] false [(n2, some [])] none p = .ok (some c1) := by
    rw [← k1, commandAdd_up]
    rfl
  refine ⟨⟨[n1], l1, m1, false, [], false, false, false, []⟩, c, ⟨[n1, n2], 0, m, true, [], false, false, false, []⟩, x, y, c1,
    ⟨[n2], 0, m, true, [], false, false, false, []⟩, z, rfl, ?_, h2, h3, h5, by simpa using h7, h6, (h8 y (by simp)).1, (h4 x (by simp)).1, (h4 y (by simp)).1, ?_, k3, k5, k6, k4⟩
  · unfold Val.compressBytes
    simp only [List.cons_append, List.nil_append, List.map_cons, List.map_nil] at h1 ⊢
    rw [h1]
    rfl
  · unfold Val.compressBytes
    simp only [Val.new, List.nil_append, List.map_cons, List.map_nil, hcall]
    rfl

/-- **C88 is false** for `CommandAdd`: for a value with header level 0 and one file, `CommandAdd` makes an archive that can be listed (under the hypotheses of C01); but after
a call of `DecompresBytes` or `Decompress` on that value, on any archive, even a missing one, an archive that makes `Headers` panic. -/
theorem C88_false_level (f : Fmt) (oth : Oth) (tab : Arr) (ht : makeCrcTable = .ok tab) (e : Env) (hperm : e.perm < 512) (up : List Nat → List Nat)
    (m : Nat) (hm : m = 5 ∨ m = 6 ∨ m = 7) (arch name body : List Nat) (hname : name ≠ arch)
    (p : Proc) (hp : ∀ g, geoOf m = some g → ProcOk g p) (hD : IsBytes body) (hlen : body.length < 2 ^ 32)
    (hfirst : body.getD 0 0 &&& 32 = 0) (hpack : body ≠ [] → Packs m tab p body) (h7 : m = 7 → body.length < 65536) (hf : Hf) (hok : HfOk hf)
    (sfx : Bool) (want : List Nat) (other : Option (List Nat)) (fs : Fs) (v v1 : Val) (hv : v = { Val.new with files := [name], method := m })
    (hread : (∃ r, v.decompresBytes f oth tab sfx want hf other = .ok (r, v1)) ∨ ∃ r, v.decompress f oth tab fs sfx want hf other = .ok (r, v1)) :
    (∃ c a g hf', v.add f tab e up arch (fun _ => some body) none p = .ok (some c) ∧ c.archive = some a ∧ Val.new.headers f oth tab hf (some a) = .ok ⟨false, [g], hf'⟩) ∧
      ∀ c, v1.add f tab e up arch (fun _ => some body) none p = .ok (some c) →
        ∃ a, c.err = false ∧ c.archive = some a ∧ ∀ hf', Val.new.headers f oth tab hf' (some a) = .error .panic := by
  subst hv
  have hv1 : v1 = ⟨[name], 2, m, false, [], false, false, false, []⟩ := by
    rcases hread with ⟨r, h⟩ | ⟨r, h⟩
    · obtain ⟨_, _, h⟩ := bind_ok h
      cases h
      rfl
    · obtain ⟨_, _, h⟩ := bind_ok h
      cases h
      rfl
  subst hv1
  constructor
  · obtain ⟨c, a, g, hf1, h1, h2, h3, h4, _⟩ := C01_round_trip_partial f oth tab ht e hperm m hm arch name body hname p hp hD hlen hfirst hpack h7 hf hok
    refine ⟨c, a, g, hf1, ?_, h3, h4⟩
    rw [← h1]
    unfold Val.add compressBytes
    rw [if_neg (by simp [Val.new])]
    exact commandAdd_up f tab e up m 0 arch false [(name, some body)] none p
  · intro c hc
    unfold Val.add commandAdd addItems at hc
    simp only [Bool.false_eq_true, false_and, if_false, List.map_cons, List.map_nil, timesAdded, if_true, if_neg hname] at hc
    rw [if_neg (by simp)] at hc
    unfold appendTimes appendOne at hc
    obtain ⟨o1, e1, hc⟩ := bind_ok hc
    obtain ⟨o2, e2, e1⟩ := bind_ok e1
    obtain ⟨o3, e3, e2⟩ := bind_ok e2
    simp only [] at e3
    obtain ⟨st, e4, e3⟩ := bind_ok e3
    cases e3
    simp only [] at e2
    unfold appendTimes at e2
    cases e2
    simp only [] at e1
    unfold addItems at e1
    cases e1
    obtain ⟨l1, l2⟩ := initHeader_level hperm (by omega : 2 < 256) name body.length
    obtain ⟨s1, s2⟩ := addOne_starts2 l1 l2 (Or.inl rfl) e4
    simp only [] at hc
    obtain ⟨o4, e5, hc⟩ := bind_ok hc
    unfold copyTail at e5
    rw [s2] at e5
    simp only [] at e5
    cases e5
    simp only [] at hc
    cases hc
    refine ⟨_, rfl, rfl, ?_⟩
    intro hf'
    unfold Val.headers headers headersLoop
    simp only []
    have := (s1.append [0]).panics f.generic newHdr
    rw [show (⟨f.generic, f.convertCase⟩ : Fmt) = f from rfl] at this
    rw [this]
    rfl

/-- Reading calls on a value.  What they read and return does not matter here. -/
inductive Read (f : Fmt) (oth : Oth) (tab : Arr) : Val → Val → Prop
  | headers {v : Val} {hf : Hf} {arch : Option (List Nat)} {r : HeadersOut} : v.headers f oth tab hf arch = .ok r → Read f oth tab v v
  | extract {v : Val} {fs : Fs} {sfx : Bool} {hf : Hf} {arch : Option (List Nat)} {r : FilesOut} : v.extract f oth tab fs sfx hf arch = .ok r → Read f oth tab v v
  | bytes {v v' : Val} {sfx : Bool} {want : List Nat} {hf : Hf} {arch : Option (List Nat)} {r : ReadOut} :
      v.decompresBytes f oth tab sfx want hf arch = .ok (r, v') → Read f oth tab v v'
  | file {v v' : Val} {fs : Fs} {sfx : Bool} {want : List Nat} {hf : Hf} {arch : Option (List Nat)} {r : FilesOut} :
      v.decompress f oth tab fs sfx want hf arch = .ok (r, v') → Read f oth tab v v'

/-- Any number of them, one after the other. -/
inductive ReadAll (f : Fmt) (oth : Oth) (tab : Arr) : Val → Val → Prop
  | nil {v : Val} : ReadAll f oth tab v v
  | cons {v v1 v2 : Val} : Read f oth tab v v1 → ReadAll f oth tab v1 v2 → ReadAll f oth tab v v2

/-- Reading changes at most the header level. -/
theorem readAll_val {f : Fmt} {oth : Oth} {tab : Arr} {v v' : Val} (h : ReadAll f oth tab v v') : ∃ l, v' = { v with level := l } := by
  induction h with
  | nil => exact ⟨_, rfl⟩
  | cons h _ ih =>
    obtain ⟨l, hl⟩ := ih
    subst hl
    cases h with
    | headers => exact ⟨l, rfl⟩
    | extract => exact ⟨l, rfl⟩
    | bytes h =>
      obtain ⟨_, _, h⟩ := bind_ok h
      cases h
      exact ⟨l, rfl⟩
    | file h =>
      obtain ⟨_, _, h⟩ := bind_ok h
      cases h
      exact ⟨l, rfl⟩

/-- **C88**, the part that holds.  (Full statement: after any calls on the value, any call does what it does on a new value with the same options.)  After any number of reading
calls on a value (`Headers`, `CommandExtract`, `DecompresBytes`, `Decompress`, on any archives, successful or not), every further call except `CommandAdd` does what it
would have done before them, and leaves the same value behind (up to the header level): on a new value, exactly what the functions of the other properties do. -/
theorem C88_reading_partial (f : Fmt) (oth : Oth) (tab : Arr) (v v' : Val) (h : ReadAll f oth tab v v') :
    (∀ hf arch, v'.headers f oth tab hf arch = v.headers f oth tab hf arch) ∧
    (∀ fs sfx hf arch, v'.extract f oth tab fs sfx hf arch = v.extract f oth tab fs sfx hf arch) ∧
    (∀ sfx want hf arch, v'.decompresBytes f oth tab sfx want hf arch = v.decompresBytes f oth tab sfx want hf arch) ∧
    (∀ fs sfx want hf arch, v'.decompress f oth tab fs sfx want hf arch = v.decompress f oth tab fs sfx want hf arch) ∧
    (∀ e up m level archive name body arch p, v'.compressBytes f tab e up m level archive name body arch p = v.compressBytes f tab e up m level archive name body arch p) ∧
    (∀ e up m level archive name body p, v'.compress f tab e up m level archive name body none p = v.compress f tab e up m level archive name body none p) ∧
    (v = Val.new → ∀ e m level archive name body arch p, ∃ v2, v'.compressBytes f tab e id m level archive name body arch p =
      (Lha.compressBytes f tab e m level archive name body arch p).map (fun c => (c, v2))) := by
  obtain ⟨l, rfl⟩ := readAll_val h
  refine ⟨fun _ _ => rfl, fun _ _ _ _ => rfl, fun _ _ _ _ => rfl, fun _ _ _ _ _ => rfl, fun _ _ _ _ _ _ _ _ _ => rfl, fun _ _ _ _ _ _ _ _ => rfl, ?_⟩
  intro hv e m level archive name body arch p
  subst hv
  refine ⟨⟨[name], level, m, arch.isNone, [], false, false, false, []⟩, ?_⟩
  unfold Val.compressBytes Lha.compressBytes
  cases arch with
  | some a => rfl
  | none =>
    simp only [Val.new, List.nil_append, List.map_cons, List.map_nil]
    cases commandAdd f tab e id m level archive [] false [(name, some body)] none p <;> rfl

/-- A sequence of reading calls: `Headers` and `DecompresBytes` on a missing archive, both with an error. -/
example (f : Fmt) (oth : Oth) (tab : Arr) (hf : Hf) : ReadAll f oth tab Val.new { Val.new with level := 2 } :=
  .cons (.headers (hf := hf) (arch := none) rfl) (.cons (.bytes (sfx := false) (want := [97]) (hf := hf) (arch := none) rfl) .nil)

/-- The hypotheses of `C88_false` and `C88_false_level` are met by forty times `A` (see C01), those of `C88_false_add` by the names `a` and `b` and the archive `x`. -/
example (tab : Arr) (ht : makeCrcTable = .ok tab) : Packs 5 tab Proc.fresh sampleBody ∧ IsBytes sampleBody ∧ sampleBody.getD 0 0 &&& 32 = 0 ∧
    (∀ g, geoOf 5 = some g → ProcOk g Proc.fresh) ∧
    ∀ n ∈ [[97], [98]], n ≠ [120] ∧ (baseName n).length ≤ 221 ∧ 0 ∉ baseName n ∧ 0x5c ∉ baseName n :=
  ⟨sampleBody_packs tab ht, by intro x hx; rw [List.eq_of_mem_replicate hx]; decide, by decide, fun g _ => ⟨by constructor <;> rfl, Or.inl rfl⟩, by decide⟩

/-- `CommandAdd` does end normally after the header level has been set to 2: with an empty file `a` and the archive `x`. -/
example : (do
    let tab ← makeCrcTable
    let c ← Val.add ⟨false, false⟩ tab ⟨0, 0o644, 0, 0, fun _ => ⟨1970, 1, 1, 0, 0, 0⟩⟩ id [120] (fun _ => some []) none Proc.fresh { Val.new with files := [[97]], level := 2 }
    .ok (c.map (fun c => c.err)) : G (Option Bool)) = .ok (some false) := by decide +kernel

end Lha
