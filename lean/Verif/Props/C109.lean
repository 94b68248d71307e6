import Verif.Spec.Confined
import Verif.Props.C92
/-!
# C109: with Force extraction stays in the current directory
-/

namespace Lha

open Spec

theorem Spec.Confined.refl (s : Sys) : Confined s s := ⟨⟨[], rfl⟩, fun _ => Or.inl rfl, ⟨[], by simp, by simp⟩⟩

/-- What is a way out after an extraction was one before: no link is made. -/
theorem Spec.Confined.bridge {s s' : Sys} (h : Confined s s') {n : List Nat} (hb : Bridge (s'.node n)) : Bridge (s.node n) := by
  rcases h.node n with e | ⟨_, ⟨⟨c, m, e⟩, _⟩ | ⟨m, m', _, e⟩⟩
  · rw [← e]; exact hb
  · rw [e] at hb; rcases hb with ⟨_, _, h⟩ | h <;> cases h
  · rw [e] at hb; rcases hb with ⟨_, _, h⟩ | h <;> cases h

theorem Spec.Confined.trans {a b c : Sys} (h : Confined a b) (k : Confined b c) : Confined a c := by
  refine ⟨?_, ?_, ?_⟩
  · obtain ⟨u, hu⟩ := h.read
    obtain ⟨v, hv⟩ := k.read
    exact ⟨u ++ v, by rw [hu, hv, List.append_assoc]⟩
  · intro n
    rcases k.node n with e | ⟨hn, e⟩
    · rw [e]; exact h.node n
    · rcases h.node n with e' | ⟨hn', e'⟩
      · rw [← e']; exact Or.inr ⟨hn, e⟩
      · refine Or.inr ⟨hn, ?_⟩
        rcases e with ⟨e1, e2⟩ | ⟨m, m', e1, e2⟩
        · rcases e' with ⟨_, e4⟩ | ⟨m, m', _, e4⟩
          · exact Or.inl ⟨e1, e4⟩
          · rw [e4] at e2
            rcases e2 with e2 | ⟨_, _, e2⟩ <;> cases e2
        · rcases e' with ⟨⟨_, _, e3⟩, _⟩ | ⟨m0, m1, e3, _⟩
          · rw [e3] at e1; cases e1
          · exact Or.inr ⟨m0, m', e3, e2⟩
  · obtain ⟨x, x1, x2⟩ := h.outside
    obtain ⟨y, y1, y2⟩ := k.outside
    refine ⟨x ++ y, by rw [y1, x1, List.append_assoc], fun z hz => ?_⟩
    rcases List.mem_append.mp hz with hz | hz
    · exact x2 z hz
    · obtain ⟨n, n1, n2, n3⟩ := y2 z hz
      exact ⟨n, n1, h.bridge n2, n3⟩

/-- A question changes nothing but the lines to come, and with `Force` there is none. -/
theorem inquireExtract_asked {s s' : Sys} {force up : Bool} {n : List Nat} (h : inquireExtract s force n = .ok (up, s')) :
    Confined s s' ∧ (force = true → s' = s) := by
  cases force with
  | false =>
    obtain ⟨u, hu, _⟩ := inquireExtract_ok h
    refine ⟨⟨⟨u, by rw [hu]⟩, fun n => Or.inl (by rw [hu]), ⟨[], by rw [hu]; simp, by simp⟩⟩, fun h => by cases h⟩
  | true =>
    have : s' = s := by
      unfold inquireExtract at h
      split at h
      · cases h; rfl
      · cases h; rfl
      · rw [if_pos rfl] at h; cases h; rfl
      · cases h; rfl
    subst this
    exact ⟨.refl _, fun _ => rfl⟩

theorem lstat_node {s : Sys} {n : List Nat} {x : Node} (hx : s.lstat n = .is x) : s.node n = some x := by
  unfold Sys.lstat at hx
  split at hx
  · cases hx
  · split at hx
    · cases hx
    · split at hx
      · cases hx
      · cases hx; assumption

theorem adjustInfo_confined (s : Sys) {n : List Nat} (hn : 0x2f ∉ n) (h : Hdr) : Confined s (adjustInfo s n h) ∧ (adjustInfo s n h).answers = s.answers := by
  unfold adjustInfo
  simp only []
  split
  · exact ⟨.refl _, rfl⟩
  · exact ⟨.refl _, rfl⟩
  · rename_i c m hl
    refine ⟨⟨⟨[], rfl⟩, fun k => ?_, ⟨[], by simp [Sys.set], by simp⟩⟩, rfl⟩
    by_cases hk : k = n
    · subst hk
      exact Or.inr ⟨hn, Or.inl ⟨⟨_, _, if_pos rfl⟩, Or.inr ⟨_, _, lstat_node hl⟩⟩⟩
    · left; simp [Sys.set, hk]
  · rename_i m hl
    refine ⟨⟨⟨[], rfl⟩, fun k => ?_, ⟨[], by simp [Sys.set], by simp⟩⟩, rfl⟩
    by_cases hk : k = n
    · subst hk
      exact Or.inr ⟨hn, Or.inr ⟨_, _, lstat_node hl, if_pos rfl⟩⟩
    · left; simp [Sys.set, hk]
  · rename_i x h1 h2 hl
    refine ⟨⟨⟨[], rfl⟩, fun k => Or.inl rfl, ⟨[.attr n], rfl, fun y hy => ?_⟩⟩, rfl⟩
    refine ⟨n, hn, ?_, Or.inl (by simpa using hy)⟩
    rw [lstat_node hl]
    cases x with
    | file c m => exact absurd rfl (h1 c m)
    | dir m => exact absurd rfl (h2 m)
    | link t d => exact Or.inl ⟨t, d, rfl⟩
    | other => exact Or.inr rfl

theorem write_confined {s : Sys} {n : List Nat} (hn : 0x2f ∉ n) (hc : s.canCreate n = true) (c : List Nat) :
    Confined s (s.write n c) ∧ (s.write n c).answers = s.answers := by
  unfold Sys.write
  have key : ∀ x, (∀ m, s.node n ≠ some (.dir m)) → (s.node n = none ∨ ∃ c m, s.node n = some (.file c m)) →
      Confined s (s.set n (.file c x)) ∧ (s.set n (.file c x)).answers = s.answers := by
    intro x _ h
    refine ⟨⟨⟨[], rfl⟩, fun k => ?_, ⟨[], by simp [Sys.set], by simp⟩⟩, rfl⟩
    by_cases hk : k = n
    · subst hk
      exact Or.inr ⟨hn, Or.inl ⟨⟨_, _, if_pos rfl⟩, h⟩⟩
    · left; simp [Sys.set, hk]
  have hd : ∀ m, s.node n ≠ some (.dir m) := by
    intro m e
    unfold Sys.canCreate at hc
    rw [e] at hc
    simp at hc
  split
  · rename_i e; exact key _ hd (Or.inl e)
  · rename_i c m e; exact key _ hd (Or.inr ⟨_, _, e⟩)
  · rename_i x h1 e
    refine ⟨⟨⟨[], rfl⟩, fun k => Or.inl rfl, ⟨[.write n c], rfl, fun y hy => ?_⟩⟩, rfl⟩
    refine ⟨n, hn, ?_, Or.inr ⟨c, by simpa using hy⟩⟩
    rw [e]
    cases x with
    | file c m => exact absurd rfl (h1 c m)
    | dir m => exact absurd e (hd m)
    | link t d => exact Or.inl ⟨t, d, rfl⟩
    | other => exact Or.inr rfl

/-- One entry, with any options. -/
theorem extractOneD_confined {oth : Oth} {tab : Arr} {o : Opts} {s s' : Sys} {hf : Hf} {h : Hdr} (hr : RealOk h)
    {inp : List Nat} {r : Option OneOut} (hx : extractOneD oth tab o s hf h inp = .ok (r, s')) :
    Confined s s' ∧ (o.force = true → s'.answers = s.answers) := by
  unfold extractOneD at hx
  obtain ⟨en, he, hx⟩ := bind_ok hx
  have same : Confined s s ∧ (o.force = true → s.answers = s.answers) := ⟨.refl _, fun _ => rfl⟩
  split at hx
  · cases hx; exact same
  · rename_i name hname
    have hns := (entryName_spec he).2 name hname rfl
    simp only [] at hx
    split at hx
    · cases hx; exact same
    · split at hx
      · obtain ⟨⟨up, s1⟩, h1, hx⟩ := bind_ok hx
        obtain ⟨hu, hq⟩ := inquireExtract_asked h1
        have asked : Confined s s1 ∧ (o.force = true → s1.answers = s.answers) := ⟨hu, fun h => by rw [hq h]⟩
        simp only [] at hx
        split at hx
        · cases hx; exact asked
        · split at hx
          · rename_i hcan
            obtain ⟨d, _, hx⟩ := bind_ok hx
            cases hx
            obtain ⟨w1, w2⟩ := write_confined hns hcan d.out
            exact ⟨hu.trans w1, fun h => w2.trans (asked.2 h)⟩
          · cases hx; exact asked
      · split at hx
        · split at hx
          · cases hx
            split
            · exact same
            · obtain ⟨w1, w2⟩ := adjustInfo_confined s hns { h with name := hname }
              exact ⟨w1, fun _ => w2⟩
          · split at hx
            · obtain ⟨⟨up, s1⟩, h1, hx⟩ := bind_ok hx
              obtain ⟨hu, hq⟩ := inquireExtract_asked h1
              have asked : Confined s s1 ∧ (o.force = true → s1.answers = s.answers) := ⟨hu, fun h => by rw [hq h]⟩
              simp only [] at hx
              split at hx
              · cases hx; exact asked
              · cases hx
                rw [symlink_none s1 hr.nul]
                obtain ⟨w1, w2⟩ := adjustInfo_confined s1 hns { h with name := hname }
                exact ⟨hu.trans w1, fun h => w2.trans (asked.2 h)⟩
            · have hp := makeParentPath_state s name
              generalize makeParentPath s name = z at hx hp
              obtain ⟨ok, s1⟩ := z
              simp only [] at hx hp
              rw [hp] at hx
              split at hx
              · cases hx
              · cases hx; exact same
        · split at hx
          · cases hx
            obtain ⟨w1, w2⟩ := adjustInfo_confined s hns { h with name := hname }
            exact ⟨w1, fun _ => w2⟩
          · cases hx; exact same

/-- A whole archive, whatever is in it. -/
theorem extractLoopD_confined {f : Fmt} {tab : Arr} {o : Opts} {need : List Nat → Bool} (n : Nat) :
    ∀ {h : Hdr} {hf hf' : Hf} {s s' : Sys} {inp : List Nat} {e : Bool}, IsBytes inp → RealOk h →
      extractLoopD f (others tab) tab o need n h hf s inp = .ok (e, s', hf') → Confined s s' ∧ (o.force = true → s'.answers = s.answers) := by
  induction n with
  | zero => intro h hf hf' s s' inp e _ _ hx; cases hx
  | succ n ih =>
    intro h hf hf' s s' inp e hi hr hx
    have same : Confined s s ∧ (o.force = true → s.answers = s.answers) := ⟨.refl _, fun _ => rfl⟩
    unfold extractLoopD at hx
    obtain ⟨x, hg, hx⟩ := bind_ok hx
    split at hx
    · cases hx; exact same
    · cases hx; exact same
    · cases hx; exact same
    · rename_i g rest
      obtain ⟨hr', hi'⟩ := getHeader_real hi hr hg
      split at hx
      · obtain ⟨⟨r, s1⟩, h1, hx⟩ := bind_ok hx
        have hu := extractOneD_confined hr' h1
        split at hx
        · rename_i heq
          cases heq
          cases hx
          exact hu
        · rename_i d s2 heq
          cases heq
          obtain ⟨k, hk⟩ := extractOneD_rest h1
          have hb : IsBytes d.rest := by rw [hk]; exact isBytes_drop hi' _
          simp only [] at hx
          split at hx
          · split at hx
            · cases hx; exact hu
            · rename_i q hq
              unfold skipTo at hq
              obtain ⟨⟨a, b⟩, h2, h3⟩ := Option.map_eq_some_iff.mp hq
              have hbq : IsBytes q := by rw [← h3]; show IsBytes b; rw [(readF_some h2).2]; exact isBytes_drop hb _
              have hv := ih hbq (h := { g with name := d.name }) hr' hx
              exact ⟨hu.1.trans hv.1, fun h => (hv.2 h).trans (hu.2 h)⟩
          · have hv := ih hb (h := { g with name := d.name }) hr' hx
            exact ⟨hu.1.trans hv.1, fun h => (hv.2 h).trans (hu.2 h)⟩
      · have hb : IsBytes ((skipTo g.packedSize rest).getD []) := by
          unfold skipTo
          cases hq : readF g.packedSize rest with
          | none => intro x hx; cases hx
          | some ab =>
            obtain ⟨a, b⟩ := ab
            show IsBytes b
            rw [(readF_some hq).2]
            exact isBytes_drop hi' _
        exact ih hb hr' hx

/-- **C109 (partial).**  Full statement: when `CommandExtract` returns, whatever the archive and the options (`Force` included), only plain names of the
current directory have changed, to files, and nothing outside the current directory has: links are not followed.
Proved: all of this (`Confined`), except that a name which was a symbolic link or a device before the call may have been followed.  In particular an
archive cannot bring a link of its own and then write through it.  With `Force` no line is read from the terminal. -/
theorem C109_partial (f : Fmt) (tab : Arr) (o : Opts) (sfx : Bool) (hf : Hf) (s : Sys) (arch : List Nat) (ha : IsBytes arch) (e : Bool) (s' : Sys)
    (hf' : Hf) (h : commandExtractD f (others tab) tab o sfx hf s (some arch) = .ok (e, s', hf')) :
    Confined s s' ∧ (o.force = true → s'.answers = s.answers) := by
  unfold commandExtractD at h
  simp only [] at h
  split at h
  · obtain ⟨b, hb, h⟩ := bind_ok h
    exact extractLoopD_confined _ (seek_bytes ha hb) RealOk.new h
  · rw [ok_bind] at h
    exact extractLoopD_confined _ ha RealOk.new h

/-- The same of `Decompress(header)`. -/
theorem C109_decompress_partial (f : Fmt) (tab : Arr) (o : Opts) (sfx : Bool) (want : List Nat) (hf : Hf) (s : Sys) (arch : List Nat) (ha : IsBytes arch)
    (e : Bool) (s' : Sys) (hf' : Hf) (h : decompressD f (others tab) tab o sfx want hf s (some arch) = .ok (e, s', hf')) :
    Confined s s' ∧ (o.force = true → s'.answers = s.answers) := by
  unfold decompressD at h
  simp only [] at h
  split at h
  · obtain ⟨b, hb, h⟩ := bind_ok h
    exact extractLoopD_confined _ (seek_bytes ha hb) RealOk.new h
  · rw [ok_bind] at h
    exact extractLoopD_confined _ ha RealOk.new h

/-- In a directory without links and devices nothing outside is changed. -/
theorem C109_inside (f : Fmt) (tab : Arr) (o : Opts) (sfx : Bool) (hf : Hf) (s : Sys) (hs : ∀ n, ¬ Bridge (s.node n)) (arch : List Nat)
    (ha : IsBytes arch) (e : Bool) (s' : Sys) (hf' : Hf) (h : commandExtractD f (others tab) tab o sfx hf s (some arch) = .ok (e, s', hf')) :
    s'.outside = s.outside ∧ ∀ n, ¬ Bridge (s'.node n) := by
  have hc := (C109_partial f tab o sfx hf s arch ha e s' hf' h).1
  refine ⟨?_, fun n hn => hs n (hc.bridge hn)⟩
  obtain ⟨x, h1, h2⟩ := hc.outside
  cases x with
  | nil => rw [h1, List.append_nil]
  | cons y ys =>
    obtain ⟨n, _, h3, _⟩ := h2 y List.mem_cons_self
    exact absurd h3 (hs n)

/-- With `Force` an entry that has the name of a symbolic link to a file is written through the link. -/
theorem Sound.step_through {tab : Arr} (ht : makeCrcTable = .ok tab) {e : Entry} (h : Sound e) (need : List Nat → Bool) (hneed : need (e.name ++ [0]) = true)
    {s : Sys} (hc : s.Creatable (lastName e.name)) {target : List Nat} (hn : s.node (lastName e.name) = some (.link target false)) :
    StepD tab Opts.forced need s e { s with outside := s.outside ++ [.write (lastName e.name) e.content] } := by
  intro g hf T hok P
  obtain ⟨ho, hk, m, hidx, hp⟩ := h
  obtain ⟨hf1, ok1, hdec⟩ := hp.decodes ht hf hok T
  refine Or.inr ⟨by rw [P.name]; exact hneed, ⟨e.packed.length, T, hf1, g.name, some (lastName e.name, e.content)⟩, ok1, ?_, rfl, Or.inl ⟨rfl, rfl⟩⟩
  have hq : inquireExtract s true (lastName e.name) = .ok (false, s) := by
    unfold inquireExtract
    rw [lstat_of hc, hn]
  have hcan : s.canCreate (lastName e.name) = true := by
    unfold Sys.canCreate
    rw [hn]
    simp [hc.1, hc.2.1, hc.2.2]
  have hw : s.write (lastName e.name) e.content = { s with outside := s.outside ++ [.write (lastName e.name) e.content] } := by
    unfold Sys.write
    rw [hn]
  unfold extractOneD
  rw [P.entryName_forced, ok_bind]
  simp only [P.method, hidx]
  rw [if_pos ⟨(P.fileType ho).trans hk, hp.ndir⟩]
  rw [show Opts.forced.force = true from rfl, hq, ok_bind]
  simp only [Bool.true_eq_false, and_false, if_false]
  rw [if_pos hcan, P.original, P.packed, hdec, ok_bind, hw]

/-- **C109 is false.**  With `Force`, an archive of any one file whose name is that of a symbolic link of the current directory: the file the link points
to, wherever it is, is overwritten with the content of the entry; the link stays, and the call reports success. -/
theorem C109_false (f : Fmt) (hg : f.generic = false) (tab : Arr) (ht : makeCrcTable = .ok tab) (e : Entry) (h : Sound e) (s : Sys)
    (hc : s.Creatable (lastName e.name)) (target : List Nat) (hn : s.node (lastName e.name) = some (.link target false)) (t : List Nat) (htl : Tail t)
    (hf : Hf) (hok : GOk hf) :
    ∃ hf', commandExtractD f (others tab) tab Opts.forced false hf s (some (archive [e] t)) =
      .ok (false, { s with outside := s.outside ++ [.write (lastName e.name) e.content] }, hf') := by
  obtain ⟨hf', _, h1⟩ := (RunD.cons (h.step_through ht (needFile Opts.forced) (by simp [needFile, Opts.forced, Opts.default]) hc hn) (RunD.nil _)).extract
    f hg htl (by simpa using h.ok) ⟨by have := h.ok.name; omega, trivial⟩ hf hok
  exact ⟨hf', h1⟩

/-- A directory for the example: `l` is a link to `/t`. -/
def Sys.linked : Sys := { Sys.sample with node := fun n => if n = [108] then some (.link [47, 116] false) else none }

/-- An lzs entry `x/l` and this directory meet the hypotheses. -/
example : Sound (sampleEntry [45, 108, 122, 115, 45] [120, 47, 108] [0xa0, 0x80] [65]) ∧
    Sys.linked.Creatable (lastName (sampleEntry [45, 108, 122, 115, 45] [120, 47, 108] [0xa0, 0x80] [65]).name) ∧
    Sys.linked.node (lastName (sampleEntry [45, 108, 122, 115, 45] [120, 47, 108] [0xa0, 0x80] [65]).name) = some (.link [47, 116] false) :=
  ⟨sample_sound _ (by decide) (by decide) (by decide), ⟨by decide, by decide, rfl⟩, rfl⟩

/-- The call returns, so `C109_partial` speaks about it; and something outside the directory has been written. -/
example (tab : Arr) (ht : makeCrcTable = .ok tab) (hf : Hf) (hok : GOk hf) : ∃ s' hf', commandExtractD ⟨false, false⟩ (others tab) tab Opts.forced false hf
    Sys.linked (some (archive [sampleEntry [45, 108, 122, 115, 45] [120, 47, 108] [0xa0, 0x80] [65]] [0])) = .ok (false, s', hf') ∧
    s'.outside = [.write [108] [65]] := by
  obtain ⟨hf', h⟩ := C109_false ⟨false, false⟩ rfl tab ht _ (sample_sound [120, 47, 108] (by decide) (by decide) (by decide)) Sys.linked
    ⟨by decide, by decide, rfl⟩ [47, 116] rfl [0] (Or.inr ⟨[], rfl⟩) hf hok
  exact ⟨_, hf', h, rfl⟩

end Lha
