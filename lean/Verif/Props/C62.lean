import Verif.Proof.Cli
import Verif.Props.C49
import Verif.Props.C01
import Verif.Props.C12
import Verif.Model.Methods
/-!
# C62: the command line program reads what it writes
-/

namespace Lha

open Spec

theorem mem_sortFiles (l : List (List Nat)) (x : List Nat) : x ∈ sortFiles l ↔ x ∈ l := by
  unfold sortFiles
  split
  · split
    · simp [or_comm]
    · simp
  · rfl

/-- Reading an archive that begins with a level-2 header. -/
theorem lharc_reads2 {f : Fmt} (hc : f.convertCase = false) {tab : Arr} {a : List Nat} (hs : Starts2 f tab a) (oth : Oth) (e : Env) (up : List Nat → List Nat)
    (fs : Fs) (body : List Nat → Option (List Nat)) (fl : Flags) (harc : fl.archive ≠ [])
    (hcmd : (parseOption fl).cmd = .list ∨ (parseOption fl).cmd = .extract) : lharc oth tab e up fs body fl (some a) = .error .panic := by
  have hp : ∀ b g, getHeader ⟨b, false⟩ tab g a = .error .panic := by
    intro b g
    have := hs.panics b g
    rw [hc] at this
    exact this
  unfold lharc
  rw [if_neg harc]
  rcases hcmd with h | h
  · simp only [h]
    unfold commandList
    simp only []
    unfold listLoop
    rw [hp]
    rfl
  · simp only [h]
    split
    · unfold commandTest
      simp only [Bool.false_eq_true, if_false]
      rw [ok_bind]
      unfold testLoop
      rw [hp]
      rfl
    · unfold commandExtract
      simp only [Bool.false_eq_true, if_false]
      rw [ok_bind]
      unfold extractLoop
      rw [hp]
      rfl

/-- **C62 is false**: if the header level is 2, as it is by default, then whatever files are added, to a new archive or an existing one, if at least
one file is added and the program ends normally, it crashes when it is asked to list, extract, print or test the archive. -/
theorem C62_false (oth : Oth) (tab : Arr) (e : Env) (hperm : e.perm < 512) (up : List Nat → List Nat) (fs : Fs)
    (body : List Nat → Option (List Nat)) (fl : Flags) (harc : fl.archive ≠ []) (hadd : (parseOption fl).cmd = .add)
    (hlevel : (parseOption fl).level = 2) (n : List Nat) (hn : n ∈ (parseOption fl).files) (hna : n ≠ fl.archive) (hb : body n ≠ none)
    (hx : timesAdded up (parseOption fl).exclude n ≠ 0) (arch : Option (List Nat)) (out : CliOut)
    (h : lharc oth tab e up fs body fl arch = .ok (some out)) (fl' : Flags) (harc' : fl'.archive ≠ [])
    (hcmd : (parseOption fl').cmd = .list ∨ (parseOption fl').cmd = .extract) (fs' : Fs) :
    out.exit = 0 ∧ lharc oth tab e up fs' body fl' out.arch = .error .panic := by
  unfold lharc at h
  rw [if_neg harc] at h
  simp only [hadd] at h
  obtain ⟨c, hc, h⟩ := bind_ok h
  cases c with
  | none => cases h
  | some c =>
    cases h
    unfold commandAddS at hc
    have hmem : n ∈ sortFiles (parseOption fl).files := (mem_sortFiles _ _).2 hn
    rw [if_neg (by
      intro hnil
      have := List.map_eq_nil_iff.1 hnil
      rw [this] at hmem
      cases hmem)] at hc
    obtain ⟨o, h1, h2⟩ := bind_ok hc
    cases o with
    | none => cases h2
    | some st =>
      obtain ⟨new, h3, h4⟩ := bind_ok h2
      cases h4
      rw [hlevel] at h1
      rcases addItemsS_starts2 hperm _ (Or.inl rfl) h1 with ⟨_, _, hall⟩ | hs
      · exfalso
        rcases hall (n, body n) (List.mem_map.2 ⟨n, hmem, rfl⟩) with h | h | h
        · exact hna h
        · exact hb h
        · exact hx h
      · have hs' : Starts2 ⟨(parseOption fl).generic, false⟩ tab new := by
          unfold copyRest at h3
          split at h3
          · cases h3; exact hs
          · obtain ⟨r, _, h3⟩ := bind_ok h3
            split at h3
            · obtain ⟨⟨x, y⟩, h5, h6⟩ := bind_ok h3
              cases h6
              unfold copyOldOne at h5
              obtain ⟨⟨x1, x2, x3⟩, _, h7⟩ := bind_ok h5
              cases h7
              exact hs.append _
            · cases h3; exact hs
        exact ⟨rfl, lharc_reads2 rfl (hs'.append [0]) oth e up fs' body fl' harc' hcmd⟩

/-- The flags of `lharc -archive a -c n` are such, and those of `lharc -archive a -e`, `-l`, `-t`, `-p`. -/
example (a n : List Nat) (hn : n ≠ []) (up : List Nat → List Nat) :
    (parseOption { archive := a, create := n }).cmd = .add ∧ (parseOption { archive := a, create := n }).level = 2 ∧
    n ∈ (parseOption { archive := a, create := n }).files ∧ timesAdded up (parseOption { archive := a, create := n }).exclude n ≠ 0 ∧
    (parseOption { archive := a, extract := true }).cmd = .extract ∧ (parseOption { archive := a, list := true }).cmd = .list ∧
    (parseOption { archive := a, test := true }).cmd = .extract ∧ (parseOption { archive := a, print := true }).cmd = .extract := by
  simp [parseOption, parseSubOption, parseCommand, onlyIf, Settings.init, hn, timesAdded]

/-- … and running it does end normally: with an empty file `a` and the archive `x`. -/
theorem C62_witness : ∃ tab, makeCrcTable = .ok tab ∧ ((lharc (others tab) tab ⟨0, 0o644, 0, 0, fun _ => ⟨1970, 1, 1, 0, 0, 0⟩⟩ id
    ⟨fun _ => true, fun _ => false⟩ (fun _ => some []) { archive := [120], create := [97] } none).map (fun o => (o.map (fun o => o.exit)))) = .ok (some 0) := by
  have h : ((do let tab ← makeCrcTable
                let o ← lharc (others tab) tab ⟨0, 0o644, 0, 0, fun _ => ⟨1970, 1, 1, 0, 0, 0⟩⟩ id
                  ⟨fun _ => true, fun _ => false⟩ (fun _ => some []) { archive := [120], create := [97] } none
                .ok (o.map (fun o => o.exit))) : G (Option Nat)) = .ok (some 0) := by decide +kernel
  cases ht : makeCrcTable with
  | error e => rw [ht] at h; cases h
  | ok tab =>
    rw [ht, ok_bind] at h
    refine ⟨tab, rfl, ?_⟩
    obtain ⟨o, h1, h2⟩ := bind_ok h
    rw [h1]
    exact h2

/-- `CommandAdd` of one file to a new archive. -/
theorem commandAddS_new (f : Fmt) (tab : Arr) (e : Env) (up : List Nat → List Nat) (m level : Nat) (arc name body : List Nat) (hname : name ≠ arc)
    (p : Proc) (st : AddSt) (h : addOne f tab e m (initHeader e level name body.length false) body ⟨[], none, p⟩ = .ok st) (hold : st.old = none) :
    commandAddS f tab e up m level arc [] false [(name, some body)] none p = .ok (some ⟨false, some (st.new ++ [0]), [], st.proc⟩) := by
  unfold commandAddS
  rw [if_neg (by simp)]
  unfold addItemsS
  rw [if_neg hname]
  simp only [timesAdded, if_true]
  unfold appendTimesS appendOneS
  simp only []
  rw [h]
  simp only [ok_bind]
  unfold appendTimesS
  simp only [ok_bind]
  unfold addItemsS
  simp only [ok_bind]
  unfold copyRest
  rw [hold]
  rfl

/-- **C62 (partial).**  Full statement: what `lharc -c` (or `-a`) packs, `lharc -e` unpacks, and `lharc -t` finds no fault with.  Proved with `-o 5`,
`-o 6` or `-o 7` for a new archive and one file, under the conditions of C01 (the first byte has bit 5 clear, the data gets smaller, lh7 only below
64 KiB), its base name having at most 221 bytes. -/
theorem C62_partial (oth : Oth) (tab : Arr) (ht : makeCrcTable = .ok tab) (e : Env) (hperm : e.perm < 512) (up : List Nat → List Nat) (fs : Fs)
    (hcan : ∀ n, fs.can n = true) (body : List Nat → Option (List Nat)) (m : Nat) (hm : m = 5 ∨ m = 6 ∨ m = 7) (arc name : List Nat)
    (hname : name ≠ arc) (hne0 : name ≠ []) (harc : arc ≠ []) (D : List Nat) (hb : body name = some D) (hD : IsBytes D) (hlen : D.length < 2 ^ 32)
    (hfirst : D.getD 0 0 &&& 32 = 0) (hne : D ≠ []) (hpack : Packs m tab Proc.fresh D) (h7 : m = 7 → D.length < 65536)
    (hb1 : (baseName name).length ≤ 221) (hb2 : 0 ∉ baseName name) (hb3 : 0x5c ∉ baseName name) (hb4 : 0x2f ∉ baseName name) :
    ∃ a, lharc oth tab e up fs body { archive := arc, create := name, method := m } none = .ok (some ⟨0, some a, [], [], []⟩) ∧
      lharc oth tab e up fs body { archive := arc, add := name, method := m } none = .ok (some ⟨0, some a, [], [], []⟩) ∧
      lharc oth tab e up fs body { archive := arc, extract := true } (some a) = .ok (some ⟨0, some a, [], [(baseName name, D)], []⟩) ∧
      lharc oth tab e up fs body { archive := arc, test := true } (some a) = .ok (some ⟨0, some a, [], [], []⟩) := by
  obtain ⟨tab', ht1, ht2⟩ := makeCrcTable_ok
  rw [ht1] at ht
  cases ht
  obtain ⟨g, hg⟩ : ∃ g, geoOf m = some g := by rcases hm with rfl | rfl | rfl <;> exact ⟨_, rfl⟩
  have hp : ProcOk g Proc.fresh := by
    rcases hm with rfl | rfl | rfl <;> cases hg <;> exact ⟨by constructor <;> rfl, Or.inl rfl⟩
  obtain ⟨r, hr, _⟩ := encode_ok (GeoM.of hm hg) ht2 hp D.length hD hne hfirst
  have hlt := hpack g r hg hr
  obtain ⟨p1, p2, p3, p4⟩ := packed_decodes oth ht2 hm hg hp hD hne h7 hr hlt
  obtain ⟨hf', _, hdec⟩ := p4 Hf.fresh [0] (by constructor <;> rfl)
  obtain ⟨i1, i2, i3, i4, i5, i6, i7, i8, i9⟩ := initHeader_facts e hperm name D.length
  let f : Fmt := ⟨true, false⟩
  have ha := addOne_packed f tab e m g hg (initHeader e 0 name D.length false) i1 (by rw [i2]; rfl) i5 D i6 Proc.fresh r hr hlt hne
  have hc := commandAddS_new f tab e up m 0 arc name D hname Proc.fresh _ ha rfl
  simp only [] at hc
  have hcs : cstr (initHeader e 0 name D.length false).name = baseName name := by rw [i9]; exact cstr_copyInto hb2 hb1
  generalize initHeader e 0 name D.length false = h0 at *
  have ho : EntryOk (packedHdr h0 m r) m := packed_entry m hm h0 i1 i3 i4 i5 r (by rw [p1]; exact hlen) hlt r.crc (by rw [p2]; exact crc16_lt _ _ (by omega))
  obtain ⟨q, e0, e1, e2, e3, e4, e5, e6, e7, e8⟩ := entry_read f tab (e.gst h0.stamp) _ m ho (r.out ++ [0])
  rw [show cstr (packedHdr h0 m r).name = baseName name from hcs, List.take_of_length_le (by show _ ≤ 233; omega), rName_wByte f (Or.inr rfl) _ hb3] at e8
  obtain ⟨n, hn, hn1, hn2⟩ := entryName_default q _ e8 e7
  have hnn : n = baseName name := by
    rcases hn2 with h | ⟨A, h⟩
    · rw [e8] at h
      exact (List.append_cancel_right h).symm
    · rw [e8] at h
      have := List.append_cancel_right h
      rw [this] at hb4
      simp at hb4
  rw [hnn] at hn
  obtain ⟨b, W, hbW⟩ : ∃ b W, writeLevel0 f (e.gst h0.stamp) (packedHdr h0 m r) ((h0.name ++ [0]).map (wByte f)) = b :: W := by
    obtain ⟨e1, _, _⟩ := writeLevel0_eq f (e.gst h0.stamp) (packedHdr h0 m r) ((h0.name ++ [0]).map (wByte f)) ho.method
    exact ⟨_, _, e1⟩
  have e' : ∀ b, getHeader ⟨b, false⟩ tab newHdr (writeLevel0 f (e.gst h0.stamp) (packedHdr h0 m r) ((h0.name ++ [0]).map (wByte f)) ++ r.out ++ [0]) =
      .ok (.got q (r.out ++ [0])) := by
    intro b
    rw [List.append_assoc]; exact e0
  obtain ⟨k, hk⟩ : ∃ k, (writeLevel0 f (e.gst h0.stamp) (packedHdr h0 m r) ((h0.name ++ [0]).map (wByte f)) ++ r.out ++ [0]).length + 1 = k + 2 := by
    rw [hbW]; exact ⟨W.length + r.out.length + 1, by simp; omega⟩
  generalize writeLevel0 f (e.gst h0.stamp) (packedHdr h0 m r) ((h0.name ++ [0]).map (wByte f)) ++ r.out ++ [0] = a at *
  have hgm : (packedHdr h0 m r).packedSize = r.packed := rfl
  have hgo : (packedHdr h0 m r).originalSize = r.original := rfl
  refine ⟨a, ?_, ?_, ?_, ?_⟩
  · have hparse : parseOption { archive := arc, create := name, method := m } = { Settings.init with cmd := .add, files := [name], generic := true, method := m } := by
      rcases hm with rfl | rfl | rfl <;> simp [parseOption, parseSubOption, parseCommand, onlyIf, Settings.init, hne0]
    unfold lharc
    rw [if_neg harc]
    simp only [hparse, sortFiles, Settings.init, List.map_cons, List.map_nil, hb]
    rw [hc, ok_bind]
    rfl
  · have hparse : parseOption { archive := arc, add := name, method := m } = { Settings.init with cmd := .add, files := [name], generic := true, method := m } := by
      rcases hm with rfl | rfl | rfl <;> simp [parseOption, parseSubOption, parseCommand, onlyIf, Settings.init, hne0]
    unfold lharc
    rw [if_neg harc]
    simp only [hparse, sortFiles, Settings.init, List.map_cons, List.map_nil, hb]
    rw [hc, ok_bind]
    rfl
  · unfold lharc
    rw [if_neg harc]
    simp only [parseOption, Settings.init, if_true, Bool.false_eq_true, if_false, sortFiles, Bool.or_false]
    unfold commandExtract
    simp only [Bool.false_eq_true, if_false]
    rw [ok_bind, hk]
    unfold extractLoop
    rw [e', ok_bind]
    simp only []
    rw [if_pos (by simp [needFile])]
    have hv : extractOne oth tab Opts.default fs Hf.fresh q (r.out ++ [0]) = .ok (some ⟨r.packed, [0], hf', q.name, some (baseName name, D)⟩) := by
      unfold extractOne
      rw [hn, ok_bind]
      simp only [e1, ho.idx]
      rw [if_pos ⟨e6, ho.ndir⟩, if_pos (hcan _), e2, e3, hgm, hgo, hdec, ok_bind]
    rw [show (⟨false, false, [], []⟩ : Opts) = Opts.default from rfl, hv, ok_bind]
    simp only []
    rw [if_neg (by rw [e2]; simp [hgm])]
    unfold extractLoop
    rfl
  · have hparse : parseOption { archive := arc, test := true } = { Settings.init with cmd := .extract, generic := true, verify := true, level := 2 } := by
      simp [parseOption, parseSubOption, parseCommand, onlyIf, Settings.init]
    unfold lharc
    rw [if_neg harc]
    simp only [hparse, Settings.init, sortFiles, Bool.true_or, if_true]
    unfold commandTest
    simp only [Bool.false_eq_true, if_false]
    rw [ok_bind, hk]
    unfold testLoop
    rw [e', ok_bind]
    simp only []
    rw [if_pos (by simp [needFile])]
    have hv : verifyOne oth tab Opts.default Hf.fresh q (r.out ++ [0]) = .ok (.ok ⟨r.packed, [0], hf', q.name, none⟩) := by
      unfold verifyOne
      rw [hn, ok_bind]
      simp only [e1, ho.idx]
      rw [if_pos ⟨e6, ho.ndir⟩, e2, e3, hgm, hgo, hdec, ok_bind]
      simp only []
      rw [if_neg (by rw [e4]; simp [packedHdr, p2])]
    rw [show (⟨false, false, [], []⟩ : Opts) = Opts.default from rfl, hv, ok_bind]
    simp only []
    rw [if_neg (by rw [e2]; simp [hgm])]
    unfold testLoop
    rfl

/-- The hypotheses are met: forty times `A`, packed from `/x/a` into `x`. -/
example (tab : Arr) (ht : makeCrcTable = .ok tab) : Packs 5 tab Proc.fresh sampleBody ∧ IsBytes sampleBody ∧
    sampleBody.getD 0 0 &&& 32 = 0 ∧ sampleBody ≠ [] ∧ baseName [47, 120, 47, 97] = [97] :=
  ⟨sampleBody_packs tab ht, by unfold IsBytes; decide, by decide, by decide, by decide⟩

end Lha
