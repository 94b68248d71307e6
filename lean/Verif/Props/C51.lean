import Verif.Proof.Copy
import Verif.Props.C49
/-!
# C51: adding several files to a new archive
-/

namespace Lha

open Spec

/-- Whatever is in the new archive already, `addOne` of a non-empty file ends by writing the header of that file over the beginning. -/
theorem addOne_front (f : Fmt) (tab : Arr) (e : Env) (m : Nat) (g : Geo) (hg : geoOf m = some g)
    (h0 : Hdr) (i1 : h0.level = 0) (i5 : isSymlinkMode h0.mode = false) (D : List Nat) (i6 : h0.originalSize = D.length)
    (A : List Nat) (p : Proc) (r : EncOut) (hr : encode g tab p D.length D = .ok (some r)) (hpos : 0 < r.original) (hne : D ≠ []) :
    ∃ h X, h.name = h0.name ∧ h.level = 0 ∧ h.mode = h0.mode ∧ h.method.length = 5 ∧ addOne f tab e m h0 D ⟨A, none, p⟩ =
      .ok ⟨overwrite X (writeLevel0 f (e.gst h0.stamp) h ((h0.name ++ [0]).map (wByte f))), none, r.proc⟩ := by
  have hlen : D.length ≠ 0 := fun e => hne (List.length_eq_zero_iff.mp e)
  unfold addOne
  rw [writeHeader_level0 f tab _ h0 i1 i5, ok_bind]
  simp only [Option.getD_some]
  rw [if_neg (by rw [i6]; exact hlen)]
  unfold encodeLzhuf
  simp only [hg, i6]
  rw [hr, ok_bind]
  simp only []
  unfold percent
  rw [if_neg (show ¬ r.original = 0 by omega), ok_bind]
  simp only []
  split
  · rw [writeHeader_level0 f tab _ _ (by exact i1) (by exact i5), ok_bind]
    exact ⟨packedHdr h0 m r, _, rfl, i1, rfl, rfl, rfl⟩
  · obtain ⟨pad, c1, c2⟩ := copyfile_ok D.length (by omega) r.rest
    rw [c1, ok_bind]
    simp only []
    rw [writeHeader_level0 f tab _ _ (by exact i1) (by exact i5), ok_bind]
    exact ⟨storedHdr h0 r.rest.length, _, rfl, i1, rfl, rfl, rfl⟩

theorem got_inj {h g : Hdr} {R S : List Nat} (e : (.ok (.got h R) : G HdrRes) = .ok (.got g S)) : h = g := by
  cases e; rfl

theorem addItems_one (f : Fmt) (tab : Arr) (e : Env) (up : List Nat → List Nat) (m level : Nat) (arch name body : List Nat) (hname : name ≠ arch)
    (items : List (List Nat × Option (List Nat))) (st st' : AddSt) (hold : st.old = none)
    (h : addOne f tab e m (initHeader e level name body.length false) body st = .ok st') :
    addItems f tab e up m level arch [] ((name, some body) :: items) st = addItems f tab e up m level arch [] items st' := by
  conv_lhs => unfold addItems
  rw [if_neg hname]
  simp only [timesAdded, if_true]
  unfold appendTimes appendOne
  rw [hold]
  simp only []
  rw [h]
  simp only [ok_bind]
  unfold appendTimes
  simp only [ok_bind]

theorem commandAdd_new (f : Fmt) (tab : Arr) (e : Env) (up : List Nat → List Nat) (m level : Nat) (arch : List Nat) (move : Bool)
    (items : List (List Nat × Option (List Nat))) (hne : items ≠ []) (p : Proc) (st : AddSt)
    (h : addItems f tab e up m level arch [] items ⟨[], none, p⟩ = .ok (some st)) (hold : st.old = none) :
    ∃ d, commandAdd f tab e up m level arch [] move items none p = .ok (some ⟨false, some (st.new ++ [0]), d, st.proc⟩) := by
  unfold commandAdd
  rw [if_neg hne, h, ok_bind]
  simp only []
  unfold copyTail
  rw [hold]
  exact ⟨_, rfl⟩

/-- **C51 is false**: when two non-empty files are added to a new archive, the call reports success, but the archive does not begin with an entry
for the first file; it begins with the header of the second.  (The bodies do not start with a byte with bit 5 set, which would panic: C02.) -/
theorem C51_false (f : Fmt) (hgen : f.generic = false) (tab : Arr) (ht : makeCrcTable = .ok tab) (e : Env) (hperm : e.perm < 512)
    (up : List Nat → List Nat) (m : Nat) (hm : m = 5 ∨ m = 6 ∨ m = 7) (arch n1 n2 b1 b2 : List Nat) (h1 : n1 ≠ arch) (h2 : n2 ≠ arch)
    (hb1 : (baseName n2).length ≤ 221) (hb2 : 0 ∉ baseName n2) (hb3 : 0x5c ∉ baseName n2)
    (hdiff : baseName n1 ≠ baseName n2) (move : Bool)
    (p : Proc) (hp : ∀ g, geoOf m = some g → ProcOk g p) (hD1 : IsBytes b1) (hD2 : IsBytes b2) (hne1 : b1 ≠ []) (hne2 : b2 ≠ [])
    (hf1 : b1.getD 0 0 &&& 32 = 0) (hf2 : b2.getD 0 0 &&& 32 = 0) :
    ∃ c a, commandAdd f tab e up m 0 arch [] move [(n1, some b1), (n2, some b2)] none p = .ok (some c) ∧ c.err = false ∧ c.archive = some a ∧
      (∀ en es t, en.Ok → en.name = baseName n1 → a ≠ archive (en :: es) t) ∧
      ∃ h rest, getHeader f tab newHdr a = .ok (.got h rest) ∧ h.name = baseName n2 ++ [0] := by
  obtain ⟨geo, hgeo⟩ : ∃ g, geoOf m = some g := by rcases hm with rfl | rfl | rfl <;> exact ⟨_, rfl⟩
  have hgm := GeoM.of hm hgeo
  obtain ⟨tab', ht1, ht2⟩ := makeCrcTable_ok
  rw [ht1] at ht
  cases ht
  have hdic : 0 < geo.maxmatch := by rcases hm with rfl | rfl | rfl <;> cases hgeo <;> decide
  obtain ⟨r1, e1, ⟨q1, _⟩, _⟩ := encode_ok hgm ht2 (hp geo hgeo) b1.length hD1 hne1 hf1
  obtain ⟨r2, e2, ⟨q2, _⟩, _⟩ := encode_ok hgm ht2 q1 b2.length hD2 hne2 hf2
  have o1 : 0 < r1.original := encode_original_pos (by rcases hm with rfl | rfl | rfl <;> cases hgeo <;> decide) e1
  have o2 : 0 < r2.original := encode_original_pos (by rcases hm with rfl | rfl | rfl <;> cases hgeo <;> decide) e2
  obtain ⟨i1, i2, i3, i4, i5, i6, i7, i8, i9⟩ := initHeader_facts e hperm n1 b1.length
  obtain ⟨j1, j2, j3, j4, j5, j6, j7, j8, j9⟩ := initHeader_facts e hperm n2 b2.length
  obtain ⟨k1, X1, _, _, _, _, a1⟩ := addOne_front f tab e m geo hgeo _ i1 i5 b1 i6 [] p r1 e1 o1 hne1
  generalize overwrite X1 _ = A at a1
  obtain ⟨k2, X2, l1, l2, l3, l4, a2⟩ := addOne_front f tab e m geo hgeo _ j1 j5 b2 j6 A r1.proc r2 e2 o2 hne2
  have hnil : ∀ st, addItems f tab e up m 0 arch [] [] st = .ok (some st) := fun _ => rfl
  have hit := (addItems_one f tab e up m 0 arch n1 b1 h1 [(n2, some b2)] _ _ rfl a1).trans
    ((addItems_one f tab e up m 0 arch n2 b2 h2 [] _ _ rfl a2).trans (hnil _))
  obtain ⟨d, hc⟩ := commandAdd_new f tab e up m 0 arch move _ (by simp) p _ hit rfl
  have hcs : cstr k2.name = baseName n2 := by rw [l1, j9]; exact cstr_copyInto hb2 hb1
  have hlim : limit0 f = 221 := by simp [limit0, hgen]
  have htk : (baseName n2).take 221 = baseName n2 := List.take_of_length_le hb1
  have hmode : k2.mode % 65536 = k2.mode := by rw [l3]; exact Nat.mod_eq_of_lt j3
  have hread : ∀ R, ∃ h, getHeader f tab newHdr (writeLevel0 f (e.gst (initHeader e 0 n2 b2.length false).stamp) k2
      (((initHeader e 0 n2 b2.length false).name ++ [0]).map (wByte f)) ++ R) = .ok (.got h R) ∧ h.name = baseName n2 ++ [0] := by
    intro R
    obtain ⟨g', a, _, _, _, _, _, hn, _⟩ := header0_read f tab (e.gst (initHeader e 0 n2 b2.length false).stamp) newHdr k2 R
      l4 l2 (by rw [hmode, l3]; exact j5) newHdr_method (by rw [hcs, hlim, htk, newHdr_name]; omega) (by simp [hgen])
    rw [hcs, hlim, htk] at hn
    rw [l1] at a
    exact ⟨g', a, by rw [hn]; exact rName_wByte f (Or.inl hgen) _ hb3⟩
  refine ⟨_, _, hc, rfl, rfl, ?_, ?_⟩
  · intro en es t hok hen ha
    obtain ⟨g', x1, x2⟩ := entry_parse f hgen tab en hok newHdr newHdr_method (by rw [newHdr_name]; have := hok.name; omega) (archive es t)
    have harch : archive (en :: es) t = en.bytes ++ archive es t := by simp [archive]
    rw [← harch, ← ha] at x1
    simp only [overwrite, List.append_assoc] at x1
    obtain ⟨h, y1, y2⟩ := hread (X2.drop (writeLevel0 f (e.gst (initHeader e 0 n2 b2.length false).stamp) k2
      (((initHeader e 0 n2 b2.length false).name ++ [0]).map (wByte f))).length ++ [0])
    rw [y1] at x1
    have x3 : h = g' := got_inj x1
    rw [x3, x2.name, hen] at y2
    exact hdiff (List.append_cancel_right y2)
  · simp only [overwrite, List.append_assoc]
    obtain ⟨h, y1, y2⟩ := hread (X2.drop (writeLevel0 f (e.gst (initHeader e 0 n2 b2.length false).stamp) k2
      (((initHeader e 0 n2 b2.length false).name ++ [0]).map (wByte f))).length ++ [0])
    exact ⟨h, _, y1, y2⟩

/-- `addOne` of an empty file adds the bytes of an entry. -/
theorem addOne_empty_entry (f : Fmt) (hgen : f.generic = false) (tab : Arr) (e : Env) (hperm : e.perm < 512) (m : Nat) (name A : List Nat)
    (hb1 : (baseName name).length ≤ 221) (hb2 : 0 ∉ baseName name) (hb3 : 0x5c ∉ baseName name) (p : Proc) :
    ∃ en : Entry, addOne f tab e m (initHeader e 0 name 0 false) [] ⟨A, none, p⟩ = .ok ⟨A ++ en.bytes, none, p⟩ ∧ en.Ok ∧ en.kind = 0o100000 ∧
      en.name = baseName name ∧ en.content = [] ∧ en.packed = [] ∧ en.method = lh0 ∧ en.crc = 0 ∧ en.unixTime = e.now := by
  obtain ⟨hh1, hh2, _⟩ := mode_facts e.perm hperm
  obtain ⟨i1, i2, i3, i4, i5, i6, i7, i8, i9⟩ := initHeader_facts e hperm name 0
  let en : Entry := ⟨lh0, baseName name, [], [], 0, e.gst e.now, e.now, e.perm + 232, e.euid % 65536, e.gid % 65536, 0x20, 0o100000⟩
  have hok : en.Ok := ⟨rfl, hb1, hb2, hb3, by show 0 < _; omega, by show 0 < _; omega, by show 0 < _; omega, by show e.perm + 232 < _; omega, Or.inl rfl⟩
  have hw := header_written f hgen en hok (initHeader e 0 name 0 false) rfl rfl rfl rfl rfl (cstr_copyInto hb2 hb1) rfl rfl (by
    show (e.perm + 33000) % 65536 = 0o100000 + (e.perm + 232); omega) rfl rfl
  refine ⟨en, ?_, hok, rfl, rfl, rfl, rfl, rfl, rfl, rfl⟩
  unfold addOne
  rw [writeHeader_level0 f tab _ _ i1 i5, ok_bind, if_pos i6]
  show Except.ok (⟨A ++ writeLevel0 f en.dosTime _ _, none, p⟩ : AddSt) = _
  rw [hw]
  simp [Entry.bytes, en]

/-- **C51 (partial).**  Full statement: `CommandAdd` of a list of files to a new archive makes an archive of exactly these files, in this order, with
their base names and contents.  Proved if all files but the first are empty (and the first one is as in C49). -/
theorem C51_partial (f : Fmt) (hgen : f.generic = false) (tab : Arr) (ht : makeCrcTable = .ok tab) (e : Env) (hperm : e.perm < 512)
    (up : List Nat → List Nat) (m : Nat) (hm : m = 5 ∨ m = 6 ∨ m = 7) (arch name body : List Nat) (others : List (List Nat))
    (hname : ∀ n ∈ name :: others, n ≠ arch ∧ (baseName n).length ≤ 221 ∧ 0 ∉ baseName n ∧ 0x5c ∉ baseName n) (move : Bool)
    (p : Proc) (hp : ∀ g, geoOf m = some g → ProcOk g p) (hD : IsBytes body) (hlen : body.length < 2 ^ 32)
    (hfirst : body.getD 0 0 &&& 32 = 0) (hpack : body ≠ [] → Packs m tab p body) :
    ∃ (c : CallOut) (en : Entry) (es : List Entry), commandAdd f tab e up m 0 arch [] move ((name, some body) :: others.map fun n => (n, some [])) none p = .ok (some c) ∧
      c.err = false ∧ c.archive = some (archive (en :: es) [0]) ∧ (∀ x ∈ en :: es, x.Ok ∧ x.kind = 0o100000 ∧ x.unixTime = e.now) ∧
      en.name = baseName name ∧ en.content = body ∧ en.crc = crc16 0 body ∧
      ((body = [] ∧ en.method = lh0 ∧ en.packed = []) ∨ (body ≠ [] ∧ en.method = methodStr m ∧ Conforms m en.packed body)) ∧
      es.map (·.name) = others.map baseName ∧ ∀ x ∈ es, x.content = [] ∧ x.packed = [] ∧ x.method = lh0 ∧ x.crc = 0 := by
  obtain ⟨n1, n2, n3, n4⟩ := hname name (List.mem_cons_self ..)
  obtain ⟨p', en, ha, hok, hk, h1, h2, h3, h4, _, _, _, h5⟩ := addOne_entry f hgen tab ht e hperm m hm name body n2 n3 n4 p hp hD hlen hfirst hpack
  have key : ∀ (l : List (List Nat)) (A : List Nat), (∀ n ∈ l, n ≠ arch ∧ (baseName n).length ≤ 221 ∧ 0 ∉ baseName n ∧ 0x5c ∉ baseName n) →
      ∃ es : List Entry, addItems f tab e up m 0 arch [] (l.map fun n => (n, some [])) ⟨A, none, p'⟩ = .ok (some ⟨A ++ es.flatMap Entry.bytes, none, p'⟩) ∧
        es.map (·.name) = l.map baseName ∧ ∀ x ∈ es, (x.Ok ∧ x.kind = 0o100000 ∧ x.unixTime = e.now) ∧ x.content = [] ∧ x.packed = [] ∧ x.method = lh0 ∧ x.crc = 0 := by
    intro l
    induction l with
    | nil => intro A _; exact ⟨[], by simp [addItems], rfl, by simp⟩
    | cons n l ih =>
      intro A h
      obtain ⟨k1, k2, k3, k4⟩ := h n (List.mem_cons_self ..)
      obtain ⟨x, x1, x2, xk, x3, x4, x5, x6, x7, x8⟩ := addOne_empty_entry f hgen tab e hperm m n A k2 k3 k4 p'
      obtain ⟨es, y1, y2, y3⟩ := ih (A ++ x.bytes) (fun n hn => h n (List.mem_cons_of_mem _ hn))
      refine ⟨x :: es, ?_, by simp [x3, y2], ?_⟩
      · rw [List.map_cons, addItems_one f tab e up m 0 arch n [] k1 _ _ _ rfl x1, y1]
        simp
      · intro z hz
        rcases List.mem_cons.mp hz with rfl | hz
        · exact ⟨⟨x2, xk, x8⟩, x4, x5, x6, x7⟩
        · exact y3 z hz
  obtain ⟨es, y1, y2, y3⟩ := key others en.bytes (fun n hn => hname n (List.mem_cons_of_mem _ hn))
  have hit := (addItems_one f tab e up m 0 arch name body n1 (others.map fun n => (n, some [])) _ _ rfl ha).trans y1
  obtain ⟨d, hc⟩ := commandAdd_new f tab e up m 0 arch move _ (by simp) p _ hit rfl
  refine ⟨_, en, es, hc, rfl, by simp [archive], ?_, h1, h2, h3, h5, y2, fun x hx => (y3 x hx).2⟩
  intro x hx
  rcases List.mem_cons.mp hx with rfl | hx
  · exact ⟨hok, hk, h4⟩
  · exact (y3 x hx).1

/-- The hypotheses of `C51_false` hold for the contents `A` as `f` and `B` as `g`. -/
example : IsBytes [65] ∧ IsBytes [66] ∧ [65].getD 0 0 &&& 32 = 0 ∧ [66].getD 0 0 &&& 32 = 0 ∧ baseName [102] ≠ baseName [103] ∧
    ProcOk ⟨13, 256⟩ Proc.fresh := by
  refine ⟨by unfold IsBytes; decide, by unfold IsBytes; decide, by decide, by decide, by decide, ⟨by constructor <;> rfl, Or.inl rfl⟩⟩

/-- Those of `C51_partial` for forty times `A` as `f` and two empty files. -/
example (tab : Arr) (ht : makeCrcTable = .ok tab) : (∀ n ∈ [102] :: [[103], [100, 0x2f, 104]], n ≠ [97] ∧ (baseName n).length ≤ 221 ∧
    0 ∉ baseName n ∧ 0x5c ∉ baseName n) ∧ Packs 5 tab Proc.fresh sampleBody :=
  ⟨by decide, sampleBody_packs tab ht⟩

end Lha
