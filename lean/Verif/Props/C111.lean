import Verif.Proof.SizeDec
import Verif.Proof.RunD
import Verif.Props.C43
import Verif.Props.C45
import Verif.Props.C46
import Verif.Props.C55
import Verif.Props.C58
import Verif.Props.C66
/-!
# C111: a damaged file does not cost the others
-/

namespace Lha

open Spec

/-- Decoding leaves tables of the right sizes, whatever the data: lh1, lh4 to lh7, lzs. -/
theorem decode_good {tab : Arr} (ht : makeCrcTable = .ok tab) {m : Nat} (hm : m = 1 ∨ m = 4 ∨ m = 5 ∨ m = 6 ∨ m = 7 ∨ m = 8) {hf : Hf} (hok : GOk hf)
    {o p : Nat} {inp : List Nat} {d : DecOut} (hd : decodeLzhuf (others tab) tab m hf o p inp = .ok d) : GOk d.h := by
  by_cases h18 : m = 1 ∨ m = 8
  · obtain ⟨d', h1, h2⟩ := C46 tab ht m (by omega) hf hok o p inp
    rw [h1] at hd
    cases hd
    exact h2
  · have key : ∀ {k : Nat}, decodeSt1 k tab hf o p inp = .ok d → GOk d.h := by
      intro k h
      refine ⟨(decodeSt1_siz h).1 hok.hf, ?_⟩
      rw [(decodeSt1_kept h).1]
      exact hok.dyn
    unfold decodeLzhuf at hd
    rw [if_neg (by omega)] at hd
    split at hd
    · exact key hd
    · split at hd
      · exact key hd
      · split at hd
        · exact key hd
        · rw [if_pos (by omega)] at hd
          exact key hd

/-- A regular file with a valid header and anything as its contents; the decoder of its method, given the announced sizes, takes all packed bytes
(or crashes). -/
structure Spoilt (tab : Arr) (x : Entry) : Prop where
  ok : x.Ok
  kind : x.kind = 0o100000
  packed : ∃ m, methods.findIdx? (· = x.method) = some m ∧ (m = 1 ∨ m = 4 ∨ m = 5 ∨ m = 6 ∨ m = 7 ∨ m = 8) ∧
    ∀ hf T d, GOk hf → decodeLzhuf (others tab) tab m hf x.content.length x.packed.length (x.packed ++ T) = .ok d → d.readSize = x.packed.length

/-- Extracting a regular file that is not there yet. -/
theorem extractOneD_new (oth : Oth) (tab : Arr) {x : Entry} (ho : x.Ok) (hk : x.kind = 0o100000) {m : Nat} (hidx : methods.findIdx? (· = x.method) = some m)
    (hm : m ≠ 11) {g : Hdr} (P : Parsed x g) {s : Sys} (hc : s.Creatable (lastName x.name)) (hn : s.node (lastName x.name) = none) (hf : Hf)
    (inp : List Nat) {d : DecOut} :
    (∀ e, decodeLzhuf oth tab m hf x.content.length x.packed.length inp = .error e → extractOneD oth tab Opts.default s hf g inp = .error e) ∧
    (decodeLzhuf oth tab m hf x.content.length x.packed.length inp = .ok d → extractOneD oth tab Opts.default s hf g inp =
      .ok (some ⟨d.readSize, d.rest, d.h, g.name, some (lastName x.name, d.out)⟩, s.set (lastName x.name) (.file d.out s.fresh))) := by
  have hw : ∀ c, s.write (lastName x.name) c = s.set (lastName x.name) (.file c s.fresh) := by
    intro c
    unfold Sys.write
    rw [hn]
  have hq : inquireExtract s false (lastName x.name) = .ok (true, s) := by unfold inquireExtract; rw [lstat_of hc, hn]
  constructor <;> intro e
  · intro he
    unfold extractOneD
    rw [P.entryName, ok_bind]
    simp only [P.method, hidx]
    rw [if_pos ⟨(P.fileType ho).trans hk, hm⟩, show Opts.default.force = false from rfl, hq, ok_bind]
    simp only [Bool.true_eq_false, false_and, if_false]
    rw [if_pos (canCreate_of hc (Or.inl hn)), P.original, P.packed, he]
    rfl
  · unfold extractOneD
    rw [P.entryName, ok_bind]
    simp only [P.method, hidx]
    rw [if_pos ⟨(P.fileType ho).trans hk, hm⟩, show Opts.default.force = false from rfl, hq, ok_bind]
    simp only [Bool.true_eq_false, false_and, if_false]
    rw [if_pos (canCreate_of hc (Or.inl hn)), P.original, P.packed, e, ok_bind, hw]

/-- The loop over entries some of which are damaged. -/
theorem spoilt_loop (f : Fmt) (hg : f.generic = false) {tab : Arr} (ht : makeCrcTable = .ok tab) {t : List Nat} (htl : Tail t) (err : Bool) (s' : Sys) (hf' : Hf) :
    ∀ (es : List Entry) (s : Sys) (n : Nat) (h : Hdr) (hf : Hf), es.length < n → (∀ e ∈ es, Sound e ∨ Spoilt tab e) → GOk hf → h.method.length = 5 →
      NonInc h.name.length es → (∀ e ∈ es, s.Creatable (lastName e.name)) → (∀ e ∈ es, s.node (lastName e.name) = none) →
      (es.Pairwise fun a b => lastName a.name ≠ lastName b.name) →
      extractLoopD f (others tab) tab Opts.default (needFile Opts.default) n h hf s (archive es t) = .ok (err, s', hf') →
      err = false ∧ (∀ e ∈ es, Sound e → s'.node (lastName e.name) = some (.file e.content s.fresh)) ∧
      (∀ e ∈ es, ∃ c, s'.node (lastName e.name) = some (.file c s.fresh)) ∧
      (∀ n, (∀ e ∈ es, lastName e.name ≠ n) → s'.node n = s.node n) ∧ s'.outside = s.outside ∧ s'.answers = s.answers := by
  intro es
  induction es with
  | nil =>
    intro s n h hf hn _ _ _ _ _ _ _ hx
    obtain ⟨n, rfl⟩ : ∃ k, n = k + 1 := ⟨n - 1, by simp at hn; omega⟩
    unfold extractLoopD at hx
    rw [show archive [] t = t from rfl] at hx
    rcases tail_end f tab h htl with e | e <;> rw [e, ok_bind] at hx <;> cases hx <;> exact ⟨rfl, by simp, by simp, fun _ _ => rfl, rfl, rfl⟩
  | cons e es ih =>
    intro s n h hf hn hes hok hm hinc hcan hnew hdist hx
    obtain ⟨n, rfl⟩ : ∃ k, n = k + 1 := ⟨n - 1, by simp at hn; omega⟩
    rw [List.pairwise_cons] at hdist
    have ho : e.Ok := (hes e List.mem_cons_self).elim (·.ok) (·.ok)
    have hk : e.kind = 0o100000 := (hes e List.mem_cons_self).elim (·.kind) (·.kind)
    obtain ⟨g, e1, P⟩ := entry_parse f hg tab e ho h hm hinc.1 (archive es t)
    have hc := hcan e List.mem_cons_self
    have hn0 := hnew e List.mem_cons_self
    -- what extracting this entry gives
    have hone : ∃ d : DecOut, GOk d.h ∧ d.readSize = e.packed.length ∧ d.rest = archive es t ∧ (Sound e → d.out = e.content) ∧
        extractOneD (others tab) tab Opts.default s hf g (e.packed ++ archive es t) =
          .ok (some ⟨d.readSize, d.rest, d.h, g.name, some (lastName e.name, d.out)⟩, s.set (lastName e.name) (.file d.out s.fresh)) := by
      rcases hes e List.mem_cons_self with hs | hs
      · obtain ⟨m, hidx, hp⟩ := hs.packed
        obtain ⟨hf1, ok1, hdec⟩ := hp.decodes ht hf hok (archive es t)
        exact ⟨_, ok1, rfl, rfl, fun _ => rfl, (extractOneD_new (others tab) tab ho hk hidx hp.ndir P hc hn0 hf _).2 hdec⟩
      · obtain ⟨m, hidx, hm6, huse⟩ := hs.packed
        cases hdec : decodeLzhuf (others tab) tab m hf e.content.length e.packed.length (e.packed ++ archive es t) with
        | error er =>
          exfalso
          have := (extractOneD_new (others tab) tab ho hk hidx (by omega) P hc hn0 hf (e.packed ++ archive es t) (d := ⟨[], 0, 0, [], hf⟩)).1 er hdec
          unfold extractLoopD at hx
          rw [archive_cons, e1, ok_bind] at hx
          simp only [] at hx
          rw [if_pos (by simp [needFile, Opts.default]), this] at hx
          cases hx
        | ok d =>
          have hr := huse hf _ d hok hdec
          have hrest := (C43_partial tab m (by omega) hf _ _ _ d hdec).1
          refine ⟨d, decode_good ht hm6 hok hdec, hr, by rw [hrest, hr]; simp, ?_, (extractOneD_new (others tab) tab ho hk hidx (by omega) P hc hn0 hf _).2 hdec⟩
          intro hs'
          obtain ⟨m', hidx', hp⟩ := hs'.packed
          rw [hidx] at hidx'
          cases hidx'
          obtain ⟨hf1, _, hdec'⟩ := hp.decodes ht hf hok (archive es t)
          rw [hdec] at hdec'
          cases hdec'
          rfl
    obtain ⟨d, ok1, d1, d2, d3, hv⟩ := hone
    unfold extractLoopD at hx
    rw [archive_cons, e1, ok_bind] at hx
    simp only [] at hx
    rw [if_pos (by simp [needFile, Opts.default]), hv, ok_bind] at hx
    simp only [] at hx
    rw [if_neg (by rw [P.packed, d1]; simp), d2] at hx
    obtain ⟨r1, r2, r3, r4, r5, r6⟩ := ih (s.set (lastName e.name) (.file d.out s.fresh)) n { g with name := g.name } d.h (by simp at hn; omega)
      (fun e' he' => hes e' (List.mem_cons_of_mem _ he')) ok1 (by show g.method.length = 5; rw [P.method]; exact ho.method)
      (by show NonInc g.name.length es; rw [P.name, List.length_append]; exact hinc.2) (fun e' he' => hcan e' (List.mem_cons_of_mem _ he'))
      (fun e' he' => by
        show (if lastName e'.name = lastName e.name then _ else s.node (lastName e'.name)) = none
        rw [if_neg (fun hc => hdist.1 e' he' hc.symm)]
        exact hnew e' (List.mem_cons_of_mem _ he')) hdist.2 hx
    have here : s'.node (lastName e.name) = some (.file d.out s.fresh) := by
      rw [r4 _ (fun e'' he'' hc => hdist.1 e'' he'' hc.symm)]
      show (if lastName e.name = lastName e.name then some (Node.file d.out s.fresh) else _) = _
      rw [if_pos rfl]
    refine ⟨r1, ?_, ?_, ?_, r5, r6⟩
    · intro e' he' hs'
      rcases List.mem_cons.mp he' with rfl | he'
      · rw [here, d3 hs']
      · exact r2 e' he' hs'
    · intro e' he'
      rcases List.mem_cons.mp he' with rfl | he'
      · exact ⟨_, here⟩
      · exact r3 e' he'
    · intro n hn
      rw [r4 n (fun e' he' => hn e' (List.mem_cons_of_mem _ he'))]
      show (if n = lastName e.name then _ else s.node n) = s.node n
      rw [if_neg (fun hc => hn e List.mem_cons_self hc.symm)]

/-- **C111 (partial), `CommandExtract`.**  Full statement: whatever the contents of some entries, `CommandExtract` extracts the others.  Proved here if the
decoders of the damaged entries (methods lh1, lh4 to lh7, lzs) take as many bytes as the headers say; that can fail (`C111_false`), and some damage makes the
decoder crash (C27).  If the call returns, it reports success, every sound entry is a file with the right content, and nothing else has changed except that
there is some file for each damaged entry. -/
theorem C111_extract_partial (f : Fmt) (hg : f.generic = false) (tab : Arr) (ht : makeCrcTable = .ok tab) (t : List Nat) (htl : Tail t) (hf : Hf)
    (hok : GOk hf) (s : Sys) (es : List Entry) (hes : ∀ e ∈ es, Sound e ∨ Spoilt tab e) (hinc : NonInc 1024 es)
    (hcan : ∀ e ∈ es, s.Creatable (lastName e.name)) (hnew : ∀ e ∈ es, s.node (lastName e.name) = none)
    (hdist : es.Pairwise fun a b => lastName a.name ≠ lastName b.name) (err : Bool) (s' : Sys) (hf' : Hf)
    (hx : commandExtractD f (others tab) tab Opts.default false hf s (some (archive es t)) = .ok (err, s', hf')) :
    err = false ∧ (∀ e ∈ es, Sound e → s'.node (lastName e.name) = some (.file e.content s.fresh)) ∧
      (∀ e ∈ es, ∃ c, s'.node (lastName e.name) = some (.file c s.fresh)) ∧
      (∀ n, (∀ e ∈ es, lastName e.name ≠ n) → s'.node n = s.node n) ∧ s'.outside = s.outside ∧ s'.answers = s.answers := by
  unfold commandExtractD at hx
  simp only [Bool.false_eq_true, if_false] at hx
  rw [ok_bind] at hx
  exact spoilt_loop f hg ht htl err s' hf' es s _ newHdr hf (by have := archive_length es t; omega) hes hok newHdr_method
    (by rw [newHdr_name]; exact hinc) hcan hnew hdist hx

/-- lh1 and lzs never crash (C46): the call returns. -/
theorem spoilt_returns (f : Fmt) (hg : f.generic = false) {tab : Arr} (ht : makeCrcTable = .ok tab) {t : List Nat} (htl : Tail t) :
    ∀ (es : List Entry) (s : Sys) (n : Nat) (h : Hdr) (hf : Hf), es.length < n →
      (∀ e ∈ es, Sound e ∨ Spoilt tab e ∧ (e.method = [45, 108, 104, 49, 45] ∨ e.method = [45, 108, 122, 115, 45])) → GOk hf → h.method.length = 5 →
      NonInc h.name.length es → (∀ e ∈ es, s.Creatable (lastName e.name)) → (∀ e ∈ es, s.node (lastName e.name) = none) →
      (es.Pairwise fun a b => lastName a.name ≠ lastName b.name) →
      ∃ r, extractLoopD f (others tab) tab Opts.default (needFile Opts.default) n h hf s (archive es t) = .ok r := by
  intro es
  induction es with
  | nil =>
    intro s n h hf hn _ _ _ _ _ _ _
    obtain ⟨n, rfl⟩ : ∃ k, n = k + 1 := ⟨n - 1, by simp at hn; omega⟩
    unfold extractLoopD
    rw [show archive [] t = t from rfl]
    rcases tail_end f tab h htl with e | e <;> rw [e, ok_bind] <;> exact ⟨_, rfl⟩
  | cons e es ih =>
    intro s n h hf hn hes hok hm hinc hcan hnew hdist
    obtain ⟨n, rfl⟩ : ∃ k, n = k + 1 := ⟨n - 1, by simp at hn; omega⟩
    rw [List.pairwise_cons] at hdist
    have ho : e.Ok := (hes e List.mem_cons_self).elim (·.ok) (·.1.ok)
    have hk : e.kind = 0o100000 := (hes e List.mem_cons_self).elim (·.kind) (·.1.kind)
    obtain ⟨g, e1, P⟩ := entry_parse f hg tab e ho h hm hinc.1 (archive es t)
    have hc := hcan e List.mem_cons_self
    have hn0 := hnew e List.mem_cons_self
    have hone : ∃ d : DecOut, GOk d.h ∧ d.readSize = e.packed.length ∧ d.rest = archive es t ∧
        extractOneD (others tab) tab Opts.default s hf g (e.packed ++ archive es t) =
          .ok (some ⟨d.readSize, d.rest, d.h, g.name, some (lastName e.name, d.out)⟩, s.set (lastName e.name) (.file d.out s.fresh)) := by
      rcases hes e List.mem_cons_self with hs | ⟨hs, hme⟩
      · obtain ⟨m, hidx, hp⟩ := hs.packed
        obtain ⟨hf1, ok1, hdec⟩ := hp.decodes ht hf hok (archive es t)
        exact ⟨_, ok1, rfl, rfl, (extractOneD_new (others tab) tab ho hk hidx hp.ndir P hc hn0 hf _).2 hdec⟩
      · obtain ⟨m, hidx, hm6, huse⟩ := hs.packed
        have h18 : m = 1 ∨ m = 8 ∨ m = 9 := by
          rcases hme with hme | hme <;> rw [hme] at hidx
          · rw [show methods.findIdx? (· = [45, 108, 104, 49, 45]) = some 1 by decide] at hidx
            exact Or.inl (Option.some.inj hidx).symm
          · rw [show methods.findIdx? (· = [45, 108, 122, 115, 45]) = some 8 by decide] at hidx
            exact Or.inr (Or.inl (Option.some.inj hidx).symm)
        obtain ⟨d, hdec, gd⟩ := C46 tab ht m h18 hf hok e.content.length e.packed.length (e.packed ++ archive es t)
        have hr := huse hf _ d hok hdec
        have hrest := (C43_partial tab m (by omega) hf _ _ _ d hdec).1
        exact ⟨d, gd, hr, by rw [hrest, hr]; simp, (extractOneD_new (others tab) tab ho hk hidx (by omega) P hc hn0 hf _).2 hdec⟩
    obtain ⟨d, ok1, d1, d2, hv⟩ := hone
    unfold extractLoopD
    rw [archive_cons, e1, ok_bind]
    simp only []
    rw [if_pos (by simp [needFile, Opts.default]), hv, ok_bind]
    simp only []
    rw [if_neg (by rw [P.packed, d1]; simp), d2]
    exact ih (s.set (lastName e.name) (.file d.out s.fresh)) n { g with name := g.name } d.h (by simp at hn; omega)
      (fun e' he' => hes e' (List.mem_cons_of_mem _ he')) ok1 (by show g.method.length = 5; rw [P.method]; exact ho.method)
      (by show NonInc g.name.length es; rw [P.name, List.length_append]; exact hinc.2) (fun e' he' => hcan e' (List.mem_cons_of_mem _ he'))
      (fun e' he' => by
        show (if lastName e'.name = lastName e.name then _ else s.node (lastName e'.name)) = none
        rw [if_neg (fun hc => hdist.1 e' he' hc.symm)]
        exact hnew e' (List.mem_cons_of_mem _ he')) hdist.2

/-- If the damaged entries are lh1 or lzs entries the call returns, so the others are extracted. -/
theorem C111_returns_partial (f : Fmt) (hg : f.generic = false) (tab : Arr) (ht : makeCrcTable = .ok tab) (t : List Nat) (htl : Tail t) (hf : Hf)
    (hok : GOk hf) (s : Sys) (es : List Entry)
    (hes : ∀ e ∈ es, Sound e ∨ Spoilt tab e ∧ (e.method = [45, 108, 104, 49, 45] ∨ e.method = [45, 108, 122, 115, 45])) (hinc : NonInc 1024 es)
    (hcan : ∀ e ∈ es, s.Creatable (lastName e.name)) (hnew : ∀ e ∈ es, s.node (lastName e.name) = none)
    (hdist : es.Pairwise fun a b => lastName a.name ≠ lastName b.name) :
    ∃ s' hf', commandExtractD f (others tab) tab Opts.default false hf s (some (archive es t)) = .ok (false, s', hf') ∧
      (∀ e ∈ es, Sound e → s'.node (lastName e.name) = some (.file e.content s.fresh)) := by
  obtain ⟨⟨err, s', hf'⟩, hr⟩ := spoilt_returns f hg ht htl es s ((archive es t).length + 1) newHdr hf (by have := archive_length es t; omega) hes hok
    newHdr_method (by rw [newHdr_name]; exact hinc) hcan hnew hdist
  have hx : commandExtractD f (others tab) tab Opts.default false hf s (some (archive es t)) = .ok (err, s', hf') := by
    unfold commandExtractD
    simp only [Bool.false_eq_true, if_false]
    rw [ok_bind, hr]
  obtain ⟨rfl, h2, _⟩ := C111_extract_partial f hg tab ht t htl hf hok s es (fun e he => (hes e he).imp_right (·.1)) hinc hcan hnew hdist err s' hf' hx
  exact ⟨s', hf', hx, h2⟩

/-- **C111 (partial), `DecompresBytes`.**  Full statement: the content of an entry is returned whatever the contents of the others.  Proved here if names do
not get longer from one entry to the next (otherwise false, `C45_false`).  The other entries: any method, any packed bytes, any sizes and checksums. -/
theorem C111_partial (f : Fmt) (hg : f.generic = false) (tab : Arr) (ht : makeCrcTable = .ok tab) (es1 es2 : List Entry) (e : Entry)
    (he : Sound e) (hcrc : e.crc = crc16 0 e.content) (hoth : ∀ x ∈ es1 ++ es2, x.Ok ∧ x.name ≠ e.name)
    (hinc : NonInc 1024 (es1 ++ e :: es2)) (t : List Nat) (htl : Tail t) (hf : Hf) (hgk : GOk hf) :
    ∃ hf', GOk hf' ∧ decompresBytes f (others tab) tab false (e.name ++ [0]) hf (some (archive (es1 ++ e :: es2) t)) =
      .ok ⟨false, e.content, hf'⟩ := by
  have key : ∀ x ∈ es1 ++ e :: es2, x = e ∨ (x.Ok ∧ x.name ≠ e.name) := by
    intro x hx
    rcases List.mem_append.mp hx with h | h
    · exact Or.inr (hoth x (List.mem_append_left _ h))
    · rcases List.mem_cons.mp h with rfl | h
      · exact Or.inl rfl
      · exact Or.inr (hoth x (List.mem_append_right _ h))
  refine C45_partial f hg tab ht es1 es2 e (fun x hx => ?_) (fun x hx hn => ?_) (fun x hx => (hoth x (List.mem_append_right _ hx)).2) hinc t htl hf hgk
  · rcases key x hx with rfl | h
    · exact he.ok
    · exact h.1
  · rcases key x hx with rfl | h
    · exact ⟨he, hcrc⟩
    · exact absurd hn h.2

/-- What follows the entries is looked at in some state; the header used keeps a terminated link target. -/
theorem RunD.prefix_real (f : Fmt) (hg : f.generic = false) {tab : Arr} {o : Opts} {need : List Nat → Bool} (t : List Nat)
    {s s' : Sys} {es : List Entry} (hrun : RunD tab o need s es s') :
    ∀ (n : Nat) (h : Hdr) (hf : Hf), es.length < n → (∀ e ∈ es, e.Ok) → GOk hf → h.method.length = 5 → NonInc h.name.length es →
      RealOk h → IsBytes (archive es t) →
      ∃ k h' hf', RealOk h' ∧ IsBytes t ∧
        extractLoopD f (others tab) tab o need n h hf s (archive es t) = extractLoopD f (others tab) tab o need k h' hf' s' t := by
  induction hrun with
  | nil s =>
    intro n h hf hn _ hok hm _ hr hb
    exact ⟨n, h, hf, hr, hb, rfl⟩
  | @cons s s1 s2 e es hstep hr ih =>
    intro n h hf hn hoks hok hm hinc hreal hb
    obtain ⟨n, rfl⟩ : ∃ k, n = k + 1 := ⟨n - 1, by simp at hn; omega⟩
    have ho := hoks e List.mem_cons_self
    obtain ⟨g, e1, P⟩ := entry_parse f hg tab e ho h hm hinc.1 (archive es t)
    have hn' : es.length < n := by simp at hn; omega
    have hoks' := fun e' he' => hoks e' (List.mem_cons_of_mem e he')
    have hm' : g.method.length = 5 := by rw [P.method]; exact ho.method
    have hinc' : NonInc g.name.length es := by rw [P.name, List.length_append]; exact hinc.2
    rw [archive_cons] at hb
    obtain ⟨hreal', hb'⟩ := getHeader_real hb hreal e1
    have hb2 : IsBytes (archive es t) := fun x hx => hb' x (List.mem_append_right _ hx)
    conv in extractLoopD _ _ _ _ _ (n + 1) _ _ _ _ => unfold extractLoopD
    rw [archive_cons, e1, ok_bind]
    simp only []
    rcases hstep g hf (archive es t) hok P with ⟨hno, rfl⟩ | ⟨hyes, d, ok1, hv, hdn, hd⟩
    · rw [if_neg (by rw [hno]; simp), P.packed, skip_packed]
      exact ih n g hf hn' hoks' hok hm' hinc' hreal' hb2
    · rw [if_pos hyes, hv, ok_bind]
      simp only [hdn]
      rcases hd with ⟨d1, d2⟩ | ⟨d1, d2⟩
      · rw [if_neg (by rw [P.packed, d1]; simp), d2]
        exact ih n { g with name := g.name } d.hf hn' hoks' ok1 hm' hinc' hreal' hb2
      · by_cases hp : e.packed = []
        · rw [if_neg (by rw [P.packed, d1, hp]; simp), d2, hp, List.nil_append]
          exact ih n { g with name := g.name } d.hf hn' hoks' ok1 hm' hinc' hreal' hb2
        · have : skipTo g.packedSize d.rest = some (archive es t) := by rw [P.packed, d2, skip_some _ _ hp]
          rw [if_pos (by rw [P.packed, d1]; intro hc; exact hp (List.length_eq_zero_iff.mp hc.symm)), this]
          exact ih n { g with name := g.name } d.hf hn' hoks' ok1 hm' hinc' hreal' hb2

/-- **C111, the entries before the damage.**  Sound entries are extracted whatever bytes `R` follow them in the archive (further entries, damaged in any way,
or anything else): if the call returns, with or without an error, and the user has not typed a line beginning with 'Y', their files are there with the right
contents. -/
theorem C111_before (f : Fmt) (hg : f.generic = false) (tab : Arr) (ht : makeCrcTable = .ok tab) (hf : Hf) (hok : GOk hf) (s : Sys)
    (hs : ∀ a ∈ s.answers, a.head? ≠ some 0x59) (es : List Entry) (hes : ∀ e ∈ es, Sound e) (hinc : NonInc 1024 es)
    (hcan : ∀ e ∈ es, s.Creatable (lastName e.name)) (hnew : ∀ e ∈ es, s.node (lastName e.name) = none)
    (hdist : es.Pairwise fun a b => lastName a.name ≠ lastName b.name) (R : List Nat) (hb : IsBytes (archive es R)) (err : Bool) (s' : Sys) (hf' : Hf)
    (hx : commandExtractD f (others tab) tab Opts.default false hf s (some (archive es R)) = .ok (err, s', hf')) :
    ∀ e ∈ es, s'.node (lastName e.name) = some (.file e.content s.fresh) := by
  intro e he
  obtain ⟨s1, r1, r2, r3, r4, r5⟩ := files_run ht es s (fun e he => Or.inl (hes e he)) hcan hnew hdist
  obtain ⟨k, h', hf1, k1, k2, k3⟩ := r1.prefix_real f hg R ((archive es R).length + 1) newHdr hf (by have := archive_length es R; omega)
    (fun e he => (hes e he).ok) hok newHdr_method (by rw [newHdr_name]; exact hinc) RealOk.new hb
  unfold commandExtractD at hx
  simp only [Bool.false_eq_true, if_false] at hx
  rw [ok_bind, k3] at hx
  obtain ⟨u, hu⟩ := extractLoopD_careful rfl k k2 k1 hx
  have hu := (show Careful false u s1 s' from hu).consent
  have h1 := r2 e he (hes e he)
  by_cases hc : s'.node (lastName e.name) = s1.node (lastName e.name)
  · rw [hc, h1]
  · rcases (hu.node _ hc).2.2 with h2 | ⟨_, a, h2, h3⟩
    · rw [h1] at h2
      cases h2
    · exact absurd h3 (hs a (by rw [← r5, hu.read]; exact List.mem_append_left _ h2))

/-- How many bytes the lzs decoder takes: those of the tokens, and at most three more. -/
theorem lzs_reads (tab : Arr) (ht : makeCrcTable = .ok tab) (h : Hf) (ts : List RTok) (hok : ∀ t ∈ ts, lzsTokOk t) (B T : List Nat)
    (hB : IsBytes B) (S : List Bool) (hbits : bytesBits B = lzsBits ts ++ S) :
    ∃ n, decodeLzs tab h (Ring.run 2048 lzsRing ts).out.length B.length (B ++ T) =
      .ok ⟨(Ring.run 2048 lzsRing ts).out, crc16 0 (Ring.run 2048 lzsRing ts).out, n, (B ++ T).drop n, h⟩ ∧
      n ≤ B.length ∧ 8 * (B.length - n) ≤ S.length ∧ S.length ≤ 8 * (B.length - n) + 24 := by
  obtain ⟨tab', ht1, ht2⟩ := makeCrcTable_ok
  rw [ht1] at ht
  cases ht
  unfold decodeLzs
  obtain ⟨r, r1, r2⟩ := initGetbits_spec ⟨B ++ T, B.length, 0, 0, 0⟩ B T rfl rfl hB
  rw [r1, ok_bind]
  rw [hbits] at r2
  obtain ⟨s', f1, f2⟩ := lzs_feeds ts 0 ⟨r, 0⟩ S T hok r2
  have hraw := expand_raw (m := 18) (N := 2048) (adj := 254) (c0 := 2031) (by omega) (by omega) ⟨32, rfl⟩ (by omega) (by omega) (by omega)
    (pre := []) ts lzsRingInv (fun t htm => lzs_ok_raw (hok t htm))
  simp only [List.nil_append, List.length_nil] at hraw
  have hdec := decodeWin_ok ht2 (by omega : 254 ≤ 255) (dic := 2048) (rawToks 18 2048 254 0 ts) ⟨r, 0⟩ s' f1
    (fun u hu _ => rawToks_dist (by omega) ts 0 u hu)
    (orig := (Ring.run 2048 lzsRing ts).out.length)
    (by
      intro i hi
      rw [← hraw]
      exact rawToks_prefix (by omega) ts 0 [] (fun t htm => lzs_ok_raw (hok t htm)) i hi)
    (by rw [← hraw]; exact Nat.le_refl _)
    ⟨by omega, ⟨32, rfl⟩, by omega⟩
  rw [hdec, ok_bind]
  unfold expand
  rw [hraw]
  have hcnt := f2.cnt
  obtain ⟨C, c1, c2, c3, c4⟩ := f2.rest
  have hl := congrArg List.length c4
  rw [bytesBits_length, List.length_drop] at hl
  have hadv : ∃ k, s'.r.inp = (B ++ T).drop k ∧ s'.r.compsize + k = B.length := by
    obtain ⟨k1, k2, k3⟩ := initGetbits_adv r1
    have : Adv (⟨r, 0⟩ : Lzs).r s'.r := decodeFrom_rel (fun a b : Lzs => Adv a.r b.r) (fun a => Adv.refl _) (fun a b c => Adv.trans)
      (fun w a b d c d' hd => decodeCLzs_adv hd)
      (fun a b d p d' hd => by cases hd; exact Adv.refl _) hdec
    obtain ⟨k4, k5, k6⟩ := this
    simp only [] at k2 k3 k5 k6
    refine ⟨k1 + k4, by rw [k5, k2, List.drop_drop], by omega⟩
  obtain ⟨k, k1, k2⟩ := hadv
  refine ⟨k, ?_, by omega, by omega, by omega⟩
  simp only []
  rw [show B.length - s'.r.compsize = k by omega, k1]

/-- **C111 is false** for the entries behind.  An lzs entry whose packed bytes hold the tokens of its content and at least four bytes more, followed by
entries which together are no longer than the packed tokens: these entries are not extracted, and success is reported.  (`skipToNextpos` is told that nothing
has been read of the entry, and skips its whole length again.) -/
theorem C111_false (f : Fmt) (hg : f.generic = false) (tab : Arr) (ht : makeCrcTable = .ok tab) (x : Entry) (ho : x.Ok) (hk : x.kind = 0o100000)
    (hm : x.method = [45, 108, 122, 115, 45]) (ts : List RTok) (hts : ∀ t ∈ ts, lzsTokOk t) (hcont : x.content = (Ring.run 2048 lzsRing ts).out)
    (hB : IsBytes x.packed) (S : List Bool) (hbits : bytesBits x.packed = lzsBits ts ++ S) (hS : 32 ≤ S.length) (es : List Entry) (t : List Nat)
    (hlen : 8 * (archive es t).length ≤ (lzsBits ts).length) (s : Sys) (hc : s.Creatable (lastName x.name)) (hn : s.node (lastName x.name) = none)
    (hf : Hf) (hok : GOk hf) :
    commandExtractD f (others tab) tab Opts.default false hf s (some (archive (x :: es) t)) =
      .ok (false, s.set (lastName x.name) (.file x.content s.fresh), hf) := by
  obtain ⟨n, h1, h2, h3, h4⟩ := lzs_reads tab ht hf ts hts x.packed (archive es t) hB S hbits
  have hl := congrArg List.length hbits
  rw [bytesBits_length, List.length_append] at hl
  have hdec : decodeLzhuf (others tab) tab 8 hf x.content.length x.packed.length (x.packed ++ archive es t) =
      .ok ⟨x.content, crc16 0 x.content, n, (x.packed ++ archive es t).drop n, hf⟩ := by
    rw [hcont]
    exact h1
  obtain ⟨g, e1, P⟩ := entry_parse f hg tab x ho newHdr newHdr_method (by rw [newHdr_name]; have := ho.name; omega) (archive es t)
  have hone := (extractOneD_new (others tab) tab ho hk (m := 8) (by rw [hm]; decide) (by omega) P hc hn hf (x.packed ++ archive es t)).2 hdec
  unfold commandExtractD
  simp only [Bool.false_eq_true, if_false]
  rw [ok_bind]
  have hfuel := archive_length (x :: es) t
  obtain ⟨N, hN⟩ : ∃ N, (archive (x :: es) t).length + 1 = N + 2 := ⟨(archive (x :: es) t).length - 1, by simp at hfuel; omega⟩
  rw [hN, archive_cons]
  unfold extractLoopD
  rw [e1, ok_bind]
  simp only []
  rw [if_pos (by simp [needFile, Opts.default]), hone, ok_bind]
  simp only []
  have hskip : skipTo g.packedSize ((x.packed ++ archive es t).drop n) = some [] := by
    unfold skipTo readF
    rw [P.packed, if_neg (fun hc => by
      have := congrArg List.length hc.2
      rw [List.length_drop, List.length_append, List.length_nil] at this
      omega)]
    simp only [Option.map_some]
    rw [List.drop_eq_nil_of_le (by rw [List.length_drop, List.length_append]; omega)]
  rw [if_pos (by rw [P.packed]; omega), hskip]
  simp only []
  unfold extractLoopD
  rw [show getHeader f tab { g with name := g.name } [] = .ok .eof from rfl, ok_bind]

/-- Testing stops behind such an entry, too: whatever follows it (damaged or not), no error is reported. -/
theorem C111_false_test (f : Fmt) (hg : f.generic = false) (tab : Arr) (ht : makeCrcTable = .ok tab) (x : Entry) (ho : x.Ok) (hk : x.kind = 0o100000)
    (hm : x.method = [45, 108, 122, 115, 45]) (ts : List RTok) (hts : ∀ t ∈ ts, lzsTokOk t) (hcont : x.content = (Ring.run 2048 lzsRing ts).out)
    (hcrc : x.crc = crc16 0 x.content) (hB : IsBytes x.packed) (S : List Bool) (hbits : bytesBits x.packed = lzsBits ts ++ S) (hS : 32 ≤ S.length)
    (R : List Nat) (hlen : 8 * R.length ≤ (lzsBits ts).length) (hf : Hf) :
    commandTest f (others tab) tab Opts.default false hf (some (x.bytes ++ R)) = .ok (false, hf) := by
  obtain ⟨n, h1, h2, h3, h4⟩ := lzs_reads tab ht hf ts hts x.packed R hB S hbits
  have hl := congrArg List.length hbits
  rw [bytesBits_length, List.length_append] at hl
  have hdec : decodeLzhuf (others tab) tab 8 hf x.content.length x.packed.length (x.packed ++ R) =
      .ok ⟨x.content, crc16 0 x.content, n, (x.packed ++ R).drop n, hf⟩ := by
    rw [hcont]
    exact h1
  obtain ⟨g, e1, P⟩ := entry_parse f hg tab x ho newHdr newHdr_method (by rw [newHdr_name]; have := ho.name; omega) R
  have hidx : methods.findIdx? (· = x.method) = some 8 := by rw [hm]; decide
  have hv : verifyOne (others tab) tab Opts.default hf g (x.packed ++ R) = .ok (.ok ⟨n, (x.packed ++ R).drop n, hf, g.name, none⟩) := by
    unfold verifyOne
    rw [P.entryName, ok_bind]
    simp only [P.method, hidx]
    rw [if_pos ⟨(P.fileType ho).trans hk, by omega⟩, P.original, P.packed, hdec, ok_bind]
    simp only []
    rw [if_neg (by rw [P.crc, hcrc]; simp)]
  obtain ⟨N, hN⟩ : ∃ N, (x.bytes ++ R).length + 1 = N + 2 := by
    have := header_length x
    exact ⟨(x.bytes ++ R).length - 1, by rw [List.length_append]; omega⟩
  unfold commandTest
  simp only [Bool.false_eq_true, if_false]
  rw [ok_bind, hN]
  unfold testLoop
  rw [e1, ok_bind]
  simp only []
  rw [if_pos (by simp [needFile, Opts.default]), hv, ok_bind]
  simp only []
  have hskip : skipTo g.packedSize ((x.packed ++ R).drop n) = some [] := by
    unfold skipTo readF
    rw [P.packed, if_neg (fun hc => by
      have := congrArg List.length hc.2
      rw [List.length_drop, List.length_append, List.length_nil] at this
      omega)]
    simp only [Option.map_some]
    rw [List.drop_eq_nil_of_le (by rw [List.length_drop, List.length_append]; omega)]
  rw [if_pos (by rw [P.packed]; omega), hskip]
  simp only []
  unfold testLoop
  rfl

/-- Forty letters `A` packed by lzs, and four bytes more. -/
def paddedEntry : Entry :=
  sampleEntry [45, 108, 122, 115, 45] [97] ((List.replicate 5 [160, 208, 104, 52, 26, 13, 6, 131, 65]).flatten ++ [0, 0, 0, 0]) (List.replicate 40 65)

/-- The hypotheses of `C111_false` and `C111_false_test` are met by this entry `a` followed by the sound entry `b`, of 39 bytes. -/
example : paddedEntry.Ok ∧ paddedEntry.kind = 0o100000 ∧ (∀ t ∈ List.replicate 40 (RTok.lit 65), lzsTokOk t) ∧
    paddedEntry.content = (Ring.run 2048 lzsRing (List.replicate 40 (.lit 65))).out ∧ IsBytes paddedEntry.packed ∧
    bytesBits paddedEntry.packed = lzsBits (List.replicate 40 (.lit 65)) ++ List.replicate 32 false ∧
    Sound (sampleEntry [45, 108, 122, 115, 45] [98] [0xa0, 0x80] [65]) ∧
    8 * (archive [sampleEntry [45, 108, 122, 115, 45] [98] [0xa0, 0x80] [65]] [0]).length ≤ (lzsBits (List.replicate 40 (.lit 65))).length := by
  refine ⟨⟨rfl, by decide, by decide, by decide, by decide, by decide, sampleEntry_crc _ _ _ _, by decide, Or.inl rfl⟩, rfl, ?_, by decide +kernel, ?_, by decide +kernel,
    sample_sound _ (by decide) (by decide) (by decide), by decide +kernel⟩
  · intro t ht
    have := List.eq_of_mem_replicate ht
    subst this
    exact (by decide : 65 < 256)
  · unfold IsBytes
    decide

/-- An lzs entry of which only one byte has survived, with `n` bytes announced. -/
def cutEntry (name : List Nat) (n : Nat) : Entry := { sampleEntry [45, 108, 122, 115, 45] name [0xa0] (List.replicate n 65) with crc := 0 }

/-- Such an entry meets the hypothesis on damaged entries. -/
theorem cut_spoilt (tab : Arr) (name : List Nat) (h1 : name.length ≤ 221) (h2 : 0 ∉ name) (h3 : 0x5c ∉ name) (n : Nat) (hn : n < 2 ^ 32) :
    Spoilt tab (cutEntry name n) := by
  refine ⟨⟨rfl, h1, h2, h3, (by decide : 1 < 2 ^ 32), by show (List.replicate n 65).length < _; rw [List.length_replicate]; exact hn, (by decide : 0 < 2 ^ 16),
    (by decide : 0o644 < 2 ^ 12), Or.inl rfl⟩, rfl, 8, (by decide : methods.findIdx? (· = [45, 108, 122, 115, 45]) = some 8), by omega, ?_⟩
  intro hf T d _ hd
  have hd : decodeLzs tab hf (List.replicate n 65).length 1 ([0xa0] ++ T) = .ok d := hd
  unfold decodeLzs at hd
  obtain ⟨r, r1, r2⟩ := initGetbits_spec ⟨[0xa0] ++ T, 1, 0, 0, 0⟩ [0xa0] T rfl rfl (by unfold IsBytes; decide)
  rw [r1, ok_bind] at hd
  obtain ⟨⟨out, crc, s'⟩, hdec, hd⟩ := bind_ok hd
  cases hd
  obtain ⟨C, c1, c2, c3, c4⟩ := r2.rest
  have hl := congrArg List.length c4
  rw [bytesBits_length, List.length_drop, bytesBits_length] at hl
  have : Adv (⟨r, 0⟩ : Lzs).r s'.r := decodeFrom_rel (fun a b : Lzs => Adv a.r b.r) (fun a => Adv.refl _) (fun a b c => Adv.trans)
    (fun w a b d c d' hd => decodeCLzs_adv hd)
    (fun a b d p d' hd => by cases hd; exact Adv.refl _) hdec
  obtain ⟨k4, k5, k6⟩ := this
  simp only [List.length_cons, List.length_nil] at hl k6
  show 1 - s'.r.compsize = 1
  omega

/-- The hypotheses of `C111_extract_partial` and `C111_returns_partial` are met by the entries `ab` (sound), `c` (cut) and `d` (sound). -/
example (tab : Arr) : (∀ e ∈ [sampleEntry [45, 108, 122, 115, 45] [97, 98] [0xa0, 0x80] [65], cutEntry [99] 1000, sampleEntry [45, 108, 122, 115, 45] [100] [0xa0, 0x80] [65]],
      Sound e ∨ Spoilt tab e ∧ (e.method = [45, 108, 104, 49, 45] ∨ e.method = [45, 108, 122, 115, 45])) ∧
    NonInc 1024 [sampleEntry [45, 108, 122, 115, 45] [97, 98] [0xa0, 0x80] [65], cutEntry [99] 1000, sampleEntry [45, 108, 122, 115, 45] [100] [0xa0, 0x80] [65]] := by
  refine ⟨?_, (by decide : 2 < 1024), (by decide : 1 < 3), (by decide : 1 < 2), trivial⟩
  intro e he
  simp only [List.mem_cons, List.not_mem_nil, or_false] at he
  rcases he with rfl | rfl | rfl
  · exact Or.inl (sample_sound _ (by decide) (by decide) (by decide))
  · exact Or.inr ⟨cut_spoilt tab _ (by decide) (by decide) (by decide) 1000 (by decide), Or.inr rfl⟩
  · exact Or.inl (sample_sound _ (by decide) (by decide) (by decide))

end Lha
