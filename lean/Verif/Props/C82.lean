import Verif.Model.Print
import Verif.Props.C61
import Verif.Props.C11
/-!
# C82: printing shows the contents

The property: `CommandExtract` with `OutputToStdout` (`lharc -p`) prints the contents of the entries asked for, in order and each (unless `Quiet` is set) below a heading with its name, and
nothing else; what is printed without an error has the checksum in the archive.
-/

namespace Lha

open Spec

/-- What should be printed. -/
def Spec.shownAs (quiet : Bool) (name content : List Nat) : List Nat :=
  (if quiet then [] else [58, 58, 58, 58, 58, 58, 58, 58, 10] ++ name ++ [10, 58, 58, 58, 58, 58, 58, 58, 58, 10]) ++ content

theorem heading_eq (quiet : Bool) (name content : List Nat) : heading quiet name ++ content = shownAs quiet name content := by
  unfold heading shownAs
  cases quiet <;> simp

/-! ### Printing is testing, with output -/

theorem printOne_verify (quiet : Bool) (oth : Oth) (tab : Arr) (o : Opts) (hf : Hf) (h : Hdr) (inp : List Nat) :
    (printOne quiet oth tab o hf h inp >>= fun r => .ok r.1) = verifyOne oth tab o hf h inp := by
  unfold printOne verifyOne
  cases entryName o h with
  | error e => rfl
  | ok x =>
    rw [ok_bind, ok_bind]
    cases x with
    | none => rfl
    | some nn =>
      obtain ⟨name, hname⟩ := nn
      simp only []
      cases methods.findIdx? (· = h.method) with
      | none => rfl
      | some m =>
        simp only []
        by_cases hr : fileType h.mode = 0o100000 ∧ m ≠ 11
        · rw [if_pos hr, if_pos hr]
          cases decodeLzhuf oth tab m hf h.originalSize h.packedSize inp with
          | error e => rfl
          | ok d =>
            rw [ok_bind, ok_bind]
            by_cases hc : h.hasCrc = true ∧ d.crc ≠ h.crc
            · rw [if_pos hc, if_pos hc]; rfl
            · rw [if_neg hc, if_neg hc]; rfl
        · rw [if_neg hr, if_neg hr]
          by_cases hc : fileType h.mode = 0o040000 ∨ fileType h.mode = 0o120000 ∨ m = 11 ∨ o.force = true
          · rw [if_pos hc, if_pos hc]; rfl
          · rw [if_neg hc, if_neg hc]; rfl

theorem printLoop_test (quiet : Bool) (f : Fmt) (oth : Oth) (tab : Arr) (o : Opts) (n : Nat) : ∀ h hf acc inp,
    (printLoop quiet f oth tab o n h hf acc inp >>= fun r => .ok (r.err, r.hf)) = testLoop f oth tab o n h hf inp := by
  induction n with
  | zero => intro h hf acc inp; rfl
  | succ n ih =>
    intro h hf acc inp
    unfold printLoop testLoop
    cases getHeader f tab h inp with
    | error e => rfl
    | ok x =>
      rw [ok_bind, ok_bind]
      cases x with
      | eof => rfl
      | bad => rfl
      | fin => rfl
      | got g rest =>
        simp only []
        by_cases hn : needFile o g.name = true
        · rw [if_pos hn, if_pos hn, ← printOne_verify quiet]
          cases printOne quiet oth tab o hf g rest with
          | error e => rfl
          | ok y =>
            obtain ⟨y, txt⟩ := y
            rw [ok_bind, ok_bind, ok_bind]
            cases y with
            | error e => rfl
            | ok d =>
              simp only []
              by_cases hr : d.readSize ≠ g.packedSize
              · rw [if_pos hr, if_pos hr]
                cases skipTo g.packedSize d.rest with
                | none => rfl
                | some r => exact ih _ _ _ _
              · rw [if_neg hr, if_neg hr]
                exact ih _ _ _ _
        · rw [if_neg hn, if_neg hn]
          cases skipTo g.packedSize rest with
          | none => exact ih _ _ _ _
          | some r => exact ih _ _ _ _

/-- With `OutputToStdout` the call fails, panics or succeeds exactly as the test of the archive (C61) does. -/
theorem C82_test (quiet : Bool) (f : Fmt) (oth : Oth) (tab : Arr) (o : Opts) (sfx : Bool) (hf : Hf) (arch : Option (List Nat)) :
    (commandPrint quiet f oth tab o sfx hf arch >>= fun r => .ok (r.err, r.hf)) = commandTest f oth tab o sfx hf arch := by
  unfold commandPrint commandTest
  cases arch with
  | none => rfl
  | some a =>
    simp only []
    cases sfx with
    | false => exact printLoop_test quiet f oth tab o _ _ _ _ _
    | true =>
      simp only [if_true]
      cases seekLhaHeader a with
      | error e => rfl
      | ok a => exact printLoop_test quiet f oth tab o _ _ _ _ _

/-! ### Valid archives -/

theorem Sound.print {tab : Arr} (ht : makeCrcTable = .ok tab) {e : Entry} (h : Sound e) (hcrc : e.crc = crc16 0 e.content) {g : Hdr} (P : Parsed e g)
    (quiet : Bool) (hf : Hf) (hok : GOk hf) (T : List Nat) : ∃ hf', GOk hf' ∧ printOne quiet (others tab) tab Opts.default hf g (e.packed ++ T) =
      .ok (.ok ⟨e.packed.length, T, hf', g.name, none⟩, shownAs quiet (lastName e.name) e.content) := by
  obtain ⟨ho, hk, m, hidx, hp⟩ := h
  obtain ⟨hf1, ok1, hdec⟩ := hp.decodes ht hf hok T
  refine ⟨hf1, ok1, ?_⟩
  unfold printOne
  rw [P.entryName, ok_bind]
  simp only [P.method, hidx]
  rw [if_pos ⟨(P.fileType ho).trans hk, hp.ndir⟩, P.original, P.packed, hdec, ok_bind]
  simp only []
  rw [if_neg (by rw [P.crc, hcrc]; simp), heading_eq]

theorem printLoop_good (quiet : Bool) (f : Fmt) (hg : f.generic = false) {tab : Arr} (ht : makeCrcTable = .ok tab) {t : List Nat} (htl : Tail t) (es : List Entry) :
    ∀ (n : Nat) (h : Hdr) (hf : Hf) (acc : List Nat), es.length < n → (∀ e ∈ es, Sound e ∧ e.crc = crc16 0 e.content) → GOk hf → h.method.length = 5 →
      NonInc h.name.length es →
      ∃ hf', GOk hf' ∧ printLoop quiet f (others tab) tab Opts.default n h hf acc (archive es t) =
        .ok ⟨false, acc ++ es.flatMap (fun e => shownAs quiet (lastName e.name) e.content), hf'⟩ := by
  induction es with
  | nil =>
    intro n h hf acc hn _ hok _ _
    obtain ⟨n, rfl⟩ : ∃ k, n = k + 1 := ⟨n - 1, by simp at hn; omega⟩
    refine ⟨hf, hok, ?_⟩
    unfold printLoop
    show (getHeader f tab h t >>= _) = _
    rcases tail_end f tab h htl with e | e
    · rw [e, ok_bind]; simp
    · rw [e, ok_bind]; simp
  | cons e es ih =>
    intro n h hf acc hn hgood hok hm hinc
    obtain ⟨n, rfl⟩ : ∃ k, n = k + 1 := ⟨n - 1, by simp at hn; omega⟩
    obtain ⟨hs, hcrc⟩ := hgood e List.mem_cons_self
    obtain ⟨g, e1, P⟩ := entry_parse f hg tab e hs.ok h hm hinc.1 (archive es t)
    obtain ⟨hf1, ok1, hv⟩ := hs.print ht hcrc P quiet hf hok (archive es t)
    have hl : g.name.length = e.name.length + 1 := by rw [P.name, List.length_append]; rfl
    obtain ⟨hf2, ok2, hr⟩ := ih n { g with name := g.name } hf1 (acc ++ shownAs quiet (lastName e.name) e.content) (by simp at hn; omega)
      (fun e' he' => hgood e' (List.mem_cons_of_mem _ he')) ok1 (by rw [P.method]; exact hs.ok.method) (by rw [hl]; exact hinc.2)
    refine ⟨hf2, ok2, ?_⟩
    unfold printLoop
    rw [archive_cons, e1, ok_bind]
    simp only []
    rw [if_pos (by simp [needFile, Opts.default]), hv, ok_bind]
    simp only []
    rw [if_neg (by rw [P.packed]; simp), hr]
    simp

/-- **C82 (partial).** Full statement: see the head of the file.  Proved for archives of any number of entries as in C42 with right checksums, all of which are asked for: exactly the contents are printed, each below the last
component of its name.  False of stored entries (`C82_false_stored`), of directory names (they are left out) and if entries are left out (`C82_false_selected`). -/
theorem C82_partial (quiet : Bool) (f : Fmt) (hg : f.generic = false) (tab : Arr) (ht : makeCrcTable = .ok tab) (es : List Entry)
    (hes : ∀ e ∈ es, Sound e ∧ e.crc = crc16 0 e.content) (hinc : NonInc 1024 es) (t : List Nat) (htl : Tail t) (hf : Hf) (hok : GOk hf) :
    ∃ hf', GOk hf' ∧ commandPrint quiet f (others tab) tab Opts.default false hf (some (archive es t)) =
      .ok ⟨false, es.flatMap (fun e => shownAs quiet (lastName e.name) e.content), hf'⟩ := by
  obtain ⟨hf', ok', h⟩ := printLoop_good quiet f hg ht htl es ((archive es t).length + 1) newHdr hf [] (by have := archive_length es t; omega)
    hes hok newHdr_method (by rw [newHdr_name]; exact hinc)
  refine ⟨hf', ok', ?_⟩
  unfold commandPrint
  simp only [Bool.false_eq_true, if_false]
  rw [ok_bind, h]
  rfl

/-! ### Arbitrary bytes -/

/-- Something that may be printed about the archive `a`: the message, or a heading with text which, unless the entry is stored, has the checksum of the header. -/
inductive Piece (quiet : Bool) (f : Fmt) (tab : Arr) (o : Opts) (a : List Nat) : List Nat → Prop
  | skipped {k : Nat} {h0 h : Hdr} {rest : List Nat} (hh : getHeader f tab h0 (a.drop k) = .ok (.got h rest)) (hn : needFile o h.name = false) :
      Piece quiet f tab o a (seekMessage h.name)
  | entry {k : Nat} {h0 h : Hdr} {rest name data : List Nat} (hh : getHeader f tab h0 (a.drop k) = .ok (.got h rest)) (hn : needFile o h.name = true)
      (hc : h.method ≠ lh0 ∧ h.method ≠ [45, 108, 122, 52, 45] ∧ h.method ≠ [45, 112, 109, 48, 45] → h.hasCrc = true → crc16 0 data = h.crc) :
      Piece quiet f tab o a (shownAs quiet name data)
  | none : Piece quiet f tab o a []

theorem printOne_piece {quiet : Bool} {f : Fmt} {oth : Oth} (hoth : OthCrc oth) {tab : Arr} (ht : CrcTab tab) {o : Opts} {a : List Nat} {k : Nat} {h0 h : Hdr} {rest : List Nat}
    (hh : getHeader f tab h0 (a.drop k) = .ok (.got h rest)) (hn : needFile o h.name = true) {hf : Hf} {d : OneOut} {txt : List Nat}
    (hst : ∀ m h o p inp d, decodeLzhuf oth tab m h o p inp = .ok d → ∃ k, d.rest = inp.drop k)
    (hp : printOne quiet oth tab o hf h rest = .ok (.ok d, txt)) : Piece quiet f tab o a txt ∧ ∃ k, d.rest = rest.drop k := by
  unfold printOne at hp
  obtain ⟨x, hx, hp⟩ := bind_ok hp
  split at hp
  · cases hp
  · rename_i name hname
    split at hp
    · cases hp
    · rename_i m hidx
      split at hp
      · rename_i hreg
        obtain ⟨y, hy, hp⟩ := bind_ok hp
        simp only [] at hp
        split at hp
        · cases hp
        · rename_i hcc
          cases hp
          refine ⟨?_, hst _ _ _ _ _ _ hy⟩
          rw [heading_eq]
          refine .entry hh hn ?_
          intro hm hc
          have hes : extractOneStream oth tab hf h rest = .ok (.ok y) := by
            unfold extractOneStream
            simp only [hidx]
            rw [if_pos hreg, hy, ok_bind, if_neg hcc]
          exact extractOneStream_crc hoth ht hm hes hc
      · split at hp
        · cases hp; exact ⟨.none, 0, rfl⟩
        · cases hp

theorem printLoop_pieces {quiet : Bool} {f : Fmt} {oth : Oth} (hoth : OthCrc oth) {tab : Arr} (ht : CrcTab tab) {o : Opts} {a : List Nat}
    (hst : ∀ m h o p inp d, decodeLzhuf oth tab m h o p inp = .ok d → ∃ k, d.rest = inp.drop k) (n : Nat) :
    ∀ {h : Hdr} {hf : Hf} {acc : List Nat} {k : Nat} {r : PrintOut}, printLoop quiet f oth tab o n h hf acc (a.drop k) = .ok r → r.err = false →
      ∃ ps : List (List Nat), (∀ p ∈ ps, Piece quiet f tab o a p) ∧ r.printed = acc ++ ps.flatten := by
  induction n with
  | zero => intro h hf acc k r hr; cases hr
  | succ n ih =>
    intro h hf acc k r hr he
    unfold printLoop at hr
    obtain ⟨x, hx, hr⟩ := bind_ok hr
    have cont : ∀ {h : Hdr} {hf : Hf} {txt : List Nat} {j : Nat}, Piece quiet f tab o a txt → printLoop quiet f oth tab o n h hf (acc ++ txt) (a.drop j) = .ok r →
        ∃ ps : List (List Nat), (∀ p ∈ ps, Piece quiet f tab o a p) ∧ r.printed = acc ++ ps.flatten := by
      intro h hf txt j hp hr
      obtain ⟨ps, p1, p2⟩ := ih hr he
      refine ⟨txt :: ps, ?_, by rw [p2]; simp⟩
      intro p hq
      rcases List.mem_cons.1 hq with rfl | hq
      · exact hp
      · exact p1 p hq
    split at hr
    · cases hr; exact ⟨[], by simp, by simp⟩
    · cases hr; cases he
    · cases hr; exact ⟨[], by simp, by simp⟩
    · rename_i g rest
      obtain ⟨_, k1, _, hk1⟩ := getHeader_got hx
      rw [List.drop_drop] at hk1
      split at hr
      · rename_i hn
        obtain ⟨y, hy, hr⟩ := bind_ok hr
        split at hr
        · cases hr; cases he
        · rename_i d txt
          obtain ⟨q1, k2, hk2⟩ := printOne_piece hoth ht hx hn hst hy
          rw [hk1, List.drop_drop] at hk2
          simp only [] at hr
          split at hr
          · split at hr
            · cases hr; cases he
            · rename_i r' hsk
              unfold skipTo at hsk
              cases hrd : readF g.packedSize d.rest with
              | none => rw [hrd] at hsk; cases hsk
              | some z =>
                rw [hrd] at hsk
                cases hsk
                rw [(readF_some hrd).2, hk2, List.drop_drop] at hr
                exact cont q1 hr
          · rw [hk2] at hr
            exact cont q1 hr
      · rename_i hn
        split at hr
        · rename_i r' hsk
          unfold skipTo at hsk
          cases hrd : readF g.packedSize rest with
          | none => rw [hrd] at hsk; cases hsk
          | some z =>
            rw [hrd] at hsk
            cases hsk
            rw [(readF_some hrd).2, hk1, List.drop_drop] at hr
            exact cont (.skipped hx (by simpa using hn)) hr
        · have : ([] : List Nat) = a.drop a.length := by simp
          rw [this] at hr
          exact ih hr he

/-- **C82 (partial), whatever the file contains.**  If no error is returned, everything printed is a heading of an entry asked for followed by text which has the checksum in the header (unless the entry is a stored one), or
the message for an entry that is not asked for. -/
theorem C82_checked_partial (quiet : Bool) (f : Fmt) (tab : Arr) (ht : makeCrcTable = .ok tab) (o : Opts) (hf : Hf) (a : List Nat) (r : PrintOut)
    (hr : commandPrint quiet f (others tab) tab o false hf (some a) = .ok r) (he : r.err = false) :
    ∃ ps : List (List Nat), (∀ p ∈ ps, Piece quiet f tab o a p) ∧ r.printed = ps.flatten := by
  obtain ⟨tab', ht1, ht2⟩ := makeCrcTable_ok
  rw [ht1] at ht
  cases ht
  unfold commandPrint at hr
  simp only [Bool.false_eq_true, if_false] at hr
  rw [ok_bind] at hr
  obtain ⟨ps, p1, p2⟩ := printLoop_pieces (k := 0) (fun m h o p inp d hd => others_crc ht2 m h o p inp d hd) ht2
    (decodeLzhuf_rest (fun m h o p inp d hd => others_rest m h o p inp d hd)) _ hr he
  exact ⟨ps, p1, by simpa using p2⟩

/-! ### What is false -/

/-- **C82 is false of stored entries**: everything behind the header is printed, other entries included, filled up to a multiple of 2 KiB; the call ends there, with an error unless the checksum is 0. -/
theorem C82_false_stored (quiet : Bool) (f : Fmt) (hg : f.generic = false) (tab : Arr) (e : Entry) (ho : e.Ok) (hk : e.kind = 0o100000)
    (hl0 : e.method = lh0) (_hp : e.packed = e.content) (hne : e.content ≠ []) (hnz : e.crc ≠ 0) (t : List Nat) (hf : Hf) :
    ∃ pad : List Nat, (e.content ++ t ++ pad).length % 2048 = 0 ∧ commandPrint quiet f (others tab) tab Opts.default false hf (some (archive [e] t)) =
      .ok ⟨true, shownAs quiet (lastName e.name) (e.content ++ t ++ pad), hf⟩ := by
  obtain ⟨g, e1, P⟩ := entry_parse f hg tab e ho newHdr newHdr_method (by rw [newHdr_name]; have := ho.name; omega) t
  have hidx : methods.findIdx? (· = e.method) = some 0 := by rw [hl0]; decide
  obtain ⟨pad, c1, c2⟩ := copyfile_ok e.content.length (List.length_pos_iff.2 hne) (e.packed ++ t)
  rw [_hp] at c1 c2
  refine ⟨pad, by rw [List.length_append, c2]; omega, ?_⟩
  have hv : printOne quiet (others tab) tab Opts.default hf g (e.packed ++ t) = .ok (.error hf, shownAs quiet (lastName e.name) (e.content ++ t ++ pad)) := by
    unfold printOne
    rw [P.entryName, ok_bind]
    simp only [P.method, hidx]
    rw [if_pos ⟨(P.fileType ho).trans hk, by omega⟩, P.original, _hp]
    unfold decodeLzhuf
    rw [if_pos (Or.inl rfl), c1, ok_bind, ok_bind]
    simp only []
    rw [if_pos ⟨P.hasCrc, by rw [P.crc]; exact Ne.symm hnz⟩, heading_eq]
  unfold commandPrint
  simp only [Bool.false_eq_true, if_false]
  rw [ok_bind]
  unfold printLoop
  rw [archive_cons, show archive [] t = t from rfl, e1, ok_bind]
  simp only []
  rw [if_pos (by simp [needFile, Opts.default]), hv, ok_bind]
  rfl

/-- The same with the checksum 0, unless the entry is the last thing in the file: everything is printed, and then an error is returned. -/
theorem C82_false_stored_zero (quiet : Bool) (f : Fmt) (hg : f.generic = false) (tab : Arr) (e : Entry) (ho : e.Ok) (hk : e.kind = 0o100000)
    (hl0 : e.method = lh0) (hp : e.packed = e.content) (hne : e.content ≠ []) (hz : e.crc = 0) (t : List Nat) (hnt : t ≠ []) (hf : Hf) :
    ∃ pad : List Nat, (e.content ++ t ++ pad).length % 2048 = 0 ∧ commandPrint quiet f (others tab) tab Opts.default false hf (some (archive [e] t)) =
      .ok ⟨true, shownAs quiet (lastName e.name) (e.content ++ t ++ pad), hf⟩ := by
  obtain ⟨g, e1, P⟩ := entry_parse f hg tab e ho newHdr newHdr_method (by rw [newHdr_name]; have := ho.name; omega) t
  have hidx : methods.findIdx? (· = e.method) = some 0 := by rw [hl0]; decide
  obtain ⟨pad, c1, c2⟩ := copyfile_ok e.content.length (List.length_pos_iff.2 hne) (e.packed ++ t)
  rw [hp] at c1 c2
  refine ⟨pad, by rw [List.length_append, c2]; omega, ?_⟩
  have hv : printOne quiet (others tab) tab Opts.default hf g (e.packed ++ t) =
      .ok (.ok ⟨(e.content ++ t).length, [], hf, g.name, none⟩, shownAs quiet (lastName e.name) (e.content ++ t ++ pad)) := by
    unfold printOne
    rw [P.entryName, ok_bind]
    simp only [P.method, hidx]
    rw [if_pos ⟨(P.fileType ho).trans hk, by omega⟩, P.original, hp]
    unfold decodeLzhuf
    rw [if_pos (Or.inl rfl), c1, ok_bind, ok_bind]
    simp only []
    rw [if_neg (fun h => h.2 (by rw [P.crc, hz])), heading_eq]
  have hlen : 0 < t.length := List.length_pos_iff.2 hnt
  have hlen' : 0 < e.content.length := List.length_pos_iff.2 hne
  have hsk : skipTo g.packedSize [] = none := by
    unfold skipTo readF
    rw [P.packed, hp, if_pos ⟨by omega, rfl⟩]
    rfl
  unfold commandPrint
  simp only [Bool.false_eq_true, if_false]
  rw [ok_bind]
  unfold printLoop
  rw [archive_cons, show archive [] t = t from rfl, e1, ok_bind]
  simp only []
  rw [if_pos (by simp [needFile, Opts.default]), hv, ok_bind]
  simp only []
  rw [if_pos (by rw [P.packed, hp, List.length_append]; omega), hsk]
  rfl

/-- **C82 is false if entries are left out**: for each of them a message is mixed into the output, although skipping it succeeds. -/
theorem C82_false_selected (quiet : Bool) (f : Fmt) (hg : f.generic = false) (oth : Oth) (tab : Arr) (o : Opts) (e : Entry) (ho : e.Ok) (hw : needFile o (e.name ++ [0]) = false)
    (hpk : e.packed ≠ []) (hf : Hf) : commandPrint quiet f oth tab o false hf (some (archive [e] [0])) = .ok ⟨false, seekMessage (e.name ++ [0]), hf⟩ := by
  obtain ⟨g, e1, P⟩ := entry_parse f hg tab e ho newHdr newHdr_method (by rw [newHdr_name]; have := ho.name; omega) [0]
  obtain ⟨n, hn⟩ : ∃ n, (archive [e] [0]).length + 1 = n + 2 := by
    have := archive_length [e] [0]
    exact ⟨(archive [e] [0]).length - 1, by simp at this; omega⟩
  unfold commandPrint
  simp only [Bool.false_eq_true, if_false]
  rw [ok_bind, hn]
  unfold printLoop
  rw [archive_cons, show archive [] [0] = [0] from rfl, e1, ok_bind]
  simp only []
  rw [if_neg (by rw [P.name, hw]; simp)]
  have hsk : skipTo g.packedSize (e.packed ++ [0]) = some [0] := by
    unfold skipTo readF
    rw [P.packed, if_neg (by simp)]
    simp
  rw [hsk]
  simp only []
  unfold printLoop
  rcases tail_end f tab g (Or.inr ⟨[], rfl⟩ : Tail [0]) with q | q
  · rw [q, ok_bind, P.name]; rfl
  · rw [q, ok_bind, P.name]; rfl

/-! ### Cases covered -/

/-- The hypotheses of `C82_partial` are met. -/
example : (∀ e ∈ [sampleEntry [45, 108, 122, 115, 45] [100, 47, 97, 98] [0xa0, 0x80] [65], sampleEntry [45, 108, 122, 115, 45] [98] [0xa0, 0x80] [65]],
      Sound e ∧ e.crc = crc16 0 e.content) ∧
    NonInc 1024 [sampleEntry [45, 108, 122, 115, 45] [100, 47, 97, 98] [0xa0, 0x80] [65], sampleEntry [45, 108, 122, 115, 45] [98] [0xa0, 0x80] [65]] := by
  refine ⟨?_, by simp [NonInc, sampleEntry]⟩
  intro e he
  simp only [List.mem_cons, List.not_mem_nil, or_false] at he
  rcases he with rfl | rfl <;> exact ⟨sample_sound _ (by decide) (by decide) (by decide), rfl⟩

/-- … and what is printed then, for two entries `d/ab` and `b` that contain the letter A. -/
example : [sampleEntry [45, 108, 122, 115, 45] [100, 47, 97, 98] [0xa0, 0x80] [65], sampleEntry [45, 108, 122, 115, 45] [98] [0xa0, 0x80] [65]].flatMap
      (fun e => shownAs false (lastName e.name) e.content) =
    ("::::::::\nab\n::::::::\nA::::::::\nb\n::::::::\nA".toList.map Char.toNat) := by decide +kernel

/-- The hypotheses of `C82_false_selected` are met: `b` while `c` is asked for. -/
example : needFile { Opts.default with want := [[99, 0]] } ((sampleEntry [45, 108, 122, 115, 45] [98] [0xa0, 0x80] [65]).name ++ [0]) = false := by decide +kernel

/-- The hypotheses of `C82_false_stored_zero` are met. -/
example : let e : Entry := { sampleEntry [45, 108, 104, 48, 45] [98] [65] [65] with crc := 0 }
    e.Ok ∧ e.kind = 0o100000 ∧ e.method = lh0 ∧ e.packed = e.content ∧ e.content ≠ [] ∧ e.crc = 0 ∧ ([0] : List Nat) ≠ [] :=
  ⟨⟨rfl, by decide, by decide, by decide, by decide, by decide, by decide, by decide, Or.inl rfl⟩, rfl, rfl, rfl, by decide, rfl, by decide⟩

/-- The hypotheses of `C82_false_stored` are met. -/
example : let e : Entry := { sampleEntry [45, 108, 104, 48, 45] [98] [65] [65] with crc := 7 }
    e.Ok ∧ e.kind = 0o100000 ∧ e.method = lh0 ∧ e.packed = e.content ∧ e.content ≠ [] ∧ e.crc ≠ 0 :=
  ⟨⟨rfl, by decide, by decide, by decide, by decide, by decide, by decide, by decide, Or.inl rfl⟩, rfl, rfl, rfl, by decide, by decide⟩

end Lha
