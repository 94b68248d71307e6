import Verif.Model.Handles
import Verif.Props.C45
import Verif.Props.C103
/-!
# C107: whether the reading calls close the archive
-/

namespace Lha

open Spec

/-! ## The results are those of the calls without the flag -/

theorem extractBytesLoopC_fst (f : Fmt) (oth : Oth) (tab : Arr) (want : List Nat) (n : Nat) : ∀ (h : Hdr) (hf : Hf) (data inp : List Nat),
    (extractBytesLoopC f oth tab want n h hf data inp).map Prod.fst = extractBytesLoop f oth tab want n h hf data inp := by
  induction n with
  | zero => intro h hf data inp; rfl
  | succ n ih =>
    intro h hf data inp
    unfold extractBytesLoopC extractBytesLoop
    cases getHeader f tab h inp with
    | error e => rfl
    | ok x =>
      rw [ok_bind, ok_bind]
      cases x with
      | eof => rfl
      | bad => rfl
      | fin => rfl
      | got g rest =>
        simp only []
        split
        · cases extractOneStream oth tab hf g rest with
          | error e => rfl
          | ok y =>
            rw [ok_bind, ok_bind]
            cases y with
            | error z => rfl
            | ok d =>
              simp only []
              split
              · cases skipTo g.packedSize d.rest with
                | none => rfl
                | some r => exact ih _ _ _ _
              · exact ih _ _ _ _
        · exact ih _ _ _ _

theorem extractLoopC_fst (f : Fmt) (oth : Oth) (tab : Arr) (o : Opts) (need : List Nat → Bool) (n : Nat) : ∀ (h : Hdr) (hf : Hf) (s : Sys) (inp : List Nat),
    (extractLoopC f oth tab o need n h hf s inp).map Prod.fst = extractLoopD f oth tab o need n h hf s inp := by
  induction n with
  | zero => intro h hf data inp; rfl
  | succ n ih =>
    intro h hf s inp
    unfold extractLoopC extractLoopD
    cases getHeader f tab h inp with
    | error e => rfl
    | ok x =>
      rw [ok_bind, ok_bind]
      cases x with
      | eof => rfl
      | bad => rfl
      | fin => rfl
      | got g rest =>
        simp only []
        split
        · cases extractOneD oth tab o s hf g rest with
          | error e => rfl
          | ok y =>
            rw [ok_bind, ok_bind]
            obtain ⟨d, s1⟩ := y
            cases d with
            | none => rfl
            | some d =>
              simp only []
              split
              · cases skipTo g.packedSize d.rest with
                | none => rfl
                | some r => exact ih _ _ _ _
              · exact ih _ _ _ _
        · exact ih _ _ _ _

theorem decompresBytesC_fst (f : Fmt) (oth : Oth) (tab : Arr) (sfx : Bool) (want : List Nat) (hf : Hf) (a : List Nat) :
    (decompresBytesC f oth tab sfx want hf a).map Prod.fst = decompresBytes f oth tab sfx want hf (some a) := by
  unfold decompresBytesC decompresBytes
  simp only []
  split
  · cases seekLhaHeader a with
    | error e => rfl
    | ok b => exact extractBytesLoopC_fst _ _ _ _ _ _ _ _ _
  · exact extractBytesLoopC_fst _ _ _ _ _ _ _ _ _

theorem decompressC_fst (f : Fmt) (oth : Oth) (tab : Arr) (o : Opts) (sfx : Bool) (want : List Nat) (hf : Hf) (s : Sys) (a : List Nat) :
    (decompressC f oth tab o sfx want hf s a).map Prod.fst = decompressD f oth tab o sfx want hf s (some a) := by
  unfold decompressC decompressD
  simp only []
  split
  · cases seekLhaHeader a with
    | error e => rfl
    | ok b => exact extractLoopC_fst _ _ _ _ _ _ _ _ _ _
  · exact extractLoopC_fst _ _ _ _ _ _ _ _ _ _

theorem commandExtractC_fst (f : Fmt) (oth : Oth) (tab : Arr) (o : Opts) (sfx : Bool) (hf : Hf) (s : Sys) (a : List Nat) :
    (commandExtractC f oth tab o sfx hf s a).map Prod.fst = commandExtractD f oth tab o sfx hf s (some a) := by
  unfold commandExtractC commandExtractD
  simp only []
  split
  · cases seekLhaHeader a with
    | error e => rfl
    | ok b => exact extractLoopC_fst _ _ _ _ _ _ _ _ _ _
  · exact extractLoopC_fst _ _ _ _ _ _ _ _ _ _

/-! ## Well-formed archives -/

theorem end_mark (f : Fmt) (tab : Arr) (h : Hdr) (r : List Nat) : getHeader f tab h (0 :: r) = .ok .fin := by
  unfold getHeader
  rfl

theorem end_file (f : Fmt) (tab : Arr) (h : Hdr) : getHeader f tab h [] = .ok .eof := rfl

/-- Whether the archive is closed: if there is no end mark. -/
theorem extractBytesLoopC_good (f : Fmt) (hg : f.generic = false) {tab : Arr} (ht : makeCrcTable = .ok tab) (want : List Nat) {t : List Nat}
    (htl : Tail t) (es : List Entry) :
    ∀ (n : Nat) (h : Hdr) (hf : Hf) (data : List Nat), es.length < n → (∀ e ∈ es, e.Ok ∧ (e.name = want → Sound e ∧ e.crc = crc16 0 e.content)) →
      GOk hf → h.method.length = 5 → NonInc h.name.length es →
      ∃ hf', GOk hf' ∧ extractBytesLoopC f (others tab) tab (want ++ [0]) n h hf data (archive es t) = .ok (⟨false, lastOf want data es, hf'⟩, t.isEmpty) := by
  induction es with
  | nil =>
    intro n h hf data hn _ hok _ _
    obtain ⟨n, rfl⟩ : ∃ k, n = k + 1 := ⟨n - 1, by simp at hn; omega⟩
    refine ⟨hf, hok, ?_⟩
    unfold extractBytesLoopC
    show (getHeader f tab h t >>= _) = _
    rcases htl with rfl | ⟨r, rfl⟩
    · rw [end_file, ok_bind]; rfl
    · rw [end_mark, ok_bind]; rfl
  | cons e es ih =>
    intro n h hf data hn hgood hok hm hinc
    obtain ⟨n, rfl⟩ : ∃ k, n = k + 1 := ⟨n - 1, by simp at hn; omega⟩
    obtain ⟨ho, hw⟩ := hgood e List.mem_cons_self
    obtain ⟨g, e1, P⟩ := entry_parse f hg tab e ho h hm hinc.1 (archive es t)
    have hgood' := fun e' he' => hgood e' (List.mem_cons_of_mem e he')
    have hn' : es.length < n := by simp at hn; omega
    have hinc' : NonInc g.name.length es := by rw [P.name, List.length_append]; exact hinc.2
    have hm' : g.method.length = 5 := by rw [P.method]; exact ho.method
    by_cases hwant : e.name = want
    · obtain ⟨⟨_, hk, m, hidx, hp⟩, hcrc⟩ := hw hwant
      obtain ⟨hf1, ok1, hdec⟩ := hp.decodes ht hf hok (archive es t)
      have hv : extractOneStream (others tab) tab hf g (e.packed ++ archive es t) =
          .ok (.ok ⟨e.content, crc16 0 e.content, e.packed.length, archive es t, hf1⟩) := by
        unfold extractOneStream
        simp only [P.method, hidx]
        rw [if_pos ⟨(P.fileType ho).trans hk, hp.ndir⟩, P.original, P.packed, hdec, ok_bind]
        simp only []
        rw [if_neg (by rw [P.crc, hcrc]; simp)]
      obtain ⟨hf2, ok2, hr⟩ := ih n g hf1 e.content hn' hgood' ok1 hm' hinc'
      refine ⟨hf2, ok2, ?_⟩
      unfold extractBytesLoopC
      rw [archive_cons, e1, ok_bind]
      simp only []
      rw [if_pos (by rw [P.name, hwant]), hv, ok_bind]
      simp only []
      rw [if_neg (by rw [P.packed]; simp), hr]
      unfold lastOf
      rw [List.foldl_cons, if_pos hwant]
    · obtain ⟨hf2, ok2, hr⟩ := ih n g hf data hn' hgood' hok hm' hinc'
      refine ⟨hf2, ok2, ?_⟩
      unfold extractBytesLoopC
      rw [archive_cons, e1, ok_bind]
      simp only []
      rw [if_neg (by rw [P.name]; intro hc; exact hwant (List.append_cancel_right hc)), P.packed, skip_packed, hr]
      unfold lastOf
      rw [List.foldl_cons, if_neg hwant]

theorem RunI.prefixC (f : Fmt) (hg : f.generic = false) {tab : Arr} {need : List Nat → Bool} (t : List Nat)
    {s s' : Sys} {l : List Item} (hrun : RunI f tab need s l s') :
    ∀ (n : Nat) (h : Hdr) (hf : Hf), l.length < n → (∀ i ∈ l, i.Valid) → GOk hf → h.method.length = 5 → FitsI f h.extendType h.name.length l →
      ∃ k h' hf', 0 < k ∧ GOk hf' ∧
        extractLoopC f (others tab) tab Opts.default need n h hf s (l.flatMap Item.bytes ++ t) = extractLoopC f (others tab) tab Opts.default need k h' hf' s' t := by
  induction hrun with
  | nil s =>
    intro n h hf hn _ hok hm _
    exact ⟨n, h, hf, by simp at hn; omega, hok, rfl⟩
  | @cons s s1 s2 i l hstep hr ih =>
    intro n h hf hn hvs hok hm hinc
    obtain ⟨n, rfl⟩ : ∃ k, n = k + 1 := ⟨n - 1, by simp at hn; omega⟩
    have hv := hvs i List.mem_cons_self
    obtain ⟨g, e1, K⟩ := i.parse f hg tab hv h hm hinc.1 hinc.2.1 (l.flatMap Item.bytes ++ t)
    have hn' : l.length < n := by simp at hn; omega
    have hvs' := fun e' he' => hvs e' (List.mem_cons_of_mem i he')
    have hm' : g.method.length = 5 := by rw [K.method]; exact hv.method
    have hinc' := K.fits hinc.2.2
    conv in extractLoopC _ _ _ _ _ (n + 1) _ _ _ _ => unfold extractLoopC
    rw [List.flatMap_cons, List.append_assoc, e1, ok_bind]
    simp only []
    rcases hstep g hf (l.flatMap Item.bytes ++ t) hok K with ⟨hno, rfl⟩ | ⟨hyes, d, ok1, hv, hdn, hd⟩
    · rw [if_neg (by rw [hno]; simp), K.packed, skip_packed]
      exact ih n g hf hn' hvs' hok hm' hinc'
    · rw [if_pos hyes, hv, ok_bind]
      simp only [hdn]
      rcases hd with ⟨d1, d2⟩ | ⟨d1, d2⟩
      · rw [if_neg (by rw [K.packed, d1]; simp), d2]
        exact ih n { g with name := g.name } d.hf hn' hvs' ok1 hm' hinc'
      · by_cases hp : i.packed = []
        · rw [if_neg (by rw [K.packed, d1, hp]; simp), d2, hp, List.nil_append]
          exact ih n { g with name := g.name } d.hf hn' hvs' ok1 hm' hinc'
        · have : skipTo g.packedSize d.rest = some (l.flatMap Item.bytes ++ t) := by rw [K.packed, d2, skip_some _ _ hp]
          rw [if_pos (by rw [K.packed, d1]; intro hc; exact hp (List.length_eq_zero_iff.mp hc.symm)), this]
          exact ih n { g with name := g.name } d.hf hn' hvs' ok1 hm' hinc'

theorem RunI.extractC (f : Fmt) (hg : f.generic = false) {tab : Arr} {t : List Nat} (htl : Tail t) {need : List Nat → Bool}
    {s s' : Sys} {l : List Item} (hrun : RunI f tab need s l s') (hl : ∀ i ∈ l, i.Valid) (hinc : FitsI f 0 1024 l) (hf : Hf) (hok : GOk hf) :
    ∃ hf', GOk hf' ∧ extractLoopC f (others tab) tab Opts.default need ((l.flatMap Item.bytes ++ t).length + 1) newHdr hf s (l.flatMap Item.bytes ++ t) =
      .ok ((false, s', hf'), t.isEmpty) := by
  obtain ⟨k, h', hf', k1, k2, k3⟩ := hrun.prefixC f hg t ((l.flatMap Item.bytes ++ t).length + 1) newHdr hf (by have := items_length l t; omega) hl hok
    newHdr_method (by rw [newHdr_name]; exact hinc)
  obtain ⟨k, rfl⟩ : ∃ j, k = j + 1 := ⟨k - 1, by omega⟩
  refine ⟨hf', k2, ?_⟩
  rw [k3]
  unfold extractLoopC
  rcases htl with rfl | ⟨r, rfl⟩
  · rw [end_file, ok_bind]; rfl
  · rw [end_mark, ok_bind]; rfl

/-! ## Any archive -/

theorem extractBytesLoopC_err (f : Fmt) (oth : Oth) (tab : Arr) (want : List Nat) (n : Nat) : ∀ {h : Hdr} {hf : Hf} {data inp : List Nat} {r : ReadOut},
    extractBytesLoopC f oth tab want n h hf data inp = .ok (r, true) → r.err = false := by
  induction n with
  | zero => intro h hf data inp r hr; cases hr
  | succ n ih =>
    intro h hf data inp r hr
    unfold extractBytesLoopC at hr
    obtain ⟨x, h1, hr⟩ := bind_ok hr
    cases x with
    | eof => cases hr; rfl
    | bad => cases hr
    | fin => cases hr
    | got g rest =>
      simp only [] at hr
      split at hr
      · obtain ⟨y, h2, hr⟩ := bind_ok hr
        cases y with
        | error z => cases hr
        | ok d =>
          simp only [] at hr
          split at hr
          · split at hr
            · cases hr
            · exact ih hr
          · exact ih hr
      · exact ih hr

theorem extractLoopC_err (f : Fmt) (oth : Oth) (tab : Arr) (o : Opts) (need : List Nat → Bool) (n : Nat) : ∀ {h : Hdr} {hf : Hf} {s : Sys} {inp : List Nat} {r : Bool × Sys × Hf},
    extractLoopC f oth tab o need n h hf s inp = .ok (r, true) → r.1 = false := by
  induction n with
  | zero => intro h hf s inp r hr; cases hr
  | succ n ih =>
    intro h hf s inp r hr
    unfold extractLoopC at hr
    obtain ⟨x, h1, hr⟩ := bind_ok hr
    cases x with
    | eof => cases hr; rfl
    | bad => cases hr
    | fin => cases hr
    | got g rest =>
      simp only [] at hr
      split at hr
      · obtain ⟨y, h2, hr⟩ := bind_ok hr
        obtain ⟨d, s1⟩ := y
        cases d with
        | none => cases hr
        | some d =>
          simp only [] at hr
          split at hr
          · split at hr
            · cases hr
            · exact ih hr
          · exact ih hr
      · exact ih hr

/-! ## The property -/

/-- **C107 (partial).**  Full statement: `DecompresBytes`, `Decompress` and `CommandExtract` have closed the archive when they return.  Proved for archives of valid entries
(as in C45, C103) without an end mark. -/
theorem C107_partial (f : Fmt) (hg : f.generic = false) (tab : Arr) (ht : makeCrcTable = .ok tab) (hf : Hf) (hok : GOk hf) :
    (∀ (want : List Nat) (es : List Entry), (∀ e ∈ es, e.Ok ∧ (e.name = want → Sound e ∧ e.crc = crc16 0 e.content)) → NonInc 1024 es →
      ∃ hf', decompresBytesC f (others tab) tab false (want ++ [0]) hf (archive es []) = .ok (⟨false, lastOf want [] es, hf'⟩, true)) ∧
    (∀ (s s' : Sys) (want : List Nat) (l : List Item), (∀ i ∈ l, i.Valid) → FitsI f 0 1024 l → RunI f tab (· = want) s l s' →
      ∃ hf', decompressC f (others tab) tab Opts.default false want hf s (l.flatMap Item.bytes) = .ok ((false, s', hf'), true)) ∧
    (∀ (s s' : Sys) (l : List Item), (∀ i ∈ l, i.Valid) → FitsI f 0 1024 l → RunI f tab (needFile Opts.default) s l s' →
      ∃ hf', commandExtractC f (others tab) tab Opts.default false hf s (l.flatMap Item.bytes) = .ok ((false, s', hf'), true)) := by
  refine ⟨fun want es hes hinc => ?_, fun s s' want l hl hinc hrun => ?_, fun s s' l hl hinc hrun => ?_⟩
  · obtain ⟨hf', _, h⟩ := extractBytesLoopC_good f hg ht want (Or.inl rfl) es ((archive es []).length + 1) newHdr hf [] (by have := archive_length es []; omega) hes hok
      newHdr_method (by rw [newHdr_name]; exact hinc)
    exact ⟨hf', by unfold decompresBytesC; simp only [Bool.false_eq_true, if_false]; rw [ok_bind, h]; rfl⟩
  · obtain ⟨hf', _, h⟩ := hrun.extractC f hg (Or.inl rfl) hl hinc hf hok
    rw [List.append_nil] at h
    exact ⟨hf', by unfold decompressC; simp only [Bool.false_eq_true, if_false]; rw [ok_bind, h]; rfl⟩
  · obtain ⟨hf', _, h⟩ := hrun.extractC f hg (Or.inl rfl) hl hinc hf hok
    rw [List.append_nil] at h
    exact ⟨hf', by unfold commandExtractC; simp only [Bool.false_eq_true, if_false]; rw [ok_bind, h]; rfl⟩

/-- **C107 is false** if the archive ends with an end mark, as the archives made by this library do (C14): the same calls succeed and leave it open. -/
theorem C107_false (f : Fmt) (hg : f.generic = false) (tab : Arr) (ht : makeCrcTable = .ok tab) (hf : Hf) (hok : GOk hf) (t : List Nat) :
    (∀ (want : List Nat) (es : List Entry), (∀ e ∈ es, e.Ok ∧ (e.name = want → Sound e ∧ e.crc = crc16 0 e.content)) → NonInc 1024 es →
      ∃ hf', GOk hf' ∧ decompresBytesC f (others tab) tab false (want ++ [0]) hf (archive es (0 :: t)) = .ok (⟨false, lastOf want [] es, hf'⟩, false)) ∧
    (∀ (s s' : Sys) (want : List Nat) (l : List Item), (∀ i ∈ l, i.Valid) → FitsI f 0 1024 l → RunI f tab (· = want) s l s' →
      ∃ hf', decompressC f (others tab) tab Opts.default false want hf s (l.flatMap Item.bytes ++ 0 :: t) = .ok ((false, s', hf'), false)) ∧
    (∀ (s s' : Sys) (l : List Item), (∀ i ∈ l, i.Valid) → FitsI f 0 1024 l → RunI f tab (needFile Opts.default) s l s' →
      ∃ hf', commandExtractC f (others tab) tab Opts.default false hf s (l.flatMap Item.bytes ++ 0 :: t) = .ok ((false, s', hf'), false)) := by
  refine ⟨fun want es hes hinc => ?_, fun s s' want l hl hinc hrun => ?_, fun s s' l hl hinc hrun => ?_⟩
  · obtain ⟨hf', ok', h⟩ := extractBytesLoopC_good f hg ht want (Or.inr ⟨t, rfl⟩) es ((archive es (0 :: t)).length + 1) newHdr hf []
      (by have := archive_length es (0 :: t); omega) hes hok newHdr_method (by rw [newHdr_name]; exact hinc)
    exact ⟨hf', ok', by unfold decompresBytesC; simp only [Bool.false_eq_true, if_false]; rw [ok_bind, h]; rfl⟩
  · obtain ⟨hf', _, h⟩ := hrun.extractC f hg (Or.inr ⟨t, rfl⟩) hl hinc hf hok
    exact ⟨hf', by unfold decompressC; simp only [Bool.false_eq_true, if_false]; rw [ok_bind, h]; rfl⟩
  · obtain ⟨hf', _, h⟩ := hrun.extractC f hg (Or.inr ⟨t, rfl⟩) hl hinc hf hok
    exact ⟨hf', by unfold commandExtractC; simp only [Bool.false_eq_true, if_false]; rw [ok_bind, h]; rfl⟩

/-- Whatever the archive: a call that reports an error leaves it open. -/
theorem C107_error (f : Fmt) (oth : Oth) (tab : Arr) (o : Opts) (sfx : Bool) (hf : Hf) (a : List Nat) :
    (∀ want r c, decompresBytesC f oth tab sfx want hf a = .ok (r, c) → r.err = true → c = false) ∧
    (∀ s want r c, decompressC f oth tab o sfx want hf s a = .ok (r, c) → r.1 = true → c = false) ∧
    (∀ s r c, commandExtractC f oth tab o sfx hf s a = .ok (r, c) → r.1 = true → c = false) := by
  refine ⟨fun want r c h he => ?_, fun s want r c h he => ?_, fun s r c h he => ?_⟩
  · cases c with
    | false => rfl
    | true =>
      unfold decompresBytesC at h
      simp only [] at h
      split at h <;> obtain ⟨b, _, h⟩ := bind_ok h <;> rw [extractBytesLoopC_err _ _ _ _ _ h] at he <;> cases he
  · cases c with
    | false => rfl
    | true =>
      unfold decompressC at h
      simp only [] at h
      split at h <;> obtain ⟨b, _, h⟩ := bind_ok h <;> rw [extractLoopC_err _ _ _ _ _ _ h] at he <;> cases he
  · cases c with
    | false => rfl
    | true =>
      unfold commandExtractC at h
      simp only [] at h
      split at h <;> obtain ⟨b, _, h⟩ := bind_ok h <;> rw [extractLoopC_err _ _ _ _ _ _ h] at he <;> cases he

/-- **What comes of it**: in a process that may have `lim` files open, `opn` of which are, `lim - opn` calls of `DecompresBytes` for entries of an archive with an end mark
return the contents, and every further one reports an error, although nothing is wrong with the archive.  (Unless the garbage collector runs: it closes the files.) -/
theorem C107_exhaust (f : Fmt) (hg : f.generic = false) (tab : Arr) (ht : makeCrcTable = .ok tab) (es : List Entry) (t : List Nat)
    (hes : ∀ e ∈ es, Sound e ∧ e.crc = crc16 0 e.content) (hinc : NonInc 1024 es) (lim : Nat) :
    ∀ (wants : List (List Nat)) (hf : Hf) (opn : Nat), GOk hf →
      ∃ hf', decompresBytesAll f (others tab) tab false (archive es (0 :: t)) lim (wants.map (· ++ [0])) hf opn =
        .ok ((wants.take (lim - opn)).map (fun w => (false, lastOf w [] es)) ++ (wants.drop (lim - opn)).map (fun _ => (true, [])), hf',
          if opn < lim then min lim (opn + wants.length) else opn) := by
  intro wants
  induction wants with
  | nil => intro hf opn hok; exact ⟨hf, by simp [decompresBytesAll]; omega⟩
  | cons w ws ih =>
    intro hf opn hok
    by_cases hlt : opn < lim
    · obtain ⟨hf1, ok1, h1⟩ := (C107_false f hg tab ht hf hok t).1 w es (fun e he => ⟨(hes e he).1.1, fun _ => hes e he⟩) hinc
      obtain ⟨hf2, h2⟩ := ih hf1 (opn + 1) ok1
      refine ⟨hf2, ?_⟩
      obtain ⟨k, hk⟩ : ∃ k, lim - opn = k + 1 := ⟨lim - opn - 1, by omega⟩
      rw [List.map_cons]
      unfold decompresBytesAll decompresBytesP
      rw [if_pos hlt, h1]
      simp only [ok_bind, Bool.false_eq_true, if_false]
      rw [h2, ok_bind, hk, show lim - (opn + 1) = k by omega]
      simp only [List.take_succ_cons, List.drop_succ_cons, List.map_cons, List.cons_append, List.length_cons, if_pos hlt]
      have : (if opn + 1 < lim then min lim (opn + 1 + ws.length) else opn + 1) = min lim (opn + (ws.length + 1)) := by split <;> omega
      rw [this]
    · obtain ⟨hf2, h2⟩ := ih hf opn hok
      refine ⟨hf2, ?_⟩
      rw [List.map_cons]
      unfold decompresBytesAll decompresBytesP
      rw [if_neg hlt]
      simp only [ok_bind]
      rw [h2, ok_bind, show lim - opn = 0 by omega]
      simp [if_neg hlt]

/-- The hypotheses of `C107_partial` are met: the same archive without an end mark. -/
example (tab : Arr) (ht : makeCrcTable = .ok tab) (hf : Hf) (hok : GOk hf) :
    ∃ hf', decompresBytesC ⟨false, false⟩ (others tab) tab false [97, 0] hf (archive [sampleEntry [45, 108, 122, 115, 45] [97] [0xa0, 0x80] [65]] []) =
      .ok (⟨false, [65], hf'⟩, true) :=
  (C107_partial ⟨false, false⟩ rfl tab ht hf hok).1 [97] [sampleEntry [45, 108, 122, 115, 45] [97] [0xa0, 0x80] [65]]
    (by
      intro e he
      simp only [List.mem_cons, List.not_mem_nil, or_false] at he
      subst he
      have := sample_sound [97] (by decide) (by decide) (by decide)
      exact ⟨this.1, fun _ => ⟨this, rfl⟩⟩) ⟨by decide, trivial⟩

/-- The hypotheses are met: an archive of one file, the letter `A`. -/
example (tab : Arr) (ht : makeCrcTable = .ok tab) (hf : Hf) (hok : GOk hf) :
    ∃ hf', decompresBytesAll ⟨false, false⟩ (others tab) tab false (archive [sampleEntry [45, 108, 122, 115, 45] [97] [0xa0, 0x80] [65]] [0]) 2
      [[97, 0], [97, 0], [97, 0]] hf 0 = .ok ([(false, [65]), (false, [65]), (true, [])], hf', 2) :=
  C107_exhaust ⟨false, false⟩ rfl tab ht [sampleEntry [45, 108, 122, 115, 45] [97] [0xa0, 0x80] [65]] []
    (by
      intro e he
      simp only [List.mem_cons, List.not_mem_nil, or_false] at he
      subst he
      exact ⟨sample_sound _ (by decide) (by decide) (by decide), rfl⟩) ⟨by decide, trivial⟩ 2 [[97], [97], [97]] hf 0 hok

end Lha
