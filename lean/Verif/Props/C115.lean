import Verif.Props.C114
import Verif.Props.C82
import Verif.Model.Mac
/-!
# C115: `DecodeMacbinaryContents`

With this option the files `Icon␍` of Mac OS (icons of folders, in a format of their own) are to be passed over by listing, testing and printing, and nothing else changes.
-/

namespace Lha

open Spec

/-! ## Without the option -/

theorem verifyOneM_false (oth : Oth) (tab : Arr) (o : Opts) (hf : Hf) (h : Hdr) (inp : List Nat) : verifyOneM false oth tab o hf h inp = verifyOne oth tab o hf h inp := by
  unfold verifyOneM verifyOne isIcon
  simp only [Bool.false_and, Bool.false_eq_true, if_false]
  rfl

theorem headersLoopM_false (f : Fmt) (oth : Oth) (tab : Arr) (o : Opts) (n : Nat) : ∀ hf acc inp, headersLoopM false f oth tab o n hf acc inp = headersLoop f oth tab o n hf acc inp := by
  induction n with
  | zero => intro hf acc inp; rfl
  | succ n ih =>
    intro hf acc inp
    unfold headersLoopM headersLoop
    simp only [verifyOneM_false, ih]
    rfl

theorem testLoopM_false (f : Fmt) (oth : Oth) (tab : Arr) (o : Opts) (n : Nat) : ∀ h hf inp, testLoopM false f oth tab o n h hf inp = testLoop f oth tab o n h hf inp := by
  induction n with
  | zero => intro h hf inp; rfl
  | succ n ih =>
    intro h hf inp
    unfold testLoopM testLoop
    simp only [verifyOneM_false, ih]
    rfl

theorem printOneM_false (quiet : Bool) (oth : Oth) (tab : Arr) (o : Opts) (hf : Hf) (h : Hdr) (inp : List Nat) :
    printOneM false quiet oth tab o hf h inp = printOne quiet oth tab o hf h inp := by
  unfold printOneM printOne isIcon
  simp only [Bool.false_and, Bool.false_eq_true, if_false]
  rfl

theorem printLoopM_false (quiet : Bool) (f : Fmt) (oth : Oth) (tab : Arr) (o : Opts) (n : Nat) : ∀ h hf acc inp,
    printLoopM false quiet f oth tab o n h hf acc inp = printLoop quiet f oth tab o n h hf acc inp := by
  induction n with
  | zero => intro h hf acc inp; rfl
  | succ n ih =>
    intro h hf acc inp
    unfold printLoopM printLoop
    simp only [printOneM_false, ih]
    rfl

/-- Without the option the functions are those of the other properties. -/
theorem C115_off (quiet : Bool) (f : Fmt) (oth : Oth) (tab : Arr) (o : Opts) (sfx : Bool) (hf : Hf) (arch : Option (List Nat)) :
    headersM false f oth tab o hf arch = headers f oth tab o hf arch ∧ commandTestM false f oth tab o sfx hf arch = commandTest f oth tab o sfx hf arch ∧
      commandPrintM false quiet f oth tab o sfx hf arch = commandPrint quiet f oth tab o sfx hf arch := by
  refine ⟨?_, ?_, ?_⟩
  · unfold headersM headers
    simp only [headersLoopM_false]
    rfl
  · unfold commandTestM commandTest
    simp only [testLoopM_false]
    rfl
  · unfold commandPrintM commandPrint
    simp only [printLoopM_false]
    rfl

/-! ## Other systems: any bytes -/

theorem verifyOneM_other (mac mac' : Bool) (oth : Oth) (tab : Arr) (o : Opts) (hf : Hf) (h : Hdr) (hh : h.extendType ≠ 0x6d) (inp : List Nat) :
    verifyOneM mac oth tab o hf h inp = verifyOneM mac' oth tab o hf h inp := by
  unfold verifyOneM isIcon
  have : (h.extendType == 0x6d) = false := by simpa using hh
  simp only [this, Bool.and_false, Bool.false_and]

theorem headersLoopM_acc (mac : Bool) (f : Fmt) (oth : Oth) (tab : Arr) (o : Opts) (n : Nat) : ∀ hf acc inp r, headersLoopM mac f oth tab o n hf acc inp = .ok r → ∃ hs, r.headers = acc ++ hs := by
  induction n with
  | zero => intro hf acc inp r h; cases h
  | succ n ih =>
    intro hf acc inp r h
    unfold headersLoopM at h
    obtain ⟨x, _, h⟩ := bind_ok h
    cases x with
    | eof => cases h; exact ⟨[], by simp⟩
    | bad => cases h; exact ⟨[], by simp⟩
    | fin => cases h; exact ⟨[], by simp⟩
    | got g rest =>
      simp only [] at h
      by_cases hn : needFile o g.name = true
      · rw [if_pos hn] at h
        obtain ⟨y, _, h⟩ := bind_ok h
        cases y with
        | error e => cases h; exact ⟨[g], rfl⟩
        | ok d =>
          simp only [] at h
          by_cases hr : d.readSize ≠ g.packedSize
          · rw [if_pos hr] at h
            cases hs : skipTo g.packedSize d.rest with
            | none => rw [hs] at h; cases h; exact ⟨[_], rfl⟩
            | some t => rw [hs] at h; obtain ⟨hs, e⟩ := ih _ _ _ _ h; exact ⟨_ :: hs, by rw [e, List.append_assoc]; rfl⟩
          · rw [if_neg hr] at h
            obtain ⟨hs, e⟩ := ih _ _ _ _ h; exact ⟨_ :: hs, by rw [e, List.append_assoc]; rfl⟩
      · rw [if_neg hn] at h
        cases hs : skipTo g.packedSize rest with
        | none => rw [hs] at h; obtain ⟨hs, e⟩ := ih _ _ _ _ h; exact ⟨_ :: hs, by rw [e, List.append_assoc]; rfl⟩
        | some t => rw [hs] at h; cases h; exact ⟨[g], rfl⟩

theorem headersLoopM_other (mac mac' : Bool) (f : Fmt) (oth : Oth) (tab : Arr) (o : Opts) (n : Nat) : ∀ hf acc inp r, headersLoopM mac f oth tab o n hf acc inp = .ok r →
    (∀ h ∈ r.headers, h.extendType ≠ 0x6d) → headersLoopM mac' f oth tab o n hf acc inp = .ok r := by
  induction n with
  | zero => intro hf acc inp r h; cases h
  | succ n ih =>
    intro hf acc inp r h hmac
    unfold headersLoopM at h ⊢
    obtain ⟨x, hx, h⟩ := bind_ok h
    rw [hx, ok_bind]
    cases x with
    | eof => exact h
    | bad => exact h
    | fin => exact h
    | got g rest =>
      simp only [] at h ⊢
      by_cases hn : needFile o g.name = true
      · rw [if_pos hn] at h ⊢
        obtain ⟨y, hy, h⟩ := bind_ok h
        have hg : g.extendType ≠ 0x6d := by
          cases y with
          | error e => cases h; exact hmac g (by simp)
          | ok d =>
            simp only [] at h
            by_cases hr : d.readSize ≠ g.packedSize
            · rw [if_pos hr] at h
              cases hs : skipTo g.packedSize d.rest with
              | none => rw [hs] at h; cases h; exact hmac { g with name := d.name } (by simp)
              | some t => rw [hs] at h; obtain ⟨hs, e⟩ := headersLoopM_acc _ _ _ _ _ _ _ _ _ _ h; exact hmac { g with name := d.name } (by rw [e]; simp)
            · rw [if_neg hr] at h
              obtain ⟨hs, e⟩ := headersLoopM_acc _ _ _ _ _ _ _ _ _ _ h; exact hmac { g with name := d.name } (by rw [e]; simp)
        rw [verifyOneM_other mac mac' _ _ _ _ _ hg] at hy
        rw [hy, ok_bind]
        cases y with
        | error e => exact h
        | ok d =>
          simp only [] at h ⊢
          by_cases hr : d.readSize ≠ g.packedSize
          · rw [if_pos hr] at h ⊢
            cases hs : skipTo g.packedSize d.rest with
            | none => rw [hs] at h; exact h
            | some t => rw [hs] at h; exact ih _ _ _ _ h hmac
          · rw [if_neg hr] at h ⊢
            exact ih _ _ _ _ h hmac
      · rw [if_neg hn] at h ⊢
        cases hs : skipTo g.packedSize rest with
        | none => rw [hs] at h; exact ih _ _ _ _ h hmac
        | some t => rw [hs] at h; exact h

/-- **C115, other systems.**  If no entry of Mac OS is listed, the option changes nothing, whatever the bytes of the archive are: with and without it `Headers` returns the same. -/
theorem C115_other (f : Fmt) (oth : Oth) (tab : Arr) (o : Opts) (hf : Hf) (arch : Option (List Nat)) (r : HeadersOut) (hr : ∀ h ∈ r.headers, h.extendType ≠ 0x6d) :
    headersM true f oth tab o hf arch = .ok r ↔ headers f oth tab o hf arch = .ok r := by
  rw [← (C115_off false f oth tab o false hf arch).1]
  unfold headersM
  cases arch with
  | none => exact Iff.rfl
  | some a => exact ⟨fun h => headersLoopM_other _ _ _ _ _ _ _ _ _ _ _ h hr, fun h => headersLoopM_other _ _ _ _ _ _ _ _ _ _ _ h hr⟩

/-! ## Icons -/

/-- The name of an icon. -/
def iconName : List Nat := "Icon\r".toList.map Char.toNat

/-- The icon of a folder: a file of Mac OS known by this name. -/
def Member.icon (f : Fmt) : Member → Bool
  | .unix _ => false
  | .other a => a.os.head? == some 0x6d && lastName (a.shown f.convertCase) == iconName
  | .level1 e => e.os == 0x6d && lastName (Entry1.cut f e) == iconName

/-- A file of any known method, whose packed data may be anything. -/
def Member.Any (f : Fmt) : Member → Prop
  | .unix _ => False
  | .other a => a.Ok ∧ 0xff ∉ a.name ∧ (a.Osk → 0x2f ∉ a.shown f.convertCase) ∧ a.os ≠ [] ∧ ∃ m, methods.findIdx? (· = a.method) = some m ∧ m ≠ 11
  | .level1 e => Bare e ∧ (e.os = 0x4b ∨ e.os = 0x58 → 0x2f ∉ Entry1.cut f e) ∧ ∃ m, methods.findIdx? (· = e.method) = some m ∧ m ≠ 11

/-- What a header says about a member. -/
structure Says (f : Fmt) (x : Member) (g : Hdr) : Prop where
  method : g.method.length = 5
  packed : g.packedSize = x.packed.length
  original : g.originalSize = x.content.length
  name : g.name = x.name f ++ [0]
  mode : fileType g.mode = 0o100000
  entry : entryName Opts.default g = .ok (some (lastName (x.name f), g.name))
  known : ∃ m, methods.findIdx? (· = g.method) = some m ∧ m ≠ 11
  icon : isIcon true g (lastName (x.name f)) = x.icon f

/-- A file that is right, or an icon. -/
def Member.Fine (f : Fmt) (x : Member) : Prop := x.Good f ∨ x.Any f ∧ x.icon f = true

theorem isIcon_eq {g : Hdr} {n : List Nat} : isIcon true g n = (g.extendType == 0x6d && n == iconName) := rfl

theorem Member.parse' (f : Fmt) (hg : f.generic = false) (tab : Arr) (x : Member) (hx : x.Fine f) (h : Hdr) (hm : h.method.length = 5) (hn : x.room ≤ h.name.length) (R : List Nat) :
    ∃ g, getHeader f tab h (x.bytes ++ R) = .ok (.got g (x.packed ++ R)) ∧ Says f x g ∧
      (x.icon f = false → g.crc = crc16 0 x.content ∧ ∃ m, methods.findIdx? (· = g.method) = some m ∧ Packed m x.packed x.content) := by
  cases x with
  | unix e =>
    obtain ⟨hs, hc⟩ := hx.resolve_right (fun h => h.1)
    obtain ⟨g, e1, P⟩ := entry_parse f hg tab e hs.ok h hm hn R
    obtain ⟨m, m1, m2⟩ := hs.packed
    refine ⟨g, e1, ⟨by rw [P.method]; exact hs.ok.method, P.packed, P.original, P.name, (P.fileType hs.ok).trans hs.kind, P.entryName, ⟨m, by rw [P.method]; exact m1, m2.ndir⟩, ?_⟩,
      fun _ => ⟨by rw [P.crc]; exact hc, m, by rw [P.method]; exact m1, m2⟩⟩
    rw [isIcon_eq, P.ext]; rfl
  | other a =>
    have hany : Member.Any f (.other a) := by
      rcases hx with ⟨ho, hff, hosk, hos, hc, m, m1, m2⟩ | hx
      · exact ⟨ho, hff, hosk, hos, m, m1, m2.ndir⟩
      · exact hx.1
    obtain ⟨ho, hff, hosk, hos, m, m1, m2⟩ := hany
    obtain ⟨g, e1, P, hsys⟩ := alien_parse f tab a ho hff h hm hn (fun h => absurd h hos) R
    refine ⟨g, e1, ⟨by rw [P.method]; exact ho.method, P.packed, P.original, P.name, by rw [P.mode]; decide, P.entryName hsys hosk, ⟨m, by rw [P.method]; exact m1, m2⟩, ?_⟩, ?_⟩
    · rw [isIcon_eq]
      show _ = (a.os.head? == some 0x6d && _)
      rw [hsys.resolve_right (fun h => hos h.1)]
      rfl
    · intro hi
      rcases hx with ⟨_, _, _, _, hc, m, m1, m2⟩ | hx
      · exact ⟨by rw [P.crc]; exact hc, m, by rw [P.method]; exact m1, m2⟩
      · rw [hx.2] at hi; cases hi
  | level1 e =>
    have hany : Member.Any f (.level1 e) := by
      rcases hx with hx | hx
      · obtain ⟨m, m1, m2⟩ := hx.packed
        exact ⟨hx.bare, hx.osk, m, m1, m2.ndir⟩
      · exact hx.1
    obtain ⟨hb, hosk, m, m1, m2⟩ := hany
    obtain ⟨g, e1, P⟩ := level1_parse f tab e hb h hm hn R
    refine ⟨g, e1, ⟨by rw [P.method]; exact hb.ok.method, P.packed, P.original, P.name, by rw [P.mode]; decide, P.entryName hosk, ⟨m, by rw [P.method]; exact m1, m2⟩, ?_⟩, ?_⟩
    · rw [isIcon_eq, P.system]; rfl
    · intro hi
      rcases hx with hx | hx
      · obtain ⟨m, m1, m2⟩ := hx.packed
        exact ⟨by rw [P.crc]; exact hx.crc, m, by rw [P.method]; exact m1, m2⟩
      · rw [hx.2] at hi; cases hi

theorem skip_member (P T : List Nat) (h : P ≠ []) : skipTo P.length (P ++ T) = some T := by
  unfold skipTo readF
  rw [if_neg (by simp [h])]; simp

/-- What is printed for a member. -/
def Member.text (quiet : Bool) (f : Fmt) (x : Member) : List Nat := if x.icon f then [] else shownAs quiet (lastName (x.name f)) x.content

theorem Says.print {f : Fmt} {tab : Arr} (ht : makeCrcTable = .ok tab) {x : Member} {g : Hdr} (S : Says f x g)
    (hS : x.icon f = false → g.crc = crc16 0 x.content ∧ ∃ m, methods.findIdx? (· = g.method) = some m ∧ Packed m x.packed x.content) (quiet : Bool) (hf : Hf) (hok : GOk hf) (T : List Nat) :
    ∃ d : OneOut, GOk d.hf ∧ d.name = g.name ∧ printOneM true quiet (others tab) tab Opts.default hf g (x.packed ++ T) = .ok (.ok d, x.text quiet f) ∧
      ((d.readSize = x.packed.length ∧ d.rest = T) ∨ (d.readSize ≠ x.packed.length ∧ skipTo x.packed.length d.rest = some T)) := by
  by_cases hi : x.icon f = true
  · obtain ⟨m, m1, m2⟩ := S.known
    refine ⟨⟨0, x.packed ++ T, hf, g.name, none⟩, hok, rfl, ?_, ?_⟩
    · unfold printOneM
      rw [S.entry, ok_bind]
      simp only [m1]
      rw [if_pos ⟨S.mode, m2⟩, S.icon, if_pos hi]
      unfold Member.text
      rw [if_pos hi]
    · by_cases hp : x.packed = []
      · left; rw [hp]; exact ⟨rfl, rfl⟩
      · right
        refine ⟨fun h => hp (List.length_eq_zero_iff.mp h.symm), skip_member _ _ hp⟩
  · obtain ⟨hc, m, m1, m2⟩ := hS (by simpa using hi)
    obtain ⟨hf1, ok1, hdec⟩ := m2.decodes ht hf hok T
    refine ⟨⟨x.packed.length, T, hf1, g.name, none⟩, ok1, rfl, ?_, Or.inl ⟨rfl, rfl⟩⟩
    unfold printOneM
    rw [S.entry, ok_bind]
    simp only [m1]
    rw [if_pos ⟨S.mode, m2.ndir⟩, S.icon, if_neg hi, S.original, S.packed, hdec, ok_bind]
    simp only []
    rw [if_neg (by rw [hc]; simp), heading_eq]
    unfold Member.text
    rw [if_neg hi]

theorem printOneM_verify (mac quiet : Bool) (oth : Oth) (tab : Arr) (o : Opts) (hf : Hf) (h : Hdr) (inp : List Nat) :
    (printOneM mac quiet oth tab o hf h inp >>= fun r => .ok r.1) = verifyOneM mac oth tab o hf h inp := by
  unfold printOneM verifyOneM
  cases entryName o h with
  | error e => rfl
  | ok x =>
    rw [ok_bind, ok_bind]
    cases x with
    | none => rfl
    | some nn =>
      obtain ⟨name, hname⟩ := nn
      simp only []
      cases methods.findIdx? (· = h.method) with
      | none => rfl
      | some m =>
        simp only []
        by_cases hr : fileType h.mode = 0o100000 ∧ m ≠ 11
        · rw [if_pos hr, if_pos hr]
          by_cases hi : isIcon mac h name = true
          · rw [if_pos hi, if_pos hi]; rfl
          rw [if_neg hi, if_neg hi]
          cases decodeLzhuf oth tab m hf h.originalSize h.packedSize inp with
          | error e => rfl
          | ok d =>
            rw [ok_bind, ok_bind]
            by_cases hc : h.hasCrc = true ∧ d.crc ≠ h.crc
            · rw [if_pos hc, if_pos hc]; rfl
            · rw [if_neg hc, if_neg hc]; rfl
        · rw [if_neg hr, if_neg hr]
          by_cases hc : fileType h.mode = 0o040000 ∨ fileType h.mode = 0o120000 ∨ m = 11 ∨ o.force = true
          · rw [if_pos hc, if_pos hc]; rfl
          · rw [if_neg hc, if_neg hc]; rfl

theorem loopsM_members (quiet : Bool) (f : Fmt) (hg : f.generic = false) {tab : Arr} (ht : makeCrcTable = .ok tab) {t : List Nat} (htl : Tail t) (l : List Member) :
    ∀ (n : Nat) (h : Hdr) (hf : Hf) (acc : List Nat), l.length < n → (∀ x ∈ l, x.Fine f) → GOk hf → h.method.length = 5 → FitsM f h.name.length l →
      ∃ hf', GOk hf' ∧ printLoopM true quiet f (others tab) tab Opts.default n h hf acc (l.flatMap Member.bytes ++ t) = .ok ⟨false, acc ++ l.flatMap (Member.text quiet f), hf'⟩ ∧
        testLoopM true f (others tab) tab Opts.default n h hf (l.flatMap Member.bytes ++ t) = .ok (false, hf') := by
  induction l with
  | nil =>
    intro n h hf acc hn _ hok _ _
    obtain ⟨n, rfl⟩ : ∃ k, n = k + 1 := ⟨n - 1, by simp at hn; omega⟩
    refine ⟨hf, hok, ?_, ?_⟩
    · unfold printLoopM
      show (getHeader f tab h t >>= _) = _
      rcases tail_end f tab h htl with e | e
      · rw [e, ok_bind]; simp
      · rw [e, ok_bind]; simp
    · unfold testLoopM
      show (getHeader f tab h t >>= _) = _
      rcases tail_end f tab h htl with e | e
      · rw [e, ok_bind]
      · rw [e, ok_bind]
  | cons x l ih =>
    intro n h hf acc hn hl hok hm hfit
    obtain ⟨n, rfl⟩ : ∃ k, n = k + 1 := ⟨n - 1, by simp at hn; omega⟩
    obtain ⟨g, e1, S, hS⟩ := x.parse' f hg tab (hl x List.mem_cons_self) h hm hfit.1 (l.flatMap Member.bytes ++ t)
    obtain ⟨d, ok1, dn, hp, hr⟩ := S.print ht hS quiet hf hok (l.flatMap Member.bytes ++ t)
    have hv : verifyOneM true (others tab) tab Opts.default hf g (x.packed ++ (l.flatMap Member.bytes ++ t)) = .ok (.ok d) := by
      rw [← printOneM_verify true quiet, hp]; rfl
    obtain ⟨hf2, ok2, r1, r2⟩ := ih n { g with name := d.name } d.hf (acc ++ x.text quiet f) (by simp at hn; omega) (fun y hy => hl y (List.mem_cons_of_mem _ hy)) ok1 S.method
      (by show FitsM f d.name.length l; rw [dn, S.name, List.length_append]; exact hfit.2)
    refine ⟨hf2, ok2, ?_, ?_⟩
    · unfold printLoopM
      rw [List.flatMap_cons, List.append_assoc, e1, ok_bind]
      simp only []
      rw [if_pos (by simp [needFile, Opts.default]), hp, ok_bind]
      simp only []
      rw [List.flatMap_cons, ← List.append_assoc, ← r1]
      rcases hr with ⟨a1, a2⟩ | ⟨a1, a2⟩
      · rw [if_neg (by rw [S.packed, a1]; simp), a2]
      · rw [if_pos (by rw [S.packed]; exact a1), S.packed, a2]
    · unfold testLoopM
      rw [List.flatMap_cons, List.append_assoc, e1, ok_bind]
      simp only []
      rw [if_pos (by simp [needFile, Opts.default]), hv, ok_bind]
      simp only []
      rw [← r2]
      rcases hr with ⟨a1, a2⟩ | ⟨a1, a2⟩
      · rw [if_neg (by rw [S.packed, a1]; simp), a2]
      · rw [if_pos (by rw [S.packed]; exact a1), S.packed, a2]

theorem headersLoopM_members (f : Fmt) (hg : f.generic = false) {tab : Arr} (ht : makeCrcTable = .ok tab) {t : List Nat} (htl : Tail t) (l : List Member) :
    ∀ (n : Nat) (hf : Hf) (acc : List Hdr), l.length < n → (∀ x ∈ l, x.Fine f) → GOk hf →
      ∃ hs hf', GOk hf' ∧ headersLoopM true f (others tab) tab Opts.default n hf acc (l.flatMap Member.bytes ++ t) = .ok ⟨false, acc ++ hs, hf'⟩ ∧ List.Forall₂ (Says f) l hs := by
  induction l with
  | nil =>
    intro n hf acc hn _ hok
    obtain ⟨n, rfl⟩ : ∃ k, n = k + 1 := ⟨n - 1, by simp at hn; omega⟩
    refine ⟨[], hf, hok, ?_, .nil⟩
    unfold headersLoopM
    show (getHeader f tab newHdr t >>= _) = _
    rcases tail_end f tab newHdr htl with e | e
    · rw [e, ok_bind]; simp
    · rw [e, ok_bind]; simp
  | cons x l ih =>
    intro n hf acc hn hl hok
    obtain ⟨n, rfl⟩ : ∃ k, n = k + 1 := ⟨n - 1, by simp at hn; omega⟩
    have hx := hl x List.mem_cons_self
    have hroom : x.room ≤ newHdr.name.length := by
      rw [newHdr_name]
      rcases hx with hx | hx
      · exact Member.room_le hx
      · cases x with
        | unix e => exact hx.1.elim
        | other a => have := hx.1.1.len; show a.name.length + 1 ≤ 1024; omega
        | level1 e => have := hx.1.1.ok.name; show e.name.length ≤ 1024; omega
    obtain ⟨g, e1, S, hS⟩ := x.parse' f hg tab hx newHdr newHdr_method hroom (l.flatMap Member.bytes ++ t)
    obtain ⟨d, ok1, dn, hp, hr⟩ := S.print ht hS false hf hok (l.flatMap Member.bytes ++ t)
    have hv : verifyOneM true (others tab) tab Opts.default hf g (x.packed ++ (l.flatMap Member.bytes ++ t)) = .ok (.ok d) := by
      rw [← printOneM_verify true false, hp]; rfl
    have e8 : { g with name := d.name } = g := by rw [dn]
    obtain ⟨hs, hf2, ok2, r1, r2⟩ := ih n d.hf (acc ++ [g]) (by simp at hn; omega) (fun y hy => hl y (List.mem_cons_of_mem _ hy)) ok1
    refine ⟨g :: hs, hf2, ok2, ?_, .cons S r2⟩
    unfold headersLoopM
    rw [List.flatMap_cons, List.append_assoc, e1, ok_bind]
    simp only []
    rw [if_pos (by simp [needFile, Opts.default]), hv, ok_bind]
    simp only []
    rw [e8, show acc ++ g :: hs = acc ++ [g] ++ hs by simp, ← r1]
    rcases hr with ⟨a1, a2⟩ | ⟨a1, a2⟩
    · rw [if_neg (by rw [S.packed, a1]; simp), a2]
    · rw [if_pos (by rw [S.packed]; exact a1), S.packed, a2]

/-- **C115 (partial).**  Full statement: with `DecodeMacbinaryContents` the files `Icon␍` of Mac OS are passed over when an archive is listed, tested or printed, and nothing else
changes.  Proved: in archives of files as in C114 everything is listed, no error is reported, and all files but the icons are printed; the icons may contain anything, of any known
method.  An icon is here a file with the *name read* `Icon␍`; with level-1 headers that is another name than the one in the archive (`C115_false`). -/
theorem C115_partial (quiet : Bool) (f : Fmt) (hg : f.generic = false) (tab : Arr) (ht : makeCrcTable = .ok tab) (l : List Member) (hl : ∀ x ∈ l, x.Fine f) (hfit : FitsM f 1024 l)
    (t : List Nat) (htl : Tail t) (hf : Hf) (hok : GOk hf) :
    (∃ hs hf', GOk hf' ∧ headersM true f (others tab) tab Opts.default hf (some (l.flatMap Member.bytes ++ t)) = .ok ⟨false, hs, hf'⟩ ∧ List.Forall₂ (Says f) l hs) ∧
    ∃ hf', GOk hf' ∧ commandTestM true f (others tab) tab Opts.default false hf (some (l.flatMap Member.bytes ++ t)) = .ok (false, hf') ∧
      commandPrintM true quiet f (others tab) tab Opts.default false hf (some (l.flatMap Member.bytes ++ t)) = .ok ⟨false, l.flatMap (Member.text quiet f), hf'⟩ := by
  have hlen := members_length l t
  refine ⟨?_, ?_⟩
  · obtain ⟨hs, hf', ok', h, P⟩ := headersLoopM_members f hg ht htl l ((l.flatMap Member.bytes ++ t).length + 1) hf [] (by omega) hl hok
    exact ⟨hs, hf', ok', h, P⟩
  · obtain ⟨hf', ok', h1, h2⟩ := loopsM_members quiet f hg ht htl l ((l.flatMap Member.bytes ++ t).length + 1) newHdr hf [] (by omega) hl hok newHdr_method (by rw [newHdr_name]; exact hfit)
    refine ⟨hf', ok', ?_, ?_⟩
    · unfold commandTestM
      simp only [Bool.false_eq_true, if_false]
      rw [ok_bind, h2]
    · unfold commandPrintM
      simp only [Bool.false_eq_true, if_false]
      rw [ok_bind, h1]
      rfl

/-- **C115 is false of level-1 headers**, which the programs of Mac OS write: the file `Icon␍` is not passed over, but printed as `Icon`. -/
theorem C115_false (f : Fmt) (hg : f.generic = false) (tab : Arr) (ht : makeCrcTable = .ok tab) (e : Entry1) (he : Kept1 f e) (hos : e.os = 0x6d) (hname : e.name = iconName)
    (quiet : Bool) (t : List Nat) (htl : Tail t) (hf : Hf) (hok : GOk hf) :
    ∃ hf', GOk hf' ∧ commandPrintM true quiet f (others tab) tab Opts.default false hf (some (e.bytes ++ t)) = .ok ⟨false, shownAs quiet [73, 99, 111, 110] e.content, hf'⟩ := by
  have hcut : Entry1.cut f e = [73, 99, 111, 110] := by
    unfold Entry1.cut
    rw [hos, hname]
    rw [if_neg (by decide)]
    unfold Alien.shown
    cases f.convertCase <;> rfl
  obtain ⟨_, hf', ok', _, h⟩ := C115_partial quiet f hg tab ht [.level1 e] (by simp only [List.mem_singleton, forall_eq]; exact Or.inl he)
    ⟨by show e.name.length ≤ 1024; rw [hname]; decide, trivial⟩ t htl hf hok
  refine ⟨hf', ok', ?_⟩
  have e1 : [Member.level1 e].flatMap Member.bytes = e.bytes := by simp [Member.bytes]
  have e2 : [Member.level1 e].flatMap (Member.text quiet f) = shownAs quiet [73, 99, 111, 110] e.content := by
    rw [List.flatMap_cons, List.flatMap_nil, List.append_nil]
    unfold Member.text Member.icon Member.name Member.content
    simp only []
    rw [hcut, if_neg (by rw [show (lastName [73, 99, 111, 110] == iconName) = false by decide]; simp)]
    rw [show lastName [73, 99, 111, 110] = [73, 99, 111, 110] by decide]
  rw [e1, e2] at h
  exact h

/-! ## The hypotheses are met -/

/-- An icon with a level-0 header; its packed data are not a stream of its method. -/
def icon0 : Alien := ⟨[45, 108, 104, 53, 45], [88, 0x3a, 73, 99, 111, 110, 13], [65, 66], [0xff, 0xff], 7, 0, 0x20, [0x6d]⟩

theorem icon0_fine : Member.Fine ⟨false, true⟩ (.other icon0) :=
  Or.inr ⟨⟨⟨by decide, by decide, by decide, by decide, by decide, by decide, by decide⟩, by decide, by simp [Alien.Osk, icon0], by decide, 5, by decide, by decide⟩, by decide⟩

/-- An icon and a file `b` behind it: the file is printed. -/
example (tab : Arr) (ht : makeCrcTable = .ok tab) (hf : Hf) (hok : GOk hf) : ∃ hf', GOk hf' ∧
    commandPrintM true true ⟨false, true⟩ (others tab) tab Opts.default false hf
      (some ([Member.other icon0, .unix (sampleEntry [45, 108, 122, 115, 45] [98] [0xa0, 0x80] [65])].flatMap Member.bytes ++ [0])) = .ok ⟨false, [65], hf'⟩ := by
  obtain ⟨_, hf', ok', _, h⟩ := C115_partial true ⟨false, true⟩ rfl tab ht [.other icon0, .unix (sampleEntry [45, 108, 122, 115, 45] [98] [0xa0, 0x80] [65])]
    (by
      intro x hx
      simp only [List.mem_cons, List.not_mem_nil, or_false] at hx
      rcases hx with rfl | rfl
      · exact icon0_fine
      · exact Or.inl ⟨sample_sound [98] (by decide) (by decide) (by decide), rfl⟩)
    ⟨by decide, by decide, trivial⟩ [0] (Or.inr ⟨[], rfl⟩) hf hok
  exact ⟨hf', ok', h⟩

/-- The hypotheses of `C115_false` are met. -/
theorem icon1_kept (f : Fmt) : Kept1 f { full1 iconName with os := 0x6d } := by
  have h := full1_kept f iconName (by decide) (by decide) (by decide) (by decide)
  exact ⟨⟨⟨h.bare.ok.method, h.bare.ok.name, h.bare.ok.nul, h.bare.ok.packed, h.bare.ok.content, h.bare.ok.crc, h.bare.ok.dosTime, h.bare.ok.exts⟩, h.bare.name, h.bare.ff, rfl⟩,
    h.packed, h.crc, fun h => by simp at h⟩

example (tab : Arr) (ht : makeCrcTable = .ok tab) (hf : Hf) (hok : GOk hf) : ∃ hf', GOk hf' ∧
    commandPrintM true false ⟨false, false⟩ (others tab) tab Opts.default false hf (some ({ full1 iconName with os := 0x6d : Entry1 }.bytes ++ [0])) =
      .ok ⟨false, "::::::::\nIcon\n::::::::\nA".toList.map Char.toNat, hf'⟩ := by
  obtain ⟨hf', ok', h⟩ := C115_false ⟨false, false⟩ rfl tab ht { full1 iconName with os := 0x6d } (icon1_kept _) rfl rfl false [0] (Or.inr ⟨[], rfl⟩) hf hok
  refine ⟨hf', ok', h.trans ?_⟩
  rw [show shownAs false [73, 99, 111, 110] ({ full1 iconName with os := 0x6d } : Entry1).content = "::::::::\nIcon\n::::::::\nA".toList.map Char.toNat by decide +kernel]

end Lha
