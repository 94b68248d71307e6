import Verif.Spec.Foreign0
import Verif.Props.C99
import Verif.Props.C45
/-!
# C100: archives made under other systems
-/

namespace Lha

open Spec

/-- What is known about the header read for an entry of another system. -/
structure Seen (f : Fmt) (a : Alien) (g : Hdr) : Prop where
  method : g.method = a.method
  packed : g.packedSize = a.packed.length
  original : g.originalSize = a.content.length
  name : g.name = a.shown f.convertCase ++ [0]
  crc : g.crc = a.crc
  hasCrc : g.hasCrc = true
  mode : g.mode = 0o100666
  level : g.level = 0
  attr : g.attr = a.attr

theorem delim2 (b : Nat) (hb : b ≠ 0xff) : delimIndex [0xff, 0x5c] 0 b = if b = 0x5c then some 1 else none := by
  unfold delimIndex delimIndex delimIndex
  rw [if_neg (by omega)]
  by_cases h : b = 0x5c
  · subst h; rfl
  · rw [if_neg (by omega), if_neg h]

theorem delim4 (b : Nat) (hb : b ≠ 0xff) : delimIndex [0xff, 0x2f, 0x3a, 0x5c] 0 b =
    if b = 0x2f then some 1 else if b = 0x3a then some 2 else if b = 0x5c then some 3 else none := by
  unfold delimIndex delimIndex delimIndex delimIndex delimIndex
  rw [if_neg (by omega)]
  by_cases h1 : b = 0x2f
  · subst h1; rfl
  · by_cases h2 : b = 0x3a
    · subst h2; rfl
    · by_cases h3 : b = 0x5c
      · subst h3; rfl
      · rw [if_neg (by omega), if_neg (by omega), if_neg (by omega), if_neg h1, if_neg h2, if_neg h3]

/-- The conversion of the name done by `finishHdr`, for a header whose system is `x`. -/
theorem finishHdr_name (f : Fmt) (h : Hdr) (a : Alien) (hn : h.name = a.name ++ [0]) (hff : 0xff ∉ a.name) (hx : a.os.head? = some h.extendType ∨ a.os = [] ∧ h.extendType = 0)
    (h55 : h.extendType ≠ 0x55) (hs : isSymlinkMode h.mode = false) (R : List Nat) :
    finishHdr f h R = .got { h with name := a.shown f.convertCase ++ [0] } R := by
  unfold finishHdr
  simp only []
  have hmeth : (if h.extendType = 0x41 ∧ h.name ≠ [] ∧ h.name.getLast? = some 0xff ∧ h.method = [45, 108, 104, 48, 45]
    then [45, 108, 104, 100, 45] else h.method) = h.method := by
    rw [if_neg]
    rintro ⟨_, _, hl, _⟩
    rw [hn] at hl
    simp at hl
  rw [hmeth]
  have hhead : ∀ v : Nat, v ≠ 0 → (a.os.head? = some v ↔ h.extendType = v) := by
    intro v hv
    rcases hx with hx | ⟨hx, h0⟩
    · rw [hx]; simp
    · rw [hx, h0]; simp; omega
  have hkept : caseKept a.os = true ↔ (h.extendType = 0x48 ∨ h.extendType = 0x4b ∨ h.extendType = 0x58 ∨ h.extendType = 0x55 ∨ h.extendType = 0x4a ∨
      h.extendType = 0x6d ∨ h.extendType = 0x41) := by
    unfold caseKept
    simp only [List.mem_cons, List.not_mem_nil, or_false, decide_eq_true_eq]
    rw [hhead _ (by omega), hhead _ (by omega), hhead _ (by omega), hhead _ (by omega), hhead _ (by omega), hhead _ (by omega)]
    tauto
  have hname : convertFilename true (if h.extendType = 0x6d then ([0xff, 0x2f, 0x3a, 0x5c], [0x2f, 0x3a, 0x2f, 0x2f]) else ([0xff, 0x5c], [0x2f, 0x2f])).1
      (if h.extendType = 0x6d then ([0xff, 0x2f, 0x3a, 0x5c], [0x2f, 0x3a, 0x2f, 0x2f]) else ([0xff, 0x5c], [0x2f, 0x2f])).2
      (if h.extendType = 0x48 ∨ h.extendType = 0x4b ∨ h.extendType = 0x58 ∨ h.extendType = 0x55 ∨ h.extendType = 0x4a ∨
      h.extendType = 0x6d ∨ h.extendType = 0x41 then CaseTo.none
    else if f.convertCase then .toLower else .none) h.name = a.shown f.convertCase ++ [0] := by
    have hdelim : ∀ b, b ≠ 0xff → ∀ c : CaseTo, convByte (if h.extendType = 0x6d then ([0xff, 0x2f, 0x3a, 0x5c], [0x2f, 0x3a, 0x2f, 0x2f]) else ([0xff, 0x5c], [0x2f, 0x2f])).1
      (if h.extendType = 0x6d then ([0xff, 0x2f, 0x3a, 0x5c], [0x2f, 0x3a, 0x2f, 0x2f]) else ([0xff, 0x5c], [0x2f, 0x2f])).2 c b =
        if slashed a.os b ≠ b then slashed a.os b else if c = .toUpper ∧ isLowerB b then b - 32 else if c = .toLower ∧ isUpperB b then b + 32 else b := by
      intro b hb c
      unfold convByte slashed
      simp only [hhead 0x6d (by omega), hb, false_or]
      by_cases hm : h.extendType = 0x6d
      · simp only [hm, if_true, true_and]
        rw [delim4 b hb]
        by_cases h1 : b = 0x2f
        · subst h1; rfl
        · by_cases h2 : b = 0x3a
          · subst h2; rfl
          · by_cases h3 : b = 0x5c
            · subst h3; rfl
            · simp [h1, h2, h3]
      · simp only [hm, if_false, false_and]
        rw [delim2 b hb]
        by_cases h3 : b = 0x5c
        · subst h3; rfl
        · simp [h3]
    have hsl : ∀ b, 65 ≤ b → b ≤ 90 → slashed a.os b = b := by
      intro b h1 h2
      unfold slashed
      rw [if_neg (by omega), if_neg (by omega), if_neg (by omega)]
    have hcase : (if h.extendType = 0x48 ∨ h.extendType = 0x4b ∨ h.extendType = 0x58 ∨ h.extendType = 0x55 ∨ h.extendType = 0x4a ∨
      h.extendType = 0x6d ∨ h.extendType = 0x41 then CaseTo.none else if f.convertCase then CaseTo.toLower else CaseTo.none) =
        if f.convertCase = true ∧ caseKept a.os = false then CaseTo.toLower else CaseTo.none := by
      by_cases hk : caseKept a.os = true
      · rw [if_pos (hkept.1 hk), if_neg (by simp [hk])]
      · rw [if_neg (fun h => hk (hkept.2 h))]
        cases f.convertCase <;> simp [hk]
    rw [hcase]
    have hlow : (a.name ++ [0]).any isLowerB = true ↔ ¬ ∀ x ∈ a.name, ¬ (97 ≤ x ∧ x ≤ 122) := by
      simp [isLowerB, List.any_append, List.any_eq_true]
    have hto : (if True ∧ (if f.convertCase = true ∧ caseKept a.os = false then CaseTo.toLower else CaseTo.none) = CaseTo.toLower ∧
        (a.name ++ [0]).any isLowerB = true then CaseTo.none else if f.convertCase = true ∧ caseKept a.os = false then CaseTo.toLower else CaseTo.none) =
        if f.convertCase = true ∧ caseKept a.os = false ∧ (∀ x ∈ a.name, ¬ (97 ≤ x ∧ x ≤ 122)) then CaseTo.toLower else CaseTo.none := by
      by_cases h1 : f.convertCase = true ∧ caseKept a.os = false
      · rw [if_pos h1]
        by_cases h2 : (a.name ++ [0]).any isLowerB = true
        · rw [if_pos ⟨trivial, rfl, h2⟩, if_neg (fun h => hlow.1 h2 h.2.2)]
        · rw [if_neg (fun h => h2 h.2.2), if_pos ⟨h1.1, h1.2, not_not.1 (fun h => h2 (hlow.2 h))⟩]
      · rw [if_neg h1, if_neg (by simp), if_neg (fun h => h1 ⟨h.1, h.2.1⟩)]
    unfold convertFilename Alien.shown
    rw [hn]
    simp only []
    rw [hto, List.map_append]
    congr 1
    · apply List.map_congr_left
      intro b hb
      rw [hdelim b (fun e => hff (e ▸ hb))]
      by_cases hc : f.convertCase = true ∧ caseKept a.os = false ∧ ∀ x ∈ a.name, ¬ (97 ≤ x ∧ x ≤ 122)
      · rw [if_pos hc, if_neg (c := CaseTo.toLower = CaseTo.toUpper ∧ _) (by simp)]
        by_cases hU : 65 ≤ b ∧ b ≤ 90
        · rw [hsl b hU.1 hU.2, if_neg (by simp), if_pos ⟨rfl, by simp [isUpperB]; exact hU⟩, if_pos ⟨hc.1, hc.2.1, hc.2.2, hU⟩]
        · have : isUpperB b = false := by unfold isUpperB; simp; omega
          rw [if_neg (c := _ ∧ isUpperB b = true) (by rw [this]; simp), if_neg (c := f.convertCase = true ∧ _) (fun h => hU h.2.2.2)]
          split
          · rfl
          · rename_i hh
            exact (not_not.1 hh).symm
      · rw [if_neg hc, if_neg (c := CaseTo.none = CaseTo.toUpper ∧ _) (by simp), if_neg (c := CaseTo.none = CaseTo.toLower ∧ _) (by simp),
          if_neg (c := f.convertCase = true ∧ _) (fun h => hc ⟨h.1, h.2.1, h.2.2.1⟩)]
        split
        · rfl
        · rename_i hh
          exact (not_not.1 hh).symm
    · simp only [List.map_cons, List.map_nil]
      rw [hdelim 0 (by omega)]
      have : slashed a.os 0 = 0 := by unfold slashed; rw [if_neg (by omega), if_neg (by omega), if_neg (by omega)]
      rw [this, if_neg (by simp), if_neg (by simp [isLowerB]), if_neg (by simp [isUpperB])]
  rw [← hname]
  simp only [hs, Bool.false_eq_true, if_false]

/-- Reading the header of an entry of another system. -/
theorem alien_parse (f : Fmt) (tab : Arr) (a : Alien) (ho : a.Ok) (hff : 0xff ∉ a.name) (h : Hdr) (hm : h.method.length = 5) (hn : a.name.length < h.name.length)
    (h0 : a.os = [] → h.extendType = 0) (R : List Nat) :
    ∃ g, getHeader f tab h (a.bytes ++ R) = .ok (.got g (a.packed ++ R)) ∧ Seen f a g ∧
      (a.os.head? = some g.extendType ∨ a.os = [] ∧ g.extendType = 0) := by
  have hlen := ho.len
  have hbody : a.body = body0 a.method a.packed.length a.content.length a.dosTime a.attr 0 a.name a.crc a.os := by
    unfold Alien.body body0
    rw [le_four, le_four, le_four, le_two]
  have hbl : a.body.length = 22 + a.name.length + a.os.length := by rw [hbody]; exact body0_length _ _ _ _ _ _ _ _ _ ho.method
  have hlv : a.body.getD 18 0 = 0 := by
    have : a.body = (a.method ++ le32 a.packed.length ++ le32 a.content.length ++ le32 a.dosTime ++ [a.attr]) ++ (0 :: (a.name.length :: a.name ++ le16 a.crc ++ a.os)) := by
      rw [hbody]; simp [body0]
    rw [this, List.getD_eq_getElem?_getD, List.getElem?_append_right (by simp [le32, ho.method])]
    simp [le32, ho.method]
  have hp := parseLevel0_ok h a.body.length (a.body.sum % 256) a.method a.packed.length a.content.length a.dosTime a.attr 0 a.name a.crc a.os
    ho.method hm (by omega) hn hbl
  rw [← hbody] at hp
  have hsm : isSymlinkMode 0o100666 = false := by decide
  have e0 : a.bytes ++ R = a.body.length :: (a.body.sum % 256) :: a.body ++ (a.packed ++ R) := by
    unfold Alien.bytes; simp
  rw [e0, getHeader_level0 f tab h a.body.length _ a.body (a.packed ++ R) (by omega) rfl (by omega) hlv rfl, hp]
  have hpk := Nat.mod_eq_of_lt ho.packed
  have hct := Nat.mod_eq_of_lt ho.content
  have hcr := Nat.mod_eq_of_lt ho.crc
  cases hos : a.os with
  | nil =>
    simp only [List.length_nil, if_true]
    rw [ok_bind]
    simp only []
    have hfin := finishHdr_name f { h with
      sizeFieldLength := 2, headerSize := a.body.length, method := a.method, packedSize := a.packed.length % 4294967296,
      originalSize := a.content.length % 4294967296, stamp := a.dosTime % 4294967296, attr := a.attr, level := 0, name := a.name ++ [0],
      mode := 0o100666, gid := 0, uid := 0, hasCrc := true, crc := a.crc % 65536 } a rfl hff (Or.inr ⟨hos, h0 hos⟩) (by show h.extendType ≠ 0x55; rw [h0 hos]; omega) hsm (a.packed ++ R)
    rw [hfin]
    exact ⟨_, rfl, ⟨rfl, hpk, hct, rfl, hcr, rfl, rfl, rfl, rfl⟩, Or.inr ⟨trivial, h0 hos⟩⟩
  | cons x os =>
    have hx55 : x ≠ 0x55 := by
      have := ho.os
      rw [hos] at this
      simpa using this
    have hgb : getByte (a.body.length :: (a.body.sum % 256) :: a.body) (24 + a.name.length) = .ok x := by
      apply getByte_drop (t := os)
      · rw [hbody]
        have : (body0 a.method a.packed.length a.content.length a.dosTime a.attr 0 a.name a.crc a.os).drop (22 + a.name.length) = a.os := by
          unfold body0
          rw [List.drop_append_of_le_length (by simp [le32, le16, ho.method]; omega), List.drop_of_length_le (by simp [le32, le16, ho.method]; omega)]
          rfl
        rw [show 24 + a.name.length = (22 + a.name.length) + 1 + 1 by omega, List.drop_succ_cons, List.drop_succ_cons, this, hos]
      · omega
    simp only [List.length_cons, Nat.succ_ne_zero, if_false]
    rw [hgb, ok_bind, if_neg hx55, ok_bind]
    simp only []
    rw [finishHdr_name f _ a rfl hff (Or.inl (by rw [hos]; rfl)) hx55 hsm]
    exact ⟨_, rfl, ⟨rfl, hpk, hct, rfl, hcr, rfl, rfl, rfl, rfl⟩, Or.inl rfl⟩

/-- Only for OS-9 headers with a `/` in the name does the system matter for the name of the file created. -/
theorem entryName_ext (o : Opts) (hi : o.ignoreDir = false) (h : Hdr) (hx : 0x2f ∉ h.name ∨ (h.extendType ≠ 0x4b ∧ h.extendType ≠ 0x58)) :
    entryName o h = entryName o { h with extendType := 0 } := by
  unfold entryName
  simp only [hi, Bool.false_eq_true, if_false]
  split
  · rfl
  · cases hc : at_ h.name (lastSlash h.name) with
    | error e => rfl
    | ok c =>
      rw [ok_bind, show (Except.ok c >>= fun c => _ : G _) = _ from ok_bind _ _]
      rcases hx with hx | hx
      · have : c ≠ 0x2f := by
          rintro rfl
          unfold at_ at hc
          split at hc
          · rename_i c' hc'
            cases hc
            exact hx (List.mem_of_getElem? hc')
          · cases hc
        rw [if_neg this, if_neg this]
      · have : ∀ p, oskName h.extendType h.name p = oskName 0 h.name p := by
          intro p
          unfold oskName
          rw [if_neg (by omega), if_neg (by omega)]
        simp only [this]

theorem Seen.entryName {f : Fmt} {a : Alien} {g : Hdr} (h : Seen f a g) (hx : a.os.head? = some g.extendType ∨ a.os = [] ∧ g.extendType = 0)
    (hosk : a.Osk → 0x2f ∉ a.shown f.convertCase) : entryName Opts.default g = .ok (some (lastName (a.shown f.convertCase), g.name)) := by
  rw [entryName_ext Opts.default rfl g]
  · obtain ⟨n, h1, h2, h3⟩ := entryName_default { g with extendType := 0 } (a.shown f.convertCase) h.name (Or.inl rfl)
    rw [h1, lastName_of h2]
    have h4 : g.name = n ++ [0] ∨ ∃ A, g.name = A ++ 0x2f :: n ++ [0] := h3
    rw [h.name] at h4
    rcases h4 with h4 | ⟨A, h4⟩
    · exact Or.inl (List.append_cancel_right h4)
    · exact Or.inr ⟨A, List.append_cancel_right h4⟩
  · by_cases ho : a.Osk
    · left
      rw [h.name]
      simp [hosk ho]
    · right
      unfold Alien.Osk at ho
      rcases hx with hx | ⟨_, hx⟩
      · rw [hx] at ho
        simp only [Option.some.injEq, not_or] at ho
        exact ho
      · omega

/-- An entry of another system of a known method, whose packed data and checksum are right; or a directory. -/
structure AlienSound (f : Fmt) (a : Alien) : Prop where
  ok : a.Ok
  ff : 0xff ∉ a.name
  osk : a.Osk → 0x2f ∉ a.shown f.convertCase
  packed : (∃ m, methods.findIdx? (· = a.method) = some m ∧ Packed m a.packed a.content ∧ a.crc = crc16 0 a.content) ∨ a.method = [45, 108, 104, 100, 45]

/-- A part of an archive that `Headers` lists as a header with property `P`, whatever follows. -/
def Lists (f : Fmt) (tab : Arr) (b : List Nat) (P : Hdr → Prop) : Prop :=
  ∀ (n : Nat) (hf : Hf) (acc : List Hdr) (T : List Nat), GOk hf → ∃ g hf', GOk hf' ∧ P g ∧
    headersLoop f (others tab) tab Opts.default (n + 1) hf acc (b ++ T) = headersLoop f (others tab) tab Opts.default n hf' (acc ++ [g]) T

theorem verified_lists (f : Fmt) (tab : Arr) {b packed : List Nat} {P : Hdr → Prop}
    (h : ∀ (hf : Hf) (T : List Nat), GOk hf → ∃ g d, getHeader f tab newHdr (b ++ T) = .ok (.got g (packed ++ T)) ∧ g.packedSize = packed.length ∧ P g ∧
      verifyOne (others tab) tab Opts.default hf g (packed ++ T) = .ok (.ok d) ∧ GOk d.hf ∧ d.name = g.name ∧
      ((d.readSize = packed.length ∧ d.rest = T) ∨ (d.readSize ≠ packed.length ∧ skipTo packed.length d.rest = some T))) : Lists f tab b P := by
  intro n hf acc T hok
  obtain ⟨g, d, e1, e2, e3, e4, e5, e6, e7⟩ := h hf T hok
  refine ⟨g, d.hf, e5, e3, ?_⟩
  conv_lhs => unfold headersLoop
  rw [e1, ok_bind]
  simp only []
  rw [if_pos (by simp [needFile, Opts.default]), e4, ok_bind]
  simp only []
  have e8 : { g with name := d.name } = g := by rw [e6]
  rw [e8]
  rcases e7 with ⟨r1, r2⟩ | ⟨r1, r2⟩
  · rw [if_neg (by rw [e2, r1]; simp), r2]
  · rw [if_pos (by rw [e2]; exact r1), show skipTo g.packedSize d.rest = some T by rw [e2]; exact r2]

theorem AlienSound.lists {f : Fmt} {tab : Arr} (ht : makeCrcTable = .ok tab) {a : Alien} (h : AlienSound f a) : Lists f tab a.bytes (Seen f a) := by
  refine verified_lists f tab (packed := a.packed) ?_
  intro hf T hok
  obtain ⟨g, e1, S, hx⟩ := alien_parse f tab a h.ok h.ff newHdr newHdr_method (by rw [newHdr_name]; have := h.ok.len; omega) (fun _ => rfl) T
  have hname := S.entryName hx h.osk
  have hreg : fileType g.mode = 0o100000 := by rw [S.mode]; decide
  have hnd : fileType g.mode ≠ 0o040000 := by rw [hreg]; decide
  rcases h.packed with ⟨m, hidx, hp, hcrc⟩ | hm
  · obtain ⟨hf1, ok1, hdec⟩ := hp.decodes ht hf hok T
    refine ⟨g, ⟨a.packed.length, T, hf1, g.name, none⟩, e1, S.packed, S, ?_, ok1, rfl, Or.inl ⟨rfl, rfl⟩⟩
    unfold verifyOne
    rw [hname, ok_bind]
    simp only [S.method, hidx]
    rw [if_pos ⟨hreg, hp.ndir⟩, S.original, S.packed, hdec, ok_bind]
    simp only []
    rw [if_neg (by rw [S.crc, hcrc]; simp)]
  · refine ⟨g, ⟨0, a.packed ++ T, hf, g.name, none⟩, e1, S.packed, S, ?_, hok, rfl, ?_⟩
    · unfold verifyOne
      rw [hname, ok_bind]
      simp only [S.method, hm, lhd_idx]
      rw [if_neg (by simp), if_pos (by simp)]
    · by_cases hp : a.packed = []
      · exact Or.inl ⟨by rw [hp]; rfl, by rw [hp]; rfl⟩
      · have : 0 < a.packed.length := List.length_pos_iff.2 hp
        refine Or.inr ⟨by simp only []; omega, ?_⟩
        unfold skipTo readF
        simp only []
        rw [if_neg (by simp [hp])]
        simp

theorem Passed.lists {f : Fmt} (hg : f.generic = false) {tab : Arr} {e : Entry} (ho : e.Ok) (h : Passed tab e) : Lists f tab e.bytes (Parsed e) := by
  refine verified_lists f tab (packed := e.packed) ?_
  intro hf T hok
  obtain ⟨g, e1, P⟩ := entry_parse f hg tab e ho newHdr newHdr_method (by rw [newHdr_name]; have := ho.name; omega) T
  obtain ⟨d, ok1, dn, hv, hr⟩ := h g hf T hok P
  exact ⟨g, d, e1, P.packed, P, hv, ok1, dn, hr⟩

theorem lists_loop {f : Fmt} {tab : Arr} {α : Type} (bytes : α → List Nat) (P : α → Hdr → Prop) (X : List Nat) (l : List α) :
    ∀ (n : Nat) (hf : Hf) (acc : List Hdr), l.length < n → (∀ x ∈ l, Lists f tab (bytes x) (P x)) → GOk hf →
      ∃ k hs hf', n = l.length + k ∧ GOk hf' ∧ List.Forall₂ P l hs ∧
        headersLoop f (others tab) tab Opts.default n hf acc (l.flatMap bytes ++ X) = headersLoop f (others tab) tab Opts.default k hf' (acc ++ hs) X := by
  induction l with
  | nil =>
    intro n hf acc hn _ hok
    exact ⟨n, [], hf, by simp, hok, .nil, by simp⟩
  | cons x l ih =>
    intro n hf acc hn hgood hok
    obtain ⟨n, rfl⟩ : ∃ k, n = k + 1 := ⟨n - 1, by simp at hn; omega⟩
    obtain ⟨g, hf1, ok1, hP, h1⟩ := hgood x List.mem_cons_self n hf acc (l.flatMap bytes ++ X) hok
    obtain ⟨k, hs, hf', k1, k2, k3, k4⟩ := ih n hf1 (acc ++ [g]) (by simp at hn; omega) (fun y hy => hgood y (List.mem_cons_of_mem _ hy)) ok1
    refine ⟨k, g :: hs, hf', by simp; omega, k2, .cons hP k3, ?_⟩
    rw [List.flatMap_cons, List.append_assoc, h1, k4]
    simp

/-- Entries of Unix and of other systems. -/
abbrev Item := Entry ⊕ Alien

def Item.bytes : Item → List Nat
  | .inl e => e.bytes
  | .inr a => a.bytes

/-- As in C42, with the right checksum, or a directory. -/
def Item.Good (f : Fmt) : Item → Prop
  | .inl e => (Sound e ∧ e.crc = crc16 0 e.content) ∨ DirEntry e
  | .inr a => AlienSound f a

def Item.Listed (f : Fmt) : Item → Hdr → Prop
  | .inl e => Parsed e
  | .inr a => Seen f a

theorem Item.Good.lists {f : Fmt} (hg : f.generic = false) {tab : Arr} (ht : makeCrcTable = .ok tab) {i : Item} (h : i.Good f) :
    Lists f tab i.bytes (i.Listed f) := by
  cases i with
  | inl e =>
    rcases h with ⟨h1, h2⟩ | h
    · exact (h1.passed ht h2).lists hg h1.ok
    · exact h.passed.lists hg h.ok
  | inr a => exact AlienSound.lists ht h

theorem Item.bytes_pos (i : Item) : 0 < i.bytes.length := by
  cases i with
  | inl e => exact header_length e
  | inr a => simp [Item.bytes, Alien.bytes]

theorem items_length (l : List Item) (X : List Nat) : l.length ≤ (l.flatMap Item.bytes ++ X).length := by
  induction l with
  | nil => simp
  | cons x l ih =>
    have := x.bytes_pos
    rw [List.flatMap_cons, List.append_assoc, List.length_append, List.length_cons]
    omega

/-- **C100 (partial).** Full statement: `Headers` lists the entries of every archive made under MS-DOS, OS/2, OS-9, Macintosh, Amiga, ... with the names, sizes, checksums
and times recorded, mixed with entries made under Unix or not.  Proved for level-0 headers (level 1: C52), the packing methods of C42 and directories, names without byte
0xff, and for OS-9 names without directories; times are not included (they are wrong: C50).  The restrictions on names are necessary: `C100_false_ff`, `C100_false_os9`. -/
theorem C100_partial (f : Fmt) (hg : f.generic = false) (tab : Arr) (ht : makeCrcTable = .ok tab) (l : List Item) (hl : ∀ i ∈ l, i.Good f)
    (t : List Nat) (htl : Tail t) (hf : Hf) (hok : GOk hf) :
    ∃ hs hf', GOk hf' ∧ headers f (others tab) tab Opts.default hf (some (l.flatMap Item.bytes ++ t)) = .ok ⟨false, hs, hf'⟩ ∧
      List.Forall₂ (Item.Listed f) l hs := by
  have hlen := items_length l t
  obtain ⟨k, hs, hf', k1, k2, k3, k4⟩ := lists_loop (f := f) (tab := tab) Item.bytes (Item.Listed f) t l ((l.flatMap Item.bytes ++ t).length + 1) hf [] (by omega)
    (fun i hi => (hl i hi).lists hg ht) hok
  obtain ⟨k, rfl⟩ : ∃ j, k = j + 1 := ⟨k - 1, by omega⟩
  refine ⟨hs, hf', k2, ?_, k3⟩
  unfold headers
  simp only []
  rw [k4]
  unfold headersLoop
  rcases tail_end f tab newHdr htl with e | e <;> rw [e, ok_bind] <;> simp

theorem stripDevice_past (name : List Nat) : ∀ (n p : Nat), p < name.length → name.length < n + p → (∀ q, p ≤ q → name[q]? ≠ some 0x2f) →
    ∃ c, stripDevice name n p = .ok (name.length, c) := by
  intro n
  induction n with
  | zero => intro p h1 h2; omega
  | succ n ih =>
    intro p h1 h2 h3
    have h4 := h3 p (Nat.le_refl p)
    unfold stripDevice at_
    obtain ⟨c, hc⟩ : ∃ c, name[p]? = some c := ⟨name[p], List.getElem?_eq_getElem h1⟩
    rw [hc] at h4 ⊢
    simp only []
    rw [ok_bind]
    by_cases hp : p + 1 ≥ name.length
    · rw [if_pos (Or.inl hp), show p + 1 = name.length by omega]
      exact ⟨_, rfl⟩
    · rw [if_neg (by rintro (h | h); exacts [hp h, h4 (by rw [h])])]
      exact ih (p + 1) (by omega) (by omega) (fun q hq => h3 q (by omega))

/-- The code that is meant to remove a device name always runs past the end of the name. -/
theorem oskName_panics (x : Nat) (hx : x = 0x4b ∨ x = 0x58) (name : List Nat) (p : Nat) (hp : p < name.length) (hs : ∀ q, p ≤ q → name[q]? ≠ some 0x2f) :
    oskName x name p = panic := by
  obtain ⟨c, hc⟩ := stripDevice_past name (name.length + 1) p hp (by omega) hs
  unfold oskName
  rw [if_pos hx, hc, ok_bind]
  simp only []
  split
  · rw [if_neg (by omega)]
  · unfold at_
    rw [List.getElem?_eq_none (Nat.le_refl _)]
    rfl

theorem entryName_osk (h : Hdr) (X : List Nat) (hn : h.name = X ++ [0]) (hX : 0x2f ∈ X) (hx : h.extendType = 0x4b ∨ h.extendType = 0x58) :
    entryName Opts.default h = panic := by
  rcases split_last_slash X with hs | ⟨A, Y, rfl, hY⟩
  · exact absurd hX hs
  · have hn' : h.name = A ++ 0x2f :: (Y ++ [0]) := by rw [hn]; simp
    have h0 : lastSlash h.name = A.length := by rw [hn']; exact lastSlash_some A _ (by simp [hY])
    have hd : h.name.drop A.length = 0x2f :: (Y ++ [0]) := by rw [hn', List.drop_left]
    unfold entryName
    rw [h0]
    simp only [Opts.default, Bool.false_eq_true, if_false]
    rw [show isDirectoryTraversal (h.name.drop A.length) = false from by rw [hd]; exact trav_no_slash Y hY 3]
    simp only [Bool.false_eq_true, if_false]
    have hat : at_ h.name A.length = .ok 0x2f := by unfold at_; rw [hn']; simp
    have hlen : h.name.length = A.length + Y.length + 2 := by rw [hn']; simp; omega
    have hget : ∀ q, A.length + 1 ≤ q → h.name[q]? ≠ some 0x2f := by
      intro q hq hc
      rw [hn', List.getElem?_append_right (by omega)] at hc
      obtain ⟨r, hr⟩ : ∃ r, q - A.length = r + 1 := ⟨q - A.length - 1, by omega⟩
      rw [hr, List.getElem?_cons_succ] at hc
      have := List.mem_of_getElem? hc
      simp at this
      exact hY this
    have hsk : skipSlashes h.name (h.name.length + 1) A.length = .ok (A.length + 1) := by
      rw [hlen]
      unfold skipSlashes
      rw [hat, ok_bind, if_pos rfl]
      unfold skipSlashes at_
      obtain ⟨c, hc⟩ : ∃ c, h.name[A.length + 1]? = some c := ⟨h.name[A.length + 1]'(by omega), List.getElem?_eq_getElem (by omega)⟩
      have := hget _ (Nat.le_refl _)
      rw [hc] at this ⊢
      simp only []
      rw [ok_bind, if_neg (fun h => this (by rw [h]))]
    rw [hat, ok_bind, if_pos rfl, hsk, ok_bind, oskName_panics _ hx _ _ (by omega) hget]
    rfl

/-- **C100 is false of OS-9**: an entry of a directory makes `Headers` crash, wherever in the archive it is, whatever its contents. -/
theorem C100_false_os9 (f : Fmt) (hg : f.generic = false) (tab : Arr) (ht : makeCrcTable = .ok tab) (l : List Item) (hl : ∀ i ∈ l, i.Good f)
    (a : Alien) (ho : a.Ok) (hff : 0xff ∉ a.name) (hosk : a.Osk) (hdir : 0x2f ∈ a.shown f.convertCase) (R : List Nat) (hf : Hf) (hok : GOk hf) :
    headers f (others tab) tab Opts.default hf (some (l.flatMap Item.bytes ++ (a.bytes ++ R))) = panic := by
  have hlen := items_length l (a.bytes ++ R)
  obtain ⟨k, hs, hf', k1, k2, k3, k4⟩ := lists_loop (f := f) (tab := tab) Item.bytes (Item.Listed f) (a.bytes ++ R) l
    ((l.flatMap Item.bytes ++ (a.bytes ++ R)).length + 1) hf [] (by omega) (fun i hi => (hl i hi).lists hg ht) hok
  obtain ⟨k, rfl⟩ : ∃ j, k = j + 1 := ⟨k - 1, by omega⟩
  obtain ⟨g, e1, S, hx⟩ := alien_parse f tab a ho hff newHdr newHdr_method (by rw [newHdr_name]; have := ho.len; omega) (fun _ => rfl) R
  have hge : g.extendType = 0x4b ∨ g.extendType = 0x58 := by
    rcases hx with hx | ⟨hx, _⟩
    · unfold Alien.Osk at hosk
      rw [hx] at hosk
      simpa using hosk
    · unfold Alien.Osk at hosk
      rw [hx] at hosk
      simp at hosk
  have hn := entryName_osk g _ S.name hdir hge
  unfold headers
  simp only []
  rw [k4]
  unfold headersLoop
  rw [e1, ok_bind]
  simp only []
  rw [if_pos (by simp [needFile, Opts.default])]
  unfold verifyOne
  rw [hn]
  rfl

/-- An empty MS-DOS file `x`, byte 0xff (which separates directories), `y`. -/
def ffAlien : Alien := ⟨[45, 108, 104, 48, 45], [120, 0xff, 121], [], [], 0, 0, 0x20, [0x4d]⟩

/-- What is made of it. -/
def ffHdr : Hdr :=
  { newHdr with
    sizeFieldLength := 2, headerSize := 28, method := [45, 108, 104, 48, 45], attr := 0x20, name := [120, 0xff, 121, 0], mode := 0o100666, hasCrc := true, extendType := 0x4d }

/-- **C100 is false of names with byte 0xff**: it is not taken for a separator. -/
theorem C100_false_ff (tab : Arr) (hf : Hf) : ffAlien.Ok ∧ ffAlien.shown false = [120, 0x2f, 121] ∧
    ∃ g, headers ⟨false, false⟩ (others tab) tab Opts.default hf (some ffAlien.bytes) = .ok ⟨false, [g], hf⟩ ∧ g.name = [120, 0xff, 121, 0] := by
  refine ⟨⟨by decide, by decide, by decide, by decide, by decide, by decide, by decide⟩, by decide, ffHdr, ?_, rfl⟩
  have e1 : getHeader ⟨false, false⟩ tab newHdr ffAlien.bytes = .ok (.got ffHdr []) := by
    rw [getHeader_tab _ tab (Arr.mk' 256 0) newHdr ffAlien.bytes (by decide)]
    decide +kernel
  have e2 : verifyOne (others tab) tab Opts.default hf ffHdr [] = .ok (.ok ⟨0, [], hf, ffHdr.name, none⟩) := by
    unfold verifyOne
    rw [show entryName Opts.default ffHdr = .ok (some ([120, 0xff, 121], ffHdr.name)) by decide +kernel, ok_bind]
    have : methods.findIdx? (· = ffHdr.method) = some 0 := by decide
    simp only [this]
    rw [if_pos (by decide)]
    rfl
  unfold headers
  simp only []
  unfold headersLoop
  rw [e1, ok_bind]
  simp only []
  rw [if_pos (by simp [needFile, Opts.default]), e2, ok_bind]
  simp only []
  rw [if_neg (by decide), show ffAlien.bytes.length = 28 from by decide]
  unfold headersLoop
  rfl

/-- The hypotheses are met: a Unix file `x/e`, an MS-DOS file `X\\E` (listed as `x/e` too), a Macintosh directory `a:`; then an OS-9 file `d/f`. -/
def alien1 : Alien := ⟨[45, 108, 122, 115, 45], [88, 0x5c, 69], [65], [0xa0, 0x80], crc16 0 [65], 0, 0x20, [0x4d, 1, 2]⟩
def alien2 : Alien := ⟨[45, 108, 104, 100, 45], [97, 0x3a], [], [], 0, 0, 0x20, [0x6d]⟩
def alien3 : Alien := ⟨[45, 108, 122, 115, 45], [100, 0x5c, 102], [65], [0xa0, 0x80], crc16 0 [65], 0, 0x20, [0x4b]⟩

theorem aliens_good : ∀ i ∈ [Sum.inl (sampleEntry [45, 108, 122, 115, 45] [120, 47, 101] [0xa0, 0x80] [65]), Sum.inr alien1, Sum.inr alien2],
    Item.Good ⟨false, true⟩ i := by
  have hcrc : crc16 0 [65] < 2 ^ 16 := by decide +kernel
  intro i hi
  simp only [List.mem_cons, List.not_mem_nil, or_false] at hi
  have h1 := sample_sound [120, 47, 101] (by decide) (by decide) (by decide)
  rcases hi with rfl | rfl | rfl
  · exact Or.inl ⟨h1, rfl⟩
  · refine ⟨⟨by decide, by decide, by decide, by decide, by decide, hcrc, by decide⟩, by decide, by simp [Alien.Osk, alien1], Or.inl ?_⟩
    obtain ⟨_, _, m, hidx, hp⟩ := h1
    exact ⟨m, hidx, hp, rfl⟩
  · exact ⟨⟨by decide, by decide, by decide, by decide, by decide, by decide, by decide⟩, by decide, by simp [Alien.Osk, alien2], Or.inr rfl⟩

example (tab : Arr) (ht : makeCrcTable = .ok tab) (hf : Hf) (hok : GOk hf) : ∃ hs hf', headers ⟨false, true⟩ (others tab) tab Opts.default hf
    (some ([Sum.inl (sampleEntry [45, 108, 122, 115, 45] [120, 47, 101] [0xa0, 0x80] [65]), Sum.inr alien1, Sum.inr alien2].flatMap Item.bytes ++ [0])) = .ok ⟨false, hs, hf'⟩ ∧
    hs.map (·.name) = [[120, 47, 101, 0], [120, 47, 101, 0], [97, 47, 0]] := by
  obtain ⟨hs, hf', _, h, P⟩ := C100_partial ⟨false, true⟩ rfl tab ht _ aliens_good [0] (Or.inr ⟨[], rfl⟩) hf hok
  refine ⟨hs, hf', h, ?_⟩
  cases P with
  | cons a P => cases P with
    | cons b P => cases P with
      | cons c P =>
        cases P
        have a' : Parsed _ _ := a
        have b' : Seen ⟨false, true⟩ alien1 _ := b
        have c' : Seen ⟨false, true⟩ alien2 _ := c
        simp only [List.map_cons, List.map_nil]
        rw [a'.name, b'.name, c'.name]
        decide

example (tab : Arr) (ht : makeCrcTable = .ok tab) (hf : Hf) (hok : GOk hf) : headers ⟨false, true⟩ (others tab) tab Opts.default hf
    (some ([Sum.inl (sampleEntry [45, 108, 122, 115, 45] [120, 47, 101] [0xa0, 0x80] [65]), Sum.inr alien1, Sum.inr alien2].flatMap Item.bytes ++
      (alien3.bytes ++ [0]))) = panic :=
  C100_false_os9 ⟨false, true⟩ rfl tab ht _ aliens_good alien3
    ⟨by decide, by decide, by decide, by decide, by decide, by show crc16 0 [65] < 2 ^ 16; decide +kernel, by decide⟩
    (by decide) (Or.inl rfl) (by decide) [0] hf hok

end Lha
