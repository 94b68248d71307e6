import Verif.Proof.Zeros
import Verif.Proof.Limit
import Verif.Props.C61
/-!
# C91: a small archive does not fill the disk
-/

namespace Lha

open Spec

/-! ## A small archive that does -/

/-- An entry of 37 bytes: a name of one letter, no packed data, `n` bytes announced.  `six`: packed by lh6, otherwise by lh5. -/
def bomb (six : Bool) (n b : Nat) : Entry where
  method := if six then [45, 108, 104, 54, 45] else [45, 108, 104, 53, 45]
  name := [b]
  content := List.replicate n 0
  packed := []
  crc := 0
  dosTime := 0
  unixTime := 1000000000
  perm := 0o644
  uid := 1000
  gid := 100
  attr := 32
  kind := 0o100000

/-- A letter that can be a name. -/
def Letter (b : Nat) : Prop := b ≠ 0 ∧ b ≠ 0x5c ∧ b ≠ 0x2f

theorem bomb_ok {six : Bool} {n b : Nat} (hn : n < 2 ^ 32) (hb : Letter b) : (bomb six n b).Ok := by
  refine ⟨by cases six <;> rfl, by show 1 ≤ 221; omega, ?_, ?_, by show 0 < 2 ^ 32; omega, ?_, by show 0 < 2 ^ 16; omega, by show 420 < 2 ^ 12; omega, Or.inl rfl⟩
  · show 0 ∉ [b]
    rw [List.mem_singleton]; exact fun h => hb.1 h.symm
  · show 0x5c ∉ [b]
    rw [List.mem_singleton]; exact fun h => hb.2.1 h.symm
  · show (List.replicate n 0).length < 2 ^ 32
    rw [List.length_replicate]; exact hn

theorem bomb_bytes {six : Bool} {n b : Nat} : (bomb six n b).bytes.length = 37 := by
  cases six <;> simp [Entry.bytes, Entry.header, Entry.body, bomb, le]

theorem bombs_length {six : Bool} {n : Nat} (bs : List Nat) : (archive (bs.map (bomb six n)) []).length = 37 * bs.length := by
  induction bs with
  | nil => rfl
  | cons b bs ih => rw [List.map_cons, archive_cons, List.length_append, bomb_bytes, ih, List.length_cons]; omega

theorem bomb_decodes {tab : Arr} (ht : makeCrcTable = .ok tab) (six : Bool) (n : Nat) (hf : Hf) (hok : GOk hf) (T : List Nat) :
    ∃ hf', GOk hf' ∧ decodeLzhuf (others tab) tab (if six then 6 else 5) hf n 0 T = .ok ⟨List.replicate n 0, 0, 0, T, hf'⟩ := by
  obtain ⟨_, h1, hct⟩ := makeCrcTable_ok
  cases ht.symm.trans h1
  obtain ⟨hf', ok', e⟩ := decodeSt1_dry hct (dicbit := if six then 15 else 13) (by cases six <;> simp) hf hok n T
  rw [crc_zeros] at e
  refine ⟨hf', ok', ?_⟩
  cases six
  · exact e
  · exact e

theorem bomb_method (six : Bool) (n b : Nat) : methods.findIdx? (· = (bomb six n b).method) = some (if six then 6 else 5) := by
  cases six <;> rfl

theorem lastName_letter {b : Nat} (hb : Letter b) : lastName [b] = [b] := by
  simp [lastName, hb.2.2]

theorem bomb_does {tab : Arr} (ht : makeCrcTable = .ok tab) {six : Bool} {n b : Nat} (hn : n < 2 ^ 32) (hb : Letter b) (fs : Fs)
    (hcan : ∀ n, fs.can n = true) : Does tab Opts.default fs (needFile Opts.default) (bomb six n b) (some ([b], List.replicate n 0)) := by
  intro g hf T hok P
  have ho := bomb_ok (six := six) hn hb
  obtain ⟨hf1, ok1, hdec⟩ := bomb_decodes ht six n hf hok T
  refine Or.inr ⟨by simp [needFile, Opts.default], hf1, ok1, ?_⟩
  unfold extractOne
  rw [P.entryName, ok_bind]
  simp only [P.method, bomb_method]
  rw [if_pos ⟨(P.fileType ho).trans rfl, by cases six <;> simp⟩, if_pos (hcan _), P.original, P.packed]
  have e1 : (bomb six n b).content.length = n := List.length_replicate
  have e2 : lastName (bomb six n b).name = [b] := lastName_letter hb
  rw [e1, e2]
  show (decodeLzhuf (others tab) tab _ hf n 0 T >>= _) = _
  rw [hdec, ok_bind]
  rfl

theorem bomb_inc {six : Bool} {n : Nat} (bs : List Nat) : ∀ k, 2 ≤ k → NonInc k (bs.map (bomb six n)) := by
  induction bs with
  | nil => intro k _; trivial
  | cons b bs ih => intro k hk; exact ⟨by show 1 < k; omega, ih 2 (by omega)⟩

/-- **C91 is false**: every 37 bytes of an archive can make `CommandExtract` write a file of any size below 2^32 bytes; no error is reported. -/
theorem C91_false (f : Fmt) (hg : f.generic = false) (tab : Arr) (ht : makeCrcTable = .ok tab) (fs : Fs) (hcan : ∀ n, fs.can n = true)
    (six : Bool) (n : Nat) (hn : n < 2 ^ 32) (bs : List Nat) (hbs : ∀ b ∈ bs, Letter b) (hf : Hf) (hok : GOk hf) :
    (archive (bs.map (bomb six n)) []).length = 37 * bs.length ∧
    ∃ hf', commandExtract f (others tab) tab Opts.default fs false hf (some (archive (bs.map (bomb six n)) [])) =
      .ok ⟨false, bs.map (fun b => ([b], List.replicate n 0)), hf'⟩ := by
  have hlen := bombs_length (six := six) (n := n) bs
  refine ⟨hlen, ?_⟩
  have h1 : (bs.map fun b => (bomb six n b, some ([b], List.replicate n 0))).map Prod.fst = bs.map (bomb six n) := by simp [Function.comp_def]
  have h2 : (bs.map fun b => (bomb six n b, some ([b], List.replicate n 0))).filterMap Prod.snd = bs.map (fun b => ([b], List.replicate n 0)) := by
    simp [List.filterMap_map]
  obtain ⟨hf', _, h⟩ := extractLoop_does f hg tab Opts.default fs (needFile Opts.default) (t := []) (Or.inl rfl)
    (bs.map fun b => (bomb six n b, some ([b], List.replicate n 0))) ((archive (bs.map (bomb six n)) []).length + 1) newHdr hf []
    (by rw [hlen, List.length_map]; omega) (by
      intro x hx
      obtain ⟨b, hb, rfl⟩ := List.mem_map.mp hx
      exact ⟨bomb_ok hn (hbs b hb), bomb_does ht hn (hbs b hb) fs hcan⟩) hok newHdr_method (by rw [h1, newHdr_name]; exact bomb_inc bs _ (by omega))
  rw [h1, h2] at h
  refine ⟨hf', ?_⟩
  unfold commandExtract
  simp only [Bool.false_eq_true, if_false]
  rw [ok_bind, h]
  rfl

/-- Testing such an archive reports no error, and `DecompresBytes` returns the bytes. -/
theorem C91_false_read (f : Fmt) (hg : f.generic = false) (tab : Arr) (ht : makeCrcTable = .ok tab) (six : Bool) (n : Nat) (hn : n < 2 ^ 32)
    (b : Nat) (hb : Letter b) (hf : Hf) (hok : GOk hf) :
    (∃ hf', commandTest f (others tab) tab Opts.default false hf (some (archive [bomb six n b] [])) = .ok (false, hf')) ∧
    ∃ hf', decompresBytes f (others tab) tab false [b, 0] hf (some (archive [bomb six n b] [])) = .ok ⟨false, List.replicate n 0, hf'⟩ := by
  have ho := bomb_ok (six := six) hn hb
  obtain ⟨g, e1, P⟩ := entry_parse f hg tab (bomb six n b) ho newHdr newHdr_method (by rw [newHdr_name]; have := ho.name; omega) []
  obtain ⟨hf1, ok1, hdec⟩ := bomb_decodes ht six n hf hok []
  have ea : archive [bomb six n b] [] = (bomb six n b).bytes ++ [] := by simp [archive]
  have hl : (archive [bomb six n b] []).length + 1 = 38 := by rw [ea, List.append_nil, bomb_bytes]
  have ec : (bomb six n b).content.length = n := List.length_replicate
  have hm : (fileType g.mode = 0o100000 ∧ (if six then 6 else 5) ≠ 11) := ⟨(P.fileType ho).trans rfl, by cases six <;> simp⟩
  have hp : g.packedSize = 0 := P.packed
  have hdec' : decodeLzhuf (others tab) tab (if six then 6 else 5) hf g.originalSize g.packedSize ((bomb six n b).packed ++ []) =
      .ok ⟨List.replicate n 0, 0, 0, [], hf1⟩ := by
    rw [P.original, P.packed, ec]
    exact hdec
  have hcrc : ¬ (g.hasCrc ∧ 0 ≠ g.crc) := by rw [P.crc]; simp [bomb]
  refine ⟨⟨hf1, ?_⟩, hf1, ?_⟩
  · have hv : verifyOne (others tab) tab Opts.default hf g ((bomb six n b).packed ++ []) = .ok (.ok ⟨0, [], hf1, g.name, none⟩) := by
      unfold verifyOne
      rw [P.entryName, ok_bind]
      simp only [P.method, bomb_method]
      rw [if_pos hm, hdec', ok_bind]
      simp only []
      rw [if_neg hcrc]
    unfold commandTest
    simp only [Bool.false_eq_true, if_false]
    rw [ok_bind, hl, ea]
    unfold testLoop
    rw [e1, ok_bind]
    simp only []
    rw [if_pos (by simp [needFile, Opts.default]), hv, ok_bind]
    simp only []
    rw [if_neg (by rw [hp]; simp)]
    unfold testLoop
    rfl
  · have hv : extractOneStream (others tab) tab hf g ((bomb six n b).packed ++ []) = .ok (.ok ⟨List.replicate n 0, 0, 0, [], hf1⟩) := by
      unfold extractOneStream
      simp only [P.method, bomb_method]
      rw [if_pos hm, hdec', ok_bind]
      simp only []
      rw [if_neg hcrc]
    unfold decompresBytes
    simp only [Bool.false_eq_true, if_false]
    rw [ok_bind, hl, ea]
    unfold extractBytesLoop
    rw [e1, ok_bind]
    simp only []
    rw [if_pos (by rw [P.name]; rfl), hv, ok_bind]
    simp only []
    rw [if_neg (by rw [hp]; simp)]
    unfold extractBytesLoop
    rfl

/-- The hypotheses of `C91_false` are met: 37 bytes, a file `a` of 4 GB less one byte. -/
example : (2 ^ 32 - 1 < 2 ^ 32) ∧ (∀ b ∈ [97], Letter b) ∧ GOk Hf.fresh := by
  refine ⟨by omega, ?_, by constructor <;> rfl, by constructor <;> rfl⟩
  intro b hb
  rw [List.mem_singleton] at hb
  subst hb
  exact ⟨by omega, by omega, by omega⟩

/-! ## What every archive is limited to -/

theorem getLong_small {d : List Nat} (hd : IsBytes d) {p v : Nat} (h : getLong d p = .ok v) : v < 2 ^ 32 := by
  unfold getLong at h
  obtain ⟨b0, h0, h⟩ := bind_ok h
  obtain ⟨b1, h1, h⟩ := bind_ok h
  obtain ⟨b2, h2, h⟩ := bind_ok h
  obtain ⟨b3, h3, h⟩ := bind_ok h
  cases h
  have := getByte_small hd h0
  have := getByte_small hd h1
  have := getByte_small hd h2
  have := getByte_small hd h3
  omega

theorem parseLevel0_orig {h g : Hdr} {hs : Nat} {d : List Nat} (hd : IsBytes d) (hx : parseLevel0 h hs d = .ok (some g)) : g.originalSize < 2 ^ 32 := by
  unfold parseLevel0 at hx
  obtain ⟨_, _, hx⟩ := bind_ok hx
  obtain ⟨_, _, hx⟩ := bind_ok hx
  obtain ⟨_, ho, hx⟩ := bind_ok hx
  obtain ⟨_, _, hx⟩ := bind_ok hx
  obtain ⟨_, _, hx⟩ := bind_ok hx
  obtain ⟨_, _, hx⟩ := bind_ok hx
  obtain ⟨nl, hnl, hx⟩ := bind_ok hx
  obtain ⟨⟨nm, i⟩, hb, hx⟩ := bind_ok hx
  simp only [] at hx
  obtain ⟨nm', hz, hx⟩ := bind_ok hx
  have hm := getLong_small hd ho
  split at hx
  · split at hx
    · cases hx; exact hm
    · cases hx
  · obtain ⟨_, _, hx⟩ := bind_ok hx
    split at hx
    · cases hx; exact hm
    · obtain ⟨_, _, hx⟩ := bind_ok hx
      split at hx
      · split at hx
        · obtain ⟨_, _, hx⟩ := bind_ok hx
          obtain ⟨_, _, hx⟩ := bind_ok hx
          obtain ⟨_, _, hx⟩ := bind_ok hx
          obtain ⟨_, _, hx⟩ := bind_ok hx
          obtain ⟨_, _, hx⟩ := bind_ok hx
          cases hx; exact hm
        · cases hx; exact hm
      · cases hx; exact hm

theorem getLevel0_orig {h g : Hdr} {d inp rest : List Nat} (hd : IsBytes d) (hi : IsBytes inp) (hx : getLevel0 h d inp = .ok (some (g, rest))) :
    g.originalSize < 2 ^ 32 := by
  unfold getLevel0 at hx
  obtain ⟨hs, _, hx⟩ := bind_ok hx
  obtain ⟨sm, _, hx⟩ := bind_ok hx
  split at hx
  · cases hx
  · split at hx
    · cases hx
    · rename_i x r hr
      split at hx
      · cases hx
      · obtain ⟨y, hp, hx⟩ := bind_ok hx
        split at hx
        · cases hx
        · cases hx
          exact parseLevel0_orig (isBytes_append hd (by rw [(readF_some hr).1]; exact isBytes_take hi _)) hp

theorem getLevel1_orig {h g : Hdr} {d inp rest : List Nat} (hd : IsBytes d) (hi : IsBytes inp) (hx : getLevel1 h d inp = .ok (some (g, rest))) :
    g.originalSize < 2 ^ 32 := by
  unfold getLevel1 at hx
  obtain ⟨hs, _, hx⟩ := bind_ok hx
  obtain ⟨sm, _, hx⟩ := bind_ok hx
  split at hx
  · cases hx
  · rename_i hlt
    split at hx
    · cases hx
    · rename_i x r hr
      split at hx
      · cases hx
      · simp only [] at hx
        obtain ⟨_, _, hx⟩ := bind_ok hx
        obtain ⟨_, _, hx⟩ := bind_ok hx
        obtain ⟨_, ho, hx⟩ := bind_ok hx
        obtain ⟨_, _, hx⟩ := bind_ok hx
        obtain ⟨_, _, hx⟩ := bind_ok hx
        obtain ⟨_, _, hx⟩ := bind_ok hx
        obtain ⟨nl, hnl, hx⟩ := bind_ok hx
        obtain ⟨⟨nm, i⟩, hb, hx⟩ := bind_ok hx
        simp only [] at hx
        obtain ⟨nm', hz, hx⟩ := bind_ok hx
        have hm := getLong_small (isBytes_append hd (by rw [(readF_some hr).1]; exact isBytes_take hi _)) ho
        obtain ⟨_, _, hx⟩ := bind_ok hx
        obtain ⟨_, _, hx⟩ := bind_ok hx
        obtain ⟨_, _, hx⟩ := bind_ok hx
        split at hx
        · obtain ⟨y, hy, hx⟩ := bind_ok hx
          cases y with
          | none => cases hx
          | some y => exact absurd hy (extLoop_never _ _ _ _ _ (by show hs ≠ 0; omega))
        · cases hx
          exact hm

/-- No header announces 2^32 bytes. -/
theorem getHeader_orig {f : Fmt} {tab : Arr} {h g : Hdr} {inp rest : List Nat} (hi : IsBytes inp) (hx : getHeader f tab h inp = .ok (.got g rest)) :
    g.originalSize < 2 ^ 32 := by
  unfold getHeader at hx
  split at hx
  · cases hx
  · rename_i b inp
    split at hx
    · cases hx
    · split at hx
      · cases hx
      · rename_i x r hr1
        simp only [] at hx
        obtain ⟨y, hy, hx⟩ := bind_ok hx
        split at hx
        · cases hx
        · rename_i h1 r1
          have hx := Except.ok.inj hx
          have hin : IsBytes inp := fun x hx => hi x (List.mem_cons_of_mem _ hx)
          have hdd : IsBytes (b :: x ++ List.replicate (20 - x.length) 0) := by
            refine isBytes_append ?_ (fun z hz => by rw [List.eq_of_mem_replicate hz]; omega)
            intro z hz
            rcases List.mem_cons.mp hz with rfl | hz
            · exact hi _ List.mem_cons_self
            · rw [(readF_some hr1).1] at hz; exact isBytes_take hin _ z hz
          have hrr : IsBytes r := by rw [(readF_some hr1).2]; exact isBytes_drop hin _
          have key : h1.originalSize < 2 ^ 32 := by
            unfold byLevel at hy
            split at hy
            · exact getLevel0_orig hdd hrr hy
            · exact getLevel1_orig hdd hrr hy
            · rcases getLevel2_never tab _ r with e | e <;> rw [e] at hy <;> cases hy
            · rcases getLevel3_never tab _ r with e | e <;> rw [e] at hy <;> cases hy
            · cases hy
          unfold finishHdr at hx
          simp only [] at hx
          split at hx
          · split at hx
            · cases hx; exact key
            · cases hx
          · cases hx; exact key

/-- Less than 64 KiB more than 4 GB, or less than 2 KiB more than the archive has. -/
def Limited (n : Nat) (x : List Nat) : Prop := x.length < 2 ^ 32 + 65536 ∨ x.length < n + 2048

theorem Limited.mono {a b : Nat} (h : a ≤ b) {x : List Nat} (hx : Limited a x) : Limited b x := by
  unfold Limited at *
  omega

theorem skipTo_suffix {n : Nat} {inp rest : List Nat} (h : skipTo n inp = some rest) : ∃ k, rest = inp.drop k := by
  unfold skipTo at h
  cases hr : readF n inp with
  | none => rw [hr] at h; cases h
  | some y =>
    rw [hr] at h
    cases h
    obtain ⟨a, b⟩ := y
    exact ⟨_, (readF_some hr).2⟩

theorem skipTo_getD_suffix (n : Nat) (inp : List Nat) : ∃ k, (skipTo n inp).getD [] = inp.drop k := by
  cases h : skipTo n inp with
  | none => exact ⟨inp.length, by simp⟩
  | some r => exact skipTo_suffix h

theorem decoded_limited {tab : Arr} {m : Nat} {h : Hf} (ok : HfOk h) {g : Hdr} (hg : g.originalSize < 2 ^ 32) {inp : List Nat} (hi : IsBytes inp)
    {d : DecOut} (hd : decodeLzhuf (others tab) tab m h g.originalSize g.packedSize inp = .ok d) : Limited inp.length d.out ∧ HfOk d.h := by
  obtain ⟨a, b⟩ := decodeLzhuf_le ok hi hd
  refine ⟨?_, b⟩
  unfold Limited
  omega

/-- What one entry does. -/
theorem extractOne_limited {tab : Arr} {o : Opts} {fs : Fs} {hf : Hf} (ok : HfOk hf) {g : Hdr} (hg : g.originalSize < 2 ^ 32) {inp : List Nat}
    (hi : IsBytes inp) {d : OneOut} (hd : extractOne (others tab) tab o fs hf g inp = .ok (some d)) :
    (∀ x ∈ d.file.toList, Limited inp.length x.2) ∧ HfOk d.hf ∧ ∃ k, d.rest = inp.drop k := by
  have none' : ∀ x ∈ (none : Option (List Nat × List Nat)).toList, Limited inp.length x.2 := fun x hx => by cases hx
  unfold extractOne at hd
  obtain ⟨y, _, hd⟩ := bind_ok hd
  split at hd
  · cases hd
  · split at hd
    · cases hd
    · split at hd
      · split at hd
        · obtain ⟨d1, h1, hd⟩ := bind_ok hd
          cases hd
          obtain ⟨a, b⟩ := decoded_limited ok hg hi h1
          refine ⟨?_, b, decodeLzhuf_drop h1⟩
          intro x hx
          simp only [Option.toList_some, List.mem_singleton] at hx
          subst hx
          exact a
        · cases hd; exact ⟨none', ok, 0, rfl⟩
      · split at hd
        · split at hd
          · cases hd
          · cases hd; exact ⟨none', ok, 0, rfl⟩
        · split at hd
          · cases hd; exact ⟨none', ok, 0, rfl⟩
          · cases hd

theorem extractLoop_limited {f : Fmt} {tab : Arr} {o : Opts} {fs : Fs} {need : List Nat → Bool} (n : Nat) : ∀ {h : Hdr} {hf : Hf}
    {files : List (List Nat × List Nat)} {inp : List Nat} {r : FilesOut}, HfOk hf → IsBytes inp →
    extractLoop f (others tab) tab o fs need n h hf files inp = .ok r →
    ∃ new, r.files = files ++ new ∧ new.length ≤ inp.length ∧ ∀ x ∈ new, Limited inp.length x.2 := by
  induction n with
  | zero => intro h hf files inp r _ _ hx; cases hx
  | succ n ih =>
    intro h hf files inp r ok hi hx
    have stop : ∃ new, files = files ++ new ∧ new.length ≤ inp.length ∧ ∀ x ∈ new, Limited inp.length x.2 :=
      ⟨[], by simp, by simp, fun x hx => by cases hx⟩
    unfold extractLoop at hx
    obtain ⟨y, hy, hx⟩ := bind_ok hx
    cases y with
    | eof => cases hx; exact stop
    | bad => cases hx; exact stop
    | fin => cases hx; exact stop
    | got g rest =>
      simp only [] at hx
      have ho := getHeader_orig hi hy
      obtain ⟨_, k, hk, hrest⟩ := getHeader_got hy
      have hne : inp ≠ [] := by
        intro he
        subst he
        cases hy
      have hpos := List.length_pos_iff.2 hne
      have hbr : IsBytes rest := by rw [hrest]; exact isBytes_drop hi _
      have hlr : rest.length < inp.length := by rw [hrest, List.length_drop]; omega
      split at hx
      · obtain ⟨z, hz, hx⟩ := bind_ok hx
        cases z with
        | none => cases hx; exact stop
        | some d =>
          simp only [] at hx
          obtain ⟨a, b, j, hj⟩ := extractOne_limited ok ho hbr hz
          have hdl : d.rest.length < inp.length := by rw [hj, List.length_drop]; omega
          have hdb : IsBytes d.rest := by rw [hj]; exact isBytes_drop hbr _
          have one : d.file.toList.length ≤ 1 := by cases d.file <;> simp
          have wrap : ∀ (rest' : List Nat), rest'.length < inp.length → (∃ new, r.files = (files ++ d.file.toList) ++ new ∧ new.length ≤ rest'.length ∧
              ∀ x ∈ new, Limited rest'.length x.2) → ∃ new, r.files = files ++ new ∧ new.length ≤ inp.length ∧ ∀ x ∈ new, Limited inp.length x.2 := by
            intro rest' hl ⟨new, w1, w2, w3⟩
            refine ⟨d.file.toList ++ new, by rw [w1, List.append_assoc], by rw [List.length_append]; omega, ?_⟩
            intro x hx
            rcases List.mem_append.mp hx with hx | hx
            · exact (a x hx).mono (by omega)
            · exact (w3 x hx).mono (by omega)
          split at hx
          · split at hx
            · cases hx
              exact ⟨d.file.toList, rfl, by omega, fun x hx => (a x hx).mono (by omega)⟩
            · rename_i rest' hs
              obtain ⟨i, hi'⟩ := skipTo_suffix hs
              exact wrap rest' (by rw [hi', List.length_drop]; omega) (ih b (by rw [hi']; exact isBytes_drop hdb _) hx)
          · exact wrap d.rest hdl (ih b hdb hx)
      · obtain ⟨i, hi'⟩ := skipTo_getD_suffix g.packedSize rest
        obtain ⟨new, w1, w2, w3⟩ := ih ok (by rw [hi']; exact isBytes_drop hbr _) hx
        rw [hi', List.length_drop] at w2 w3
        exact ⟨new, w1, by omega, fun x hx => (w3 x hx).mono (by omega)⟩

theorem seek_suffix {a b : List Nat} {sfx : Bool} (h : (if sfx then seekLhaHeader a else .ok a : G (List Nat)) = .ok b) : ∃ k, b = a.drop k := by
  cases sfx
  · cases h; exact ⟨0, rfl⟩
  · simp only [if_true] at h
    unfold seekLhaHeader at h
    obtain ⟨_, _, h⟩ := bind_ok h
    cases h
    exact ⟨_, rfl⟩

/-- **C91 (partial).**  Full statement: what extraction writes is bounded by a small multiple of the size of the archive.  Proved: for every archive,
whatever the options and the state of the process, if `CommandExtract` returns (with or without an error), it has created at most as many files as the
archive has bytes, and each of them has less than 2^32 + 65536 bytes, or (stored) less than 2048 bytes more than the archive.  By `C91_false` there is no
bound below 2^32 bytes for each 37 bytes. -/
theorem C91_partial (f : Fmt) (tab : Arr) (o : Opts) (fs : Fs) (sfx : Bool) (hf : Hf) (ok : HfOk hf) (arch : List Nat) (ha : IsBytes arch) (r : FilesOut)
    (h : commandExtract f (others tab) tab o fs sfx hf (some arch) = .ok r) :
    r.files.length ≤ arch.length ∧ ∀ x ∈ r.files, x.2.length < 2 ^ 32 + 65536 ∨ x.2.length < arch.length + 2048 := by
  unfold commandExtract at h
  simp only [] at h
  have key : ∃ k, extractLoop f (others tab) tab o fs (needFile o) ((arch.drop k).length + 1) newHdr hf [] (arch.drop k) = .ok r := by
    cases sfx
    · exact ⟨0, h⟩
    · simp only [if_true] at h
      obtain ⟨b, h1, h⟩ := bind_ok h
      obtain ⟨k, rfl⟩ := seek_suffix (sfx := true) (by simpa using h1)
      exact ⟨k, h⟩
  obtain ⟨k, h⟩ := key
  obtain ⟨new, w1, w2, w3⟩ := extractLoop_limited _ ok (isBytes_drop ha k) h
  rw [List.nil_append] at w1
  rw [List.length_drop] at w2 w3
  rw [w1]
  exact ⟨by omega, fun x hx => (w3 x hx).mono (by omega)⟩

/-- The hypotheses of `C91_partial` are met: the archive of 74 bytes that makes two files of 1 GB. -/
example (tab : Arr) (ht : makeCrcTable = .ok tab) (fs : Fs) (hcan : ∀ n, fs.can n = true) : HfOk Hf.fresh ∧
    IsBytes (archive ([97, 98].map (bomb false (2 ^ 30))) []) ∧
    ∃ r, commandExtract ⟨false, false⟩ (others tab) tab Opts.default fs false Hf.fresh (some (archive ([97, 98].map (bomb false (2 ^ 30))) [])) = .ok r ∧
      r.files.length = 2 := by
  refine ⟨by constructor <;> rfl, ?_, ?_⟩
  · intro x hx
    have e : archive ([97, 98].map (bomb false (2 ^ 30))) [] = (bomb false (2 ^ 30) 97).bytes ++ ((bomb false (2 ^ 30) 98).bytes ++ []) := by simp [archive]
    have e' : ∀ b, (bomb false (2 ^ 30) b).content.length = 2 ^ 30 := fun b => List.length_replicate
    rw [e] at hx
    simp only [Entry.bytes, Entry.header, Entry.body, e'] at hx
    revert x
    decide
  · obtain ⟨_, hf', h⟩ := C91_false ⟨false, false⟩ rfl tab ht fs hcan false (2 ^ 30) (by omega) [97, 98] (by
      intro b hb
      simp only [List.mem_cons, List.not_mem_nil, or_false] at hb
      rcases hb with rfl | rfl <;> exact ⟨by omega, by omega, by omega⟩) Hf.fresh ⟨by constructor <;> rfl, by constructor <;> rfl⟩
    exact ⟨_, h, rfl⟩

theorem extractOneStream_limited {tab : Arr} {hf : Hf} (ok : HfOk hf) {g : Hdr} (hg : g.originalSize < 2 ^ 32) {inp : List Nat}
    (hi : IsBytes inp) {y : Except (Hf × List Nat) DecOut} (hd : extractOneStream (others tab) tab hf g inp = .ok y) :
    match y with
    | .error e => Limited inp.length e.2
    | .ok d => Limited inp.length d.out ∧ HfOk d.h ∧ ∃ k, d.rest = inp.drop k := by
  have nil : Limited inp.length [] := Or.inr (by simp)
  unfold extractOneStream at hd
  split at hd
  · cases hd; exact nil
  · split at hd
    · obtain ⟨d1, h1, hd⟩ := bind_ok hd
      obtain ⟨a, b⟩ := decoded_limited ok hg hi h1
      split at hd
      · cases hd
        have : ∀ m, (unflushed m d1.out).length ≤ d1.out.length := by
          intro m; unfold unflushed; rw [List.length_take]; exact Nat.min_le_right _ _
        unfold Limited at a ⊢
        rename_i m _ _ _ _
        have := this m
        simp only []
        omega
      · cases hd; exact ⟨a, b, decodeLzhuf_drop h1⟩
    · cases hd; exact nil

theorem extractBytesLoop_limited {f : Fmt} {tab : Arr} {want : List Nat} (N : Nat) (n : Nat) : ∀ {h : Hdr} {hf : Hf} {data inp : List Nat} {r : ReadOut},
    HfOk hf → IsBytes inp → inp.length ≤ N → Limited N data → extractBytesLoop f (others tab) tab want n h hf data inp = .ok r → Limited N r.data := by
  induction n with
  | zero => intro h hf data inp r _ _ _ _ hx; cases hx
  | succ n ih =>
    intro h hf data inp r ok hi hN hdata hx
    unfold extractBytesLoop at hx
    obtain ⟨y, hy, hx⟩ := bind_ok hx
    cases y with
    | eof => cases hx; exact hdata
    | bad => cases hx; exact hdata
    | fin => cases hx; exact hdata
    | got g rest =>
      simp only [] at hx
      have ho := getHeader_orig hi hy
      obtain ⟨_, k, hk, hrest⟩ := getHeader_got hy
      have hbr : IsBytes rest := by rw [hrest]; exact isBytes_drop hi _
      have hlr : rest.length ≤ N := by rw [hrest, List.length_drop]; omega
      split at hx
      · obtain ⟨z, hz, hx⟩ := bind_ok hx
        have hl := extractOneStream_limited ok ho hbr hz
        cases z with
        | error e => cases hx; exact Limited.mono hlr hl
        | ok d =>
          simp only [] at hx hl
          obtain ⟨a, b, j, hj⟩ := hl
          have hdl : d.rest.length ≤ N := by rw [hj, List.length_drop]; omega
          have hdb : IsBytes d.rest := by rw [hj]; exact isBytes_drop hbr _
          split at hx
          · split at hx
            · cases hx; exact a.mono hlr
            · rename_i rest' hs
              obtain ⟨i, hi'⟩ := skipTo_suffix hs
              exact ih b (by rw [hi']; exact isBytes_drop hdb _) (by rw [hi', List.length_drop]; omega) (a.mono hlr) hx
          · exact ih b hdb hdl (a.mono hlr) hx
      · obtain ⟨i, hi'⟩ := skipTo_getD_suffix g.packedSize rest
        exact ih ok (by rw [hi']; exact isBytes_drop hbr _) (by rw [hi', List.length_drop]; omega) hdata hx

/-- The same for what `DecompresBytes` returns (also with an error). -/
theorem C91_read_partial (f : Fmt) (tab : Arr) (sfx : Bool) (want : List Nat) (hf : Hf) (ok : HfOk hf) (arch : List Nat) (ha : IsBytes arch) (r : ReadOut)
    (h : decompresBytes f (others tab) tab sfx want hf (some arch) = .ok r) :
    r.data.length < 2 ^ 32 + 65536 ∨ r.data.length < arch.length + 2048 := by
  unfold decompresBytes at h
  simp only [] at h
  have key : ∃ k, extractBytesLoop f (others tab) tab want ((arch.drop k).length + 1) newHdr hf [] (arch.drop k) = .ok r := by
    cases sfx
    · exact ⟨0, h⟩
    · simp only [if_true] at h
      obtain ⟨b, h1, h⟩ := bind_ok h
      obtain ⟨k, rfl⟩ := seek_suffix (sfx := true) (by simpa using h1)
      exact ⟨k, h⟩
  obtain ⟨k, h⟩ := key
  exact extractBytesLoop_limited arch.length _ ok (isBytes_drop ha k) (by rw [List.length_drop]; omega) (Or.inr (by simp)) h

end Lha
