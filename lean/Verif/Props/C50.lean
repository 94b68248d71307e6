import Verif.Props.C49
/-!
# C50: MS-DOS time stamps
-/

namespace Lha

open Spec

/-- The MS-DOS date field of a level-0 or level-1 header. -/
def dosField (bytes : List Nat) : Nat := leVal ((bytes.drop 15).take 4)

theorem leVal_le32 (v : Nat) : leVal (le32 v) = v % 2 ^ 32 := by
  simp only [le32, leVal]; omega

theorem leVal_four (l : List Nat) : leVal (l.take 4) = l.getD 3 0 * 16777216 + l.getD 2 0 * 65536 + l.getD 1 0 * 256 + l.getD 0 0 := by
  match l with
  | [] | [_] | [_, _] | [_, _, _] | _ :: _ :: _ :: _ :: _ => simp [leVal]; try omega

theorem dosField_eq (l : List Nat) : dosField l = l.getD 18 0 * 16777216 + l.getD 17 0 * 65536 + l.getD 16 0 * 256 + l.getD 15 0 := by
  unfold dosField
  rw [leVal_four]
  simp only [getD_drop]

theorem dosField_level0 (f : Fmt) (gst : Nat) (h : Hdr) (P R : List Nat) (hm : h.method.length = 5) :
    dosField (writeLevel0 f gst h P ++ R) = gst % 2 ^ 32 := by
  obtain ⟨e1, _, _⟩ := writeLevel0_eq f gst h P hm
  rw [e1]
  obtain ⟨a, b, c, d, x, hm⟩ : ∃ a b c d x, h.method = [a, b, c, d, x] := by
    match hx : h.method with
    | [a, b, c, d, x] => exact ⟨a, b, c, d, x, rfl⟩
    | [] | [_] | [_, _] | [_, _, _] | [_, _, _, _] | _ :: _ :: _ :: _ :: _ :: _ :: _ => rw [hx] at hm; simp at hm
  unfold dosField
  rw [← leVal_le32 gst]
  simp [body0, hm, le32]

theorem stamp_fields {c : Civil} (h : c.Dos) :
    dosDate (unixToGenericStamp c % 2 ^ 32) =
      { c with year := 1980 + (c.year - 80) % 128, second := c.second / 2 * 2 } := by
  obtain ⟨hy, hm, ⟨hd1, hd2⟩, hh, hmi, hs⟩ := h
  have hd : c.day ≤ 31 := by
    have : monthDays c.year c.month ≤ 31 := by unfold monthDays; split <;> (try split) <;> omega
    omega
  obtain ⟨Y, M, D, H, N, S⟩ := c
  simp only [] at *
  unfold dosDate unixToGenericStamp
  simp only [Civil.mk.injEq]
  refine ⟨?_, ?_, ?_, ?_, ?_, ?_⟩ <;> omega

/-- **C50, writing, what holds.**  Month, day, hour, minute and second (to two seconds) of the MS-DOS date in a level-0 header are those of the
local time of the stamp; the year is wrong. -/
theorem C50_write_partial (f : Fmt) (tab : Arr) (e : Env) (h : Hdr) (hl : h.level = 0) (hm : h.method.length = 5)
    (hs : isSymlinkMode h.mode = false) (hc : (e.civil h.stamp).Dos) :
    ∃ bytes, writeHeader f tab (e.gst h.stamp) h = .ok (some bytes) ∧
      dosDate (dosField bytes) = { e.civil h.stamp with year := 1980 + ((e.civil h.stamp).year - 80) % 128,
                                                        second := (e.civil h.stamp).second / 2 * 2 } := by
  refine ⟨_, writeHeader_level0 f tab _ h hl hs, ?_⟩
  have := dosField_level0 f (e.gst h.stamp) h ((h.name ++ [0]).map (wByte f)) [] hm
  rw [List.append_nil] at this
  rw [this]
  exact stamp_fields hc

theorem year_wrong (y : Nat) (h : 1980 ≤ y ∧ y ≤ 2107) : 1980 + (y - 80) % 128 ≠ y := by omega

/-- **C50 is false, writing**: whatever the date, the archive that `CompressBytes` makes of a body records another year. -/
theorem C50_false_write (f : Fmt) (hgen : f.generic = false) (tab : Arr) (ht : makeCrcTable = .ok tab) (e : Env) (hperm : e.perm < 512)
    (hc : (e.civil e.now).Dos) (m : Nat) (hm : m = 5 ∨ m = 6 ∨ m = 7) (arch name body : List Nat) (hname : name ≠ arch)
    (hb1 : (baseName name).length ≤ 221) (hb2 : 0 ∉ baseName name) (hb3 : 0x5c ∉ baseName name)
    (p : Proc) (hp : ∀ g, geoOf m = some g → ProcOk g p) (hD : IsBytes body) (hlen : body.length < 2 ^ 32)
    (hfirst : body.getD 0 0 &&& 32 = 0) (hpack : body ≠ [] → Packs m tab p body) :
    ∃ c a, compressBytes f tab e m 0 arch name body none p = .ok (some c) ∧ c.err = false ∧ c.archive = some a ∧
      (dosDate (dosField a)).year ≠ (e.civil e.now).year := by
  obtain ⟨c, en, h1, h2, h3, hok, _, _, _, _, _, _, _, hdos, _⟩ := C49_partial f hgen tab ht e hperm m hm arch name body hname hb1 hb2 hb3 p hp hD hlen
    hfirst hpack
  refine ⟨c, _, h1, h2, h3, ?_⟩
  have hv : dosField (archive [en] [0]) = en.dosTime % 2 ^ 32 := by
    obtain ⟨a, b, c, d, x, hx⟩ : ∃ a b c d x, en.method = [a, b, c, d, x] := by
      have h5 := hok.method
      match hm : en.method with
      | [a, b, c, d, x] => exact ⟨a, b, c, d, x, rfl⟩
      | [] | [_] | [_, _] | [_, _, _] | [_, _, _, _] | _ :: _ :: _ :: _ :: _ :: _ :: _ => rw [hm] at h5; simp at h5
    rw [← leVal_le32]
    simp [dosField, archive, Entry.bytes, Entry.header, Entry.body, hx, le, le32, Nat.div_div_eq_div_mul]
  rw [hv, hdos]
  show (dosDate (unixToGenericStamp (e.civil e.now) % 2 ^ 32)).year ≠ _
  rw [stamp_fields hc]
  exact year_wrong _ hc.year

/-! ## Reading -/

theorem getLong_eq (d : List Nat) : getLong d 15 = .ok (d.getD 18 0 * 16777216 + d.getD 17 0 * 65536 + d.getD 16 0 * 256 + d.getD 15 0) := rfl

theorem level0_stamp {h : Hdr} {d inp : List Nat} {x : Hdr × List Nat} (hd : d.length = 21) (hx : getLevel0 h d inp = .ok (some x))
    (hu : x.1.extendType ≠ 0x55) : x.1.stamp = d.getD 18 0 * 16777216 + d.getD 17 0 * 65536 + d.getD 16 0 * 256 + d.getD 15 0 := by
  have hg : ∀ (y : List Nat) i, i < 21 → (d ++ y).getD i 0 = d.getD i 0 := by
    intro y i hi
    rw [List.getD_eq_getElem?_getD, List.getElem?_append_left (by omega), ← List.getD_eq_getElem?_getD]
  unfold getLevel0 at hx
  obtain ⟨hs, _, hx⟩ := bind_ok hx
  obtain ⟨sum, _, hx⟩ := bind_ok hx
  split at hx
  · cases hx
  split at hx
  · cases hx
  rename_i y inp' _
  split at hx
  · cases hx
  obtain ⟨o, ho, hx⟩ := bind_ok hx
  split at hx
  · cases hx
  rename_i h'
  cases hx
  unfold parseLevel0 at ho
  obtain ⟨⟨me, _⟩, _, ho⟩ := bind_ok ho
  obtain ⟨pa, _, ho⟩ := bind_ok ho
  obtain ⟨og, _, ho⟩ := bind_ok ho
  obtain ⟨st, h1, ho⟩ := bind_ok ho
  obtain ⟨at', _, ho⟩ := bind_ok ho
  obtain ⟨lv, _, ho⟩ := bind_ok ho
  obtain ⟨nl, _, ho⟩ := bind_ok ho
  obtain ⟨⟨nm, i⟩, _, ho⟩ := bind_ok ho
  obtain ⟨nm', _, ho⟩ := bind_ok ho
  rw [getLong_eq, hg _ _ (by omega), hg _ _ (by omega), hg _ _ (by omega), hg _ _ (by omega)] at h1
  cases h1
  simp only [] at ho hu
  split at ho
  · split at ho
    · cases ho; rfl
    · cases ho
  · obtain ⟨cr, _, ho⟩ := bind_ok ho
    split at ho
    · cases ho; rfl
    · obtain ⟨ex, _, ho⟩ := bind_ok ho
      split at ho
      · split at ho
        · obtain ⟨_, _, ho⟩ := bind_ok ho
          obtain ⟨_, _, ho⟩ := bind_ok ho
          obtain ⟨_, _, ho⟩ := bind_ok ho
          obtain ⟨_, _, ho⟩ := bind_ok ho
          obtain ⟨_, _, ho⟩ := bind_ok ho
          cases ho
          exact absurd (by assumption) hu
        · cases ho; rfl
      · cases ho; rfl

theorem finishHdr_stamp {f : Fmt} {h g : Hdr} {R rest : List Nat} (h1 : finishHdr f h R = .got g rest) : g.stamp = h.stamp ∧ g.extendType = h.extendType := by
  unfold finishHdr at h1
  simp only [] at h1
  split at h1
  · split at h1
    · cases h1; exact ⟨rfl, rfl⟩
    · cases h1
  · cases h1; exact ⟨rfl, rfl⟩

/-- Reading takes the MS-DOS date for a number of seconds. -/
theorem C50_read_raw (f : Fmt) (tab : Arr) (h g : Hdr) (inp rest : List Nat) (hg : getHeader f tab h inp = .ok (.got g rest))
    (hl : inp.getD 20 0 = 0) (hu : g.extendType ≠ 0x55) (h21 : 21 ≤ inp.length) : g.stamp = dosField inp := by
  match inp, h21 with
  | b :: inp, h21 =>
    have hb : b ≠ 0 := by
      rintro rfl
      unfold getHeader at hg
      simp at hg
    have hi : inp ≠ [] := by rintro rfl; simp at h21
    rw [getHeader_cons f tab h b inp hb hi] at hg
    have hl20 : (inp.take 20).length = 20 := by simp at h21 ⊢; omega
    rw [hl20, Nat.sub_self, List.replicate_zero, List.append_nil] at hg
    obtain ⟨o, ho, hg⟩ := bind_ok hg
    split at hg
    · cases hg
    rename_i h' R
    have hg' : finishHdr f h' R = .got g rest := Except.ok.inj hg
    obtain ⟨f1, f2⟩ := finishHdr_stamp hg'
    unfold byLevel at ho
    have hget : ∀ i, i < 21 → (b :: inp.take 20).getD i 0 = (b :: inp).getD i 0 := by
      intro i hi
      cases i with
      | zero => rfl
      | succ i =>
        simp only [List.getD_cons_succ]
        rw [List.getD_eq_getElem?_getD, List.getElem?_take_of_lt (by omega), ← List.getD_eq_getElem?_getD]
    rw [hget 20 (by omega), hl] at ho
    have := level0_stamp (by simp [hl20]) ho (by rw [← f2]; exact hu)
    rw [f1]
    simp only [] at this
    rw [this, hget 18 (by omega), hget 17 (by omega), hget 16 (by omega), hget 15 (by omega)]
    exact (dosField_eq _).symm

theorem yearDays_le : ∀ n, 365 * n ≤ yearDays n
  | 0 => by simp [yearDays]
  | n + 1 => by
    have := yearDays_le n
    unfold yearDays
    split <;> omega

/-- Read as seconds, every MS-DOS date is more than 180 days too early. -/
theorem dos_early {v : Nat} (hv : v < 2 ^ 32) (h : (dosDate v).Dos) : v + 180 * 86400 < (dosDate v).unix := by
  obtain ⟨hy, _, _, _, _, _⟩ := h
  have hyv : (dosDate v).year = 1980 + v / 2 ^ 25 := by
    show 1980 + v / 2 ^ 25 % 2 ^ 7 = _
    omega
  have h1 := yearDays_le ((dosDate v).year - 1970)
  have h2 : yearDays ((dosDate v).year - 1970) * 86400 ≤ (dosDate v).unix := by unfold Civil.unix; omega
  have h3 : (dosDate v).year - 1970 = 10 + v / 2 ^ 25 := by omega
  rw [h3] at h1 h2
  omega

/-- **C50 is false, reading**: an entry that has only an MS-DOS date (a level-0 header without Unix information) is reported with a time more than
180 days before that date, whatever the date and the time zone. -/
theorem C50_false_read (f : Fmt) (tab : Arr) (h g : Hdr) (inp rest : List Nat) (hb : IsBytes inp) (hg : getHeader f tab h inp = .ok (.got g rest))
    (hl : inp.getD 20 0 = 0) (hu : g.extendType ≠ 0x55) (h21 : 21 ≤ inp.length) (hc : (dosDate (dosField inp)).Dos) :
    g.stamp + 180 * 86400 < (dosDate (dosField inp)).unix := by
  rw [C50_read_raw f tab h g inp rest hg hl hu h21]
  refine dos_early ?_ hc
  have h256 : ∀ i, inp.getD i 0 < 256 := by
    intro i
    rw [List.getD_eq_getElem?_getD]
    cases hi : inp[i]? with
    | none => simp
    | some b => exact hb b (List.mem_of_getElem? hi)
  have h1 := h256 15
  have h2 := h256 16
  have h3 := h256 17
  have h4 := h256 18
  rw [dosField_eq]
  omega

/-- A generic level-0 header of the empty file `A` with the date 2000-02-29 12:34:56. -/
def dosSample : List Nat :=
  let b := lh0 ++ le32 0 ++ le32 0 ++ le32 (20 * 2 ^ 25 + 2 * 2 ^ 21 + 29 * 2 ^ 16 + 12 * 2 ^ 11 + 34 * 2 ^ 5 + 28) ++ [0x20, 0, 1, 65, 0, 0]
  b.length :: b.sum % 256 :: b

example : dosDate (dosField dosSample) = ⟨2000, 2, 29, 12, 34, 56⟩ ∧ (dosDate (dosField dosSample)).unix = 951827696 ∧ IsBytes dosSample ∧
    ∃ g, getHeader ⟨false, false⟩ (Arr.mk' 256 0) newHdr dosSample = .ok (.got g []) ∧ g.extendType ≠ 0x55 ∧ g.stamp = 677209180 := by
  refine ⟨by decide, by decide +kernel, by unfold IsBytes; decide, ?_⟩
  have h : (getHeader ⟨false, false⟩ (Arr.mk' 256 0) newHdr dosSample >>= fun r => match r with
      | .got g [] => if g.extendType ≠ 0x55 then .ok g.stamp else panic
      | _ => panic) = .ok 677209180 := by decide +kernel
  obtain ⟨r, h1, h2⟩ := bind_ok h
  split at h2
  · split at h2
    · exact ⟨_, h1, by assumption, Except.ok.inj h2⟩
    · cases h2
  · cases h2

example : Civil.Dos ⟨2000, 2, 29, 12, 34, 56⟩ := by constructor <;> decide

end Lha
