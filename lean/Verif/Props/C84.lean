import Verif.Model.Text
import Verif.Spec.Text
import Verif.Proof.Codec
import Verif.Props.C64
import Verif.Proof.Archive
/-!
# C84: texts archived with `TextMode` are in the archive
-/

namespace Lha

open Spec

/-- What `freadTxt` stores is the beginning of the text with its line ends converted, and everything if there is less than asked for. -/
theorem freadTxt_eq (n : Nat) : ∀ (inp : List Nat) (cache : Option Nat), (∀ c, cache = some c → c = 10) →
    (freadTxt n inp cache).1 = (cache.toList ++ crlf inp).take n ∧
    ((freadTxt n inp cache).2.2.2 = true ↔ n ≤ (cache.toList ++ crlf inp).length) ∧
    ((freadTxt n inp cache).2.2.2 = false → (freadTxt n inp cache).2.1 = [] ∧ (freadTxt n inp cache).2.2.1 = none) := by
  induction n with
  | zero => intro inp cache _; exact ⟨by simp [freadTxt], by simp [freadTxt], by simp [freadTxt]⟩
  | succ n ih =>
    intro inp cache hc
    cases cache with
    | some c =>
      obtain ⟨h1, h2, h3⟩ := ih inp none (by simp)
      refine ⟨?_, ?_, h3⟩
      · simp only [freadTxt]; rw [h1]; simp
      · simp only [freadTxt]; rw [h2]; simp
    | none =>
      cases inp with
      | nil => exact ⟨by simp [freadTxt, crlf], by simp [freadTxt, crlf], by simp [freadTxt]⟩
      | cons x xs =>
        by_cases hx : x = 10
        · subst hx
          obtain ⟨h1, h2, h3⟩ := ih xs (some 10) (by simp)
          simp only [freadTxt, if_true]
          have e : crlf (10 :: xs) = 13 :: 10 :: crlf xs := by simp [crlf]
          refine ⟨?_, ?_, h3⟩
          · rw [h1, e]; simp
          · rw [h2, e]; simp
        · obtain ⟨h1, h2, h3⟩ := ih xs none (by simp)
          simp only [freadTxt, if_neg hx]
          have e : crlf (x :: xs) = x :: crlf xs := by simp [crlf, hx]
          refine ⟨?_, ?_, h3⟩
          · rw [h1, e]; simp
          · rw [h2, e]; simp

theorem encodeStart_some (dicbit : Nat) (h : Hf) (hok : HfOk h) (hbuf : h.buf.size = 65535) (w : BW) : ∃ e, encodeStartSt1 dicbit ⟨h, w⟩ = .ok e := by
  have hs : (setNp dicbit h).cFreq = h.cFreq ∧ (setNp dicbit h).pFreq = h.pFreq ∧ (setNp dicbit h).buf = h.buf := by
    unfold setNp
    split
    · exact ⟨rfl, rfl, rfl⟩
    · split
      · exact ⟨rfl, rfl, rfl⟩
      · split <;> exact ⟨rfl, rfl, rfl⟩
  unfold encodeStartSt1
  obtain ⟨cf, f1, _, _⟩ := fillRange_ok 0 510 0 h.cFreq (by rw [hok.cFreq]; omega)
  obtain ⟨pf, g1, _, _⟩ := fillRange_ok 0 17 0 h.pFreq (by rw [hok.pFreq]; omega)
  simp only [hs.1, hs.2.1, hs.2.2]
  rw [f1, ok_bind, g1, ok_bind, wr_ok (by omega), ok_bind]
  exact ⟨_, rfl⟩

/-- The bytes the first read asks for: the window and the longest match. -/
def firstRead (m : Nat) : Nat := if m = 1 then 4156 else if m = 5 then 8448 else if m = 6 then 33024 else 65792

/-- The header of an entry without data. -/
def lostHdr (h : Hdr) (m n : Nat) : Hdr := { h with crc := 0, method := methodStr m, originalSize := n, packedSize := 0 }

/-- **C84 is false.**  With `TextMode`, every text that is shorter than the first read (with its line ends converted; 8 KiB for lh5) is lost: `CompressBytes` reports success, but
the archive consists of a header and the end mark, and the only thing it says about the text is its length.  For all methods that compress, all texts, any state of the
process. -/
theorem C84_lost (f : Fmt) (tab : Arr) (e : Env) (hperm : e.perm < 512) (m : Nat) (hm : m = 1 ∨ m = 5 ∨ m = 6 ∨ m = 7) (archive name body : List Nat) (hname : name ≠ archive)
    (hne : body ≠ []) (hshort : (crlf body).length < firstRead m) (p : Proc) (hp : ∀ g, geoOf m = some g → ProcOk g p) :
    ∃ p', compressBytesTxt f tab e m 0 archive name body txtCache p =
      .ok (⟨false, some (writeLevel0 f (e.gst (initHeader e 0 name body.length false).stamp)
        (lostHdr (initHeader e 0 name body.length false) m body.length) (((initHeader e 0 name body.length false).name ++ [0]).map (wByte f)) ++ [0]), [], p'⟩, txtCache) := by
  obtain ⟨g, hg, hfr⟩ : ∃ g, geoOf m = some g ∧ g.txtsiz - g.dicsiz = firstRead m := by
    rcases hm with rfl | rfl | rfl | rfl <;> exact ⟨_, rfl, rfl⟩
  obtain ⟨b, hf, a1, a2, a3, a4⟩ := allocBufs_ok (hp g hg)
  obtain ⟨hpos, b1, _, _⟩ := fillAll_ok 32768 0 b.hpos (by rw [a2.hpos])
  obtain ⟨hflag, b2, _, _⟩ := fillAll_ok 32768 0 b.hflag (by rw [a2.hflag])
  obtain ⟨text, b3, b4, _⟩ := fillAll_ok (g.txtsiz + 1) 32 b.text a2.text
  obtain ⟨e0, b5⟩ := encodeStart_some g.dicbit hf a3 a4 ⟨[], 0, body.length, 0, 0, false⟩
  obtain ⟨c1, c2, c3⟩ := freadTxt_eq (firstRead m) body none (by simp)
  have hfull : (freadTxt (firstRead m) body none).2.2.2 = false := by
    cases hb : (freadTxt (firstRead m) body none).2.2.2 with
    | false => rfl
    | true => have := c2.1 hb; simp at this; omega
  obtain ⟨c4, c5⟩ := c3 hfull
  have hlen : body.length ≠ 0 := fun e => hne (List.length_eq_zero_iff.mp e)
  obtain ⟨text', b6, _, _⟩ := wrList_ok (freadTxt (firstRead m) body none).1 g.dicsiz text (by
    rw [c1, List.length_take, b4]
    have := a2.text
    have : g.dicsiz ≤ g.txtsiz := by unfold Geo.txtsiz; omega
    omega)
  obtain ⟨i1, i2, i3, i4, i5, i6, i7, i8, i9⟩ := initHeader_facts e hperm name body.length
  have henc : ∃ q, encodeLzhufTxt m tab p none body.length body = .ok (⟨[], body.length, 0, 0, methodStr m, [], q⟩, none) := by
    unfold encodeLzhufTxt
    simp only [hg, a1, hfr]
    rw [b5, ok_bind, b1, ok_bind, b2, ok_bind, b3, ok_bind]
    unfold freadTextT
    rcases hr : freadTxt (firstRead m) body none with ⟨got, rest, cache, full⟩
    rw [hr] at b6 hfull c4 c5
    simp only [] at b6 hfull c4 c5 ⊢
    subst hfull c4 c5
    rw [b6, ok_bind, if_neg (by simp), ok_bind, ok_bind]
    simp only [if_true]
    unfold percent
    rw [if_neg hlen]
    exact ⟨_, rfl⟩
  obtain ⟨q, hq⟩ := henc
  refine ⟨q, ?_⟩
  unfold compressBytesTxt txtCache
  rw [if_neg hname]
  generalize initHeader e 0 name body.length false = h0 at *
  unfold addOneTxt
  rw [writeHeader_level0 f tab _ h0 i1 i5]
  simp only [ok_bind]
  rw [if_neg (by rw [i6]; exact hlen), i6, hq]
  simp only [ok_bind]
  rw [if_pos (by omega), writeHeader_level0 f tab _ _ (by exact i1) (by exact i5)]
  simp only [ok_bind, Option.getD_some, List.nil_append]
  rw [overwrite_eq, List.append_nil]
  · rfl
  · exact writeLevel0_length f _ _ h0 (lostHdr h0 m body.length) _ (by rw [i2]; rfl) rfl

/-- So two texts of the same length give the same archive. -/
theorem C84_false (f : Fmt) (tab : Arr) (e : Env) (hperm : e.perm < 512) (m : Nat) (hm : m = 1 ∨ m = 5 ∨ m = 6 ∨ m = 7) (archive name : List Nat) (hname : name ≠ archive)
    (x y : List Nat) (hx : x ≠ []) (hxy : x.length = y.length) (h1 : (crlf x).length < firstRead m) (h2 : (crlf y).length < firstRead m)
    (p : Proc) (hp : ∀ g, geoOf m = some g → ProcOk g p) :
    ∃ a c c', compressBytesTxt f tab e m 0 archive name x txtCache p = .ok (c, txtCache) ∧ c.err = false ∧ c.archive = some a ∧
      compressBytesTxt f tab e m 0 archive name y txtCache p = .ok (c', txtCache) ∧ c'.err = false ∧ c'.archive = some a := by
  obtain ⟨p1, k1⟩ := C84_lost f tab e hperm m hm archive name x hname hx h1 p hp
  obtain ⟨p2, k2⟩ := C84_lost f tab e hperm m hm archive name y hname (by intro h; subst h; exact hx (List.length_eq_zero_iff.mp hxy)) h2 p hp
  rw [← hxy] at k2
  exact ⟨_, _, _, k1, rfl, rfl, k2, rfl, rfl⟩

/-- The hypotheses are met: `Hello` and a line feed, in a fresh process, and another text of six letters. -/
example : [72, 101, 108, 108, 111, 10] ≠ [] ∧ (crlf [72, 101, 108, 108, 111, 10]).length < firstRead 5 ∧ [72, 101, 108, 108, 111, 10].length = [65, 65, 65, 65, 65, 65].length ∧
    (∀ g, geoOf 5 = some g → ProcOk g Proc.fresh) := by
  refine ⟨by decide, by decide, rfl, ?_⟩
  intro g hg
  cases hg
  exact ⟨by constructor <;> rfl, Or.inl rfl⟩

theorem addOneTxt_same (f : Fmt) (tab : Arr) (e : Env) (m : Nat) (h : Hdr) (body : List Nat) (cache : Option Nat) (st : AddSt) (hc : geoOf m = none ∨ h.originalSize = 0) :
    addOneTxt f tab e m h body cache st = (addOne f tab e m h body st).map fun st => (st, cache) := by
  unfold addOneTxt addOne
  cases writeHeader f tab (e.gst h.stamp) h with
  | error x => rfl
  | ok w =>
    simp only [ok_bind]
    by_cases h0 : h.originalSize = 0
    · rw [if_pos h0, if_pos h0]; rfl
    · rw [if_neg h0, if_neg h0]
      rcases hc with hc | hc
      · unfold encodeLzhufTxt
        simp only [hc]
        cases encodeLzhuf m tab st.proc h.originalSize body with
        | error x => rfl
        | ok r =>
          simp only [ok_bind]
          by_cases hlt : r.packed < r.original
          · rw [if_pos hlt, if_pos hlt]
            cases writeHeader f tab (e.gst h.stamp) { h with crc := r.crc, method := r.method, originalSize := r.original, packedSize := r.packed } with
            | error x => rfl
            | ok w => rfl
          · rw [if_neg hlt, if_neg hlt]
            cases copyfile h.originalSize r.rest with
            | error x => rfl
            | ok c =>
              simp only [ok_bind]
              cases writeHeader f tab (e.gst h.stamp) { h with crc := 0, method := lh0, originalSize := c.2.1, packedSize := c.2.1 } with
              | error x => rfl
              | ok w => rfl
      · exact absurd hc h0

/-- **C84 (partial).**  Full statement: with `TextMode`, `CompressBytes` archives the text with its line ends converted.  What holds: methods that do not compress (0, and
those `encodeAlloc` turns into 0) and empty texts are treated as without `TextMode`: nothing is converted, and nothing is lost that would not be lost without it. -/
theorem C84_partial (f : Fmt) (tab : Arr) (e : Env) (m level : Nat) (archive name body : List Nat) (hname : name ≠ archive) (cache : Option Nat) (p : Proc)
    (h : geoOf m = none ∨ body = []) :
    (compressBytesTxt f tab e m level archive name body cache p).map (fun r => some r.1) = compressBytes f tab e m level archive name body none p := by
  have hone := addOneTxt_same f tab e m (initHeader e level name body.length false) body cache ⟨[], none, p⟩ (by
    rcases h with h | h
    · exact Or.inl h
    · subst h; exact Or.inr rfl)
  unfold compressBytesTxt compressBytes commandAdd
  rw [if_neg hname, if_neg (by simp), hone]
  unfold addItems appendTimes appendOne
  simp only [hname, if_false, timesAdded, if_true]
  cases hx : addOne f tab e m (initHeader e level name body.length false) body ⟨[], none, p⟩ with
  | error x => rfl
  | ok st =>
    have hold : st.old = none := by
      have := addOne_old f tab e m (initHeader e level name body.length false) body [] p none none
      rw [hx] at this
      have := Except.ok.inj this
      rw [this]
    simp only [ok_bind, Except.map]
    unfold appendTimes addItems copyTail
    simp only [ok_bind]
    rw [hold]
    rfl

/-- Methods that do not compress. -/
example : geoOf 0 = none ∧ geoOf 4 = none := ⟨rfl, rfl⟩

end Lha
