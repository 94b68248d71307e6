import Verif.Props.C11
import Verif.Props.C12
import Verif.Props.C86
/-!
# C87: with an error `DecompresBytes` returns no unverified data

False: when the checksum is wrong, what has already left the buffer of `bufio.Writer` is returned together with the error.
-/

namespace Lha

open Spec

/-- A body of more than 4096 bytes that is written in one piece does not stay in the buffer. -/
theorem unflushed_direct {m : Nat} (hm : m = 5 ∨ m = 6 ∨ m = 7) {D : List Nat} (h1 : 4096 < D.length) (h2 : D.length < 8192) : unflushed m D = D := by
  have hk : bufLeft (pieceOf m) D.length = 0 := by
    have hp : 8192 ≤ pieceOf m := by rcases hm with rfl | rfl | rfl <;> decide
    unfold bufLeft
    rw [Nat.div_eq_of_lt (by omega), Nat.mod_eq_of_lt (by omega)]
    unfold bufFull bufStep
    rw [if_neg (by omega), if_pos rfl]
  unfold unflushed
  rw [hk, Nat.sub_zero, List.take_length]

/-- **C87 is false**: take the entry `CompressBytes` would write for any body of 4097 to 8191 bytes that gets smaller (methods 5, 6, 7) and put any wrong checksum `c` into
its header.  `DecompresBytes` returns an error, and with it the whole content, whose checksum is not the one in the header. -/
theorem C87_false (f : Fmt) (oth : Oth) (tab : Arr) (ht : makeCrcTable = .ok tab) (m : Nat) (hm : m = 5 ∨ m = 6 ∨ m = 7) (g : Geo)
    (hg : geoOf m = some g) (p : Proc) (hp : ProcOk g p) (body : List Nat) (hD : IsBytes body) (h1 : 4096 < body.length) (h2 : body.length < 8192)
    (r : EncOut) (hr : encode g tab p body.length body = .ok (some r)) (hlt : r.packed < r.original)
    (c : Nat) (hc : c < 2 ^ 16) (hcc : c ≠ crc16 0 body) (hf : Hf) (hok : HfOk hf) :
    ∃ a h hf', getHeader f tab newHdr a = .ok (.got h (r.out ++ [0])) ∧ h.hasCrc = true ∧ h.crc = c ∧
      decompresBytes f oth tab false h.name hf (some a) = .ok ⟨true, body, hf'⟩ := by
  have hne : body ≠ [] := by intro h; rw [h] at h1; cases h1
  obtain ⟨tab', ht1, ht2⟩ := makeCrcTable_ok
  rw [ht1] at ht
  cases ht
  obtain ⟨p1, p2, p3, p4⟩ := packed_decodes oth ht2 hm hg hp hD hne (fun _ => by omega) hr hlt
  obtain ⟨hf', _, hdec⟩ := p4 hf [0] hok
  obtain ⟨i1, i2, i3, i4, i5, i6, i7, i8, i9⟩ := initHeader_facts ⟨0, 0o644, 0, 0, fun _ => ⟨1970, 1, 1, 0, 0, 0⟩⟩ (by decide) [97] 0
  generalize initHeader ⟨0, 0o644, 0, 0, fun _ => ⟨1970, 1, 1, 0, 0, 0⟩⟩ 0 [97] 0 false = h0 at *
  have ho := packed_entry m hm h0 i1 i3 i4 i5 r (by rw [p1]; omega) hlt c hc
  obtain ⟨h, n, d1, d2, d3, d4, d5, d6, d7⟩ := extract_one f oth tab 0 _ m ho r.out body (crc16 0 body) hf hf' hdec ⟨fun _ => true, fun _ => false⟩ (fun _ => rfl)
  obtain ⟨d8, d9⟩ := d7 (Ne.symm hcc)
  rw [unflushed_direct hm h1 h2] at d9
  exact ⟨_, h, hf', by rw [List.append_assoc] at d2 ⊢; exact d2, d4, d3, d9⟩

/-- **C87**, the part that holds.  (Full statement: the same without the bound of 4096 bytes, and for stored entries, see C11.)  Whatever the archive file contains and
whether an error is returned or not: if `DecompresBytes` returns less than 4096 bytes, then none at all, or they are the content of an entry of that name whose checksum,
unless it is a stored one (lh0, lz4, pm0), is that in the header of the entry. -/
theorem C87_short_partial (f : Fmt) (tab : Arr) (ht : makeCrcTable = .ok tab) (sfx : Bool) (want : List Nat) (hf : Hf) (a : List Nat)
    (r : ReadOut) (hr : decompresBytes f (others tab) tab sfx want hf (some a) = .ok r) (hs : r.data.length < 4096) :
    r.data = [] ∨ Verified f tab a want r.data := by
  obtain ⟨tab', ht1, ht2⟩ := makeCrcTable_ok
  have ht' := ht
  rw [ht1] at ht'
  cases ht'
  exact decompresBytes_verified f (others tab) (fun m h o p inp d hd => others_crc ht2 m h o p inp d hd)
    (fun m h o p inp d hd => others_rest m h o p inp d hd) tab ht sfx want hf a r hr (Or.inr hs)

/-- The hypotheses are met: 5000 times `A` gets smaller, and its checksum is not both 0 and 1. -/
example (tab : Arr) (ht : makeCrcTable = .ok tab) : ∃ r c, encode ⟨13, 256⟩ tab Proc.fresh 5000 (List.replicate 5000 65) = .ok (some r) ∧
    r.packed < r.original ∧ IsBytes (List.replicate 5000 65) ∧ c < 2 ^ 16 ∧ c ≠ crc16 0 (List.replicate 5000 65) := by
  have hb : IsBytes (List.replicate 5000 65) := by
    intro x hx
    rw [List.eq_of_mem_replicate hx]
    decide
  have hl : (List.replicate 5000 65).length = 5000 := List.length_replicate
  have hfirst : (List.replicate 5000 65).getD 0 0 &&& 32 = 0 := by
    rw [List.getD_eq_getElem?_getD, List.getElem?_replicate, if_pos (by omega)]
    decide
  have hper : Periodic 1 (List.replicate 5000 65) := by
    intro i hi
    rw [List.length_replicate] at hi
    rw [List.getD_eq_getElem?_getD, List.getD_eq_getElem?_getD, List.getElem?_replicate, List.getElem?_replicate, if_pos hi, if_pos (by omega)]
  have hp : ∀ g, geoOf 5 = some g → ProcOk g Proc.fresh := fun g _ => ⟨by constructor <;> rfl, Or.inl rfl⟩
  have hk := C86_packs tab ht 5 (Or.inl rfl) Proc.fresh hp _ hb 1 (Nat.le_refl 1) (by decide) hper (by rw [hl]; omega)
  obtain ⟨tab', ht1, ht2⟩ := makeCrcTable_ok
  have ht' := ht
  rw [ht1] at ht'
  cases ht'
  obtain ⟨r, hr, _⟩ := encode_ok (g := ⟨13, 256⟩) (Or.inl rfl) ht2 (p := Proc.fresh) (hp _ rfl) 5000 hb
    (by intro h; rw [h] at hl; cases hl) hfirst
  refine ⟨r, if crc16 0 (List.replicate 5000 65) = 0 then 1 else 0, hr, hk _ r rfl (by rw [hl]; exact hr), hb, ?_, ?_⟩
  · split <;> decide
  · split
    · rename_i h; rw [h]; decide
    · rename_i h; exact fun h' => h h'.symm

end Lha
