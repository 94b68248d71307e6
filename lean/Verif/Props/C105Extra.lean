import Verif.Props.C105
import Verif.Props.C52Extra
/-!
# C105: archives of level-1 entries with extended areas
-/

namespace Lha

open Spec

/-- Reading the header of a level-1 entry with an extended area, whatever the header was used for before. -/
theorem padded_parse (f : Fmt) (tab : Arr) (e : Entry1) (hb : Bare e) (X : List Nat) (hX : e.name.length + X.length ≤ 230) (h : Hdr) (hm : h.method.length = 5)
    (hn : e.name.length ≤ h.name.length) (R : List Nat) :
    ∃ g, getHeader f tab h (e.padded X ++ R) = .ok (.got g (e.packed ++ R)) ∧ Read1 f e g := by
  have ho := hb.ok
  have hpk := ho.packed
  rw [hb.exts] at hpk
  have hpk' : e.packed.length < 2 ^ 32 := by simpa [extChain] using hpk
  generalize hB : e.body ++ X ++ [0, 0] = B
  have hB' : B = e.method ++ le32 e.packed.length ++ le32 e.content.length ++ le32 e.dosTime ++
      [e.attr, 1, e.name.length] ++ e.name ++ le16 e.crc ++ [e.os] ++ X ++ le16 0 := by
    rw [← hB]; unfold Entry1.body; simp only [le_four, le_two, hb.exts]; rfl
  have hlen : B.length = 25 + e.name.length + X.length := by rw [hB']; simp [le32, le16, ho.method]; omega
  have hlv : B.getD 18 0 = 1 := by
    have : B = (e.method ++ le32 e.packed.length ++ le32 e.content.length ++ le32 e.dosTime ++ [e.attr]) ++
        (1 :: (e.name.length :: e.name ++ le16 e.crc ++ [e.os] ++ X ++ le16 0)) := by
      rw [hB']; simp
    rw [this, List.getD_eq_getElem?_getD, List.getElem?_append_right (by simp [le32, ho.method])]
    simp [le32, ho.method]
  have hbs : e.padded X ++ R = B.length :: B.sum % 256 :: B ++ (e.packed ++ R) := by
    unfold Entry1.padded
    rw [hB]
    simp
  rw [hbs, getHeader_level1 f tab h _ _ B _ rfl (by omega) hlv,
    getLevel1_extra h B.length _ e.method _ _ _ _ e.name e.crc e.os X _ ho.method hm hX hn B hB' rfl rfl,
    zeroAt_last hb.name, ok_bind, ok_bind]
  simp only []
  have hff : 0xff ∉ e.name.dropLast := fun h => hb.ff (List.dropLast_subset _ h)
  have hsm : isSymlinkMode 0o100666 = false := by decide
  have hp : e.packed.length % 4294967296 = e.packed.length := Nat.mod_eq_of_lt (by omega)
  have hc := Nat.mod_eq_of_lt ho.content
  have hcr := Nat.mod_eq_of_lt ho.crc
  have hdt := Nat.mod_eq_of_lt ho.dosTime
  by_cases h55 : e.os = 0x55
  · rw [finishHdr_unix f _ e.name.dropLast rfl hff (by show e.os = _; exact h55) hsm]
    exact ⟨_, rfl, rfl, hp, hc, by unfold Entry1.cut; rw [if_pos h55], hcr, rfl, rfl, rfl, rfl, hdt, rfl⟩
  · rw [finishHdr_name f _ ⟨e.method, e.name.dropLast, [], [], 0, 0, 0, [e.os]⟩ rfl hff (Or.inl rfl) (by show e.os ≠ _; exact h55) hsm]
    exact ⟨_, rfl, rfl, hp, hc, by unfold Entry1.cut; rw [if_neg h55], hcr, rfl, rfl, rfl, rfl, hdt, rfl⟩

theorem Kept1.lists_padded {f : Fmt} {tab : Arr} (ht : makeCrcTable = .ok tab) {e : Entry1} (h : Kept1 f e) (X : List Nat) (hX : e.name.length + X.length ≤ 230) :
    Lists f tab (e.padded X) (Read1 f e) := by
  refine verified_lists f tab (packed := e.packed) ?_
  intro hf T hok
  obtain ⟨g, e1, S⟩ := padded_parse f tab e h.bare X hX newHdr newHdr_method (by rw [newHdr_name]; omega) T
  have hname := S.entryName h.osk
  have hreg : fileType g.mode = 0o100000 := by rw [S.mode]; decide
  obtain ⟨m, hidx, hp⟩ := h.packed
  obtain ⟨hf1, ok1, hdec⟩ := hp.decodes ht hf hok T
  refine ⟨g, ⟨e.packed.length, T, hf1, g.name, none⟩, e1, S.packed, S, ?_, ok1, rfl, Or.inl ⟨rfl, rfl⟩⟩
  unfold verifyOne
  rw [hname, ok_bind]
  simp only [S.method, hidx]
  rw [if_pos ⟨hreg, hp.ndir⟩, S.original, S.packed, hdec, ok_bind]
  simp only []
  rw [if_neg (by rw [S.crc, h.crc]; simp)]

theorem padded_count (l : List (Entry1 × List Nat)) (t : List Nat) : l.length ≤ (l.flatMap (fun x => x.1.padded x.2) ++ t).length := by
  induction l with
  | nil => simp
  | cons x l ih =>
    rw [List.flatMap_cons, List.append_assoc, List.length_append, List.length_cons]
    have : 0 < (x.1.padded x.2).length := by simp [Entry1.padded]
    omega

/-- **C105 (partial), extended areas.**  Full statement: `Headers` lists every entry of an archive with level-1 headers with the name, sizes, checksum and time recorded.
Proved without extended headers, for all systems and whatever bytes are in the extended areas: every entry is listed, with the right sizes, checksum and method, but the
last byte of the name is missing. -/
theorem C105_extra_partial (f : Fmt) (tab : Arr) (ht : makeCrcTable = .ok tab) (l : List (Entry1 × List Nat))
    (hl : ∀ x ∈ l, Kept1 f x.1 ∧ x.1.name.length + x.2.length ≤ 230) (t : List Nat) (htl : Tail t) (hf : Hf) (hok : GOk hf) :
    ∃ hs hf', GOk hf' ∧ headers f (others tab) tab Opts.default hf (some (l.flatMap (fun x => x.1.padded x.2) ++ t)) = .ok ⟨false, hs, hf'⟩ ∧
      List.Forall₂ (fun x g => Read1 f x.1 g) l hs := by
  have hlen := padded_count l t
  obtain ⟨k, hs, hf', k1, k2, k3, k4⟩ := lists_loop (f := f) (tab := tab) (fun x : Entry1 × List Nat => x.1.padded x.2) (fun x => Read1 f x.1) t l
    ((l.flatMap (fun x => x.1.padded x.2) ++ t).length + 1) hf [] (by omega) (fun x hx => (hl x hx).1.lists_padded ht x.2 (hl x hx).2) hok
  obtain ⟨k, rfl⟩ : ∃ j, k = j + 1 := ⟨k - 1, by omega⟩
  refine ⟨hs, hf', k2, ?_, k3⟩
  unfold headers
  simp only []
  rw [k4]
  unfold headersLoop
  rcases tail_end f tab newHdr htl with e | e <;> rw [e, ok_bind] <;> simp

/-- Case covered: `x/ab` with two bytes in the extended area and `Qc` with none are listed, as `x/a` and `q`. -/
example (tab : Arr) (ht : makeCrcTable = .ok tab) (hf : Hf) (hok : GOk hf) : ∃ hs hf', headers ⟨false, true⟩ (others tab) tab Opts.default hf
    (some ([(full1 [120, 47, 97, 98], [5, 6]), (void1 [81, 99], [])].flatMap (fun x => x.1.padded x.2) ++ [0])) = .ok ⟨false, hs, hf'⟩ ∧
    hs.map (·.name) = [[120, 47, 97, 0], [113, 0]] := by
  obtain ⟨hs, hf', _, h, P⟩ := C105_extra_partial ⟨false, true⟩ tab ht [(full1 [120, 47, 97, 98], [5, 6]), (void1 [81, 99], [])]
    (by
      intro x hx
      simp only [List.mem_cons, List.not_mem_nil, or_false] at hx
      rcases hx with rfl | rfl
      · exact ⟨full1_kept _ _ (by decide) (by decide) (by decide) (by decide), by decide⟩
      · exact ⟨void1_kept _ _ (by decide) (by decide) (by decide) (by decide), by decide⟩) [0] (Or.inr ⟨[], rfl⟩) hf hok
  refine ⟨hs, hf', h, ?_⟩
  cases P with
  | cons a P => cases P with
    | cons b P =>
      cases P
      simp only [List.map_cons, List.map_nil]
      rw [a.name, b.name]
      decide

end Lha
