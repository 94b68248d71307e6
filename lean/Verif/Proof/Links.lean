import Verif.Proof.Names
import Verif.Proof.Methods
import Verif.Model.Extract
/-!
# The real name of a link always contains a NUL, so no link is ever made
-/

namespace Lha

open Spec

theorem getByte_small {d : List Nat} (hd : IsBytes d) {p b : Nat} (h : getByte d p = .ok b) : b < 256 := by
  unfold getByte at h
  split at h
  · cases h
    rw [List.getD_eq_getElem?_getD]
    cases hx : d[p]? with
    | none => simp
    | some x => exact hd x (List.mem_of_getElem? hx)
  · cases h

theorem zeroAt_length {l x : List Nat} {i : Nat} (h : zeroAt l i = .ok x) : x.length = l.length := by
  unfold zeroAt at h
  split at h
  · cases h
  · cases h; simp; omega

theorem getMany_length {d : List Nat} (n : Nat) : ∀ {p : Nat} {x : List Nat}, getMany d p n = .ok x → x.length = n := by
  induction n with
  | zero => intro p x h; cases h; rfl
  | succ n ih =>
    intro p x h
    unfold getMany at h
    obtain ⟨b, _, h⟩ := bind_ok h
    obtain ⟨r, hr, h⟩ := bind_ok h
    cases h
    rw [List.length_cons, ih hr]

theorem getBytes_length {d : List Nat} {p len size : Nat} {x : List Nat × Nat} (h : getBytes d p len size = .ok x) : x.1.length = len := by
  unfold getBytes at h
  obtain ⟨l, hl, h⟩ := bind_ok h
  cases h
  show (l ++ _).length = _
  rw [List.length_append, getMany_length _ hl, List.length_replicate]
  omega

theorem parseLevel0_small {h g : Hdr} {hs : Nat} {d : List Nat} (hd : IsBytes d) (hx : parseLevel0 h hs d = .ok (some g)) :
    g.name.length ≤ 256 ∧ g.realname = h.realname := by
  unfold parseLevel0 at hx
  obtain ⟨_, _, hx⟩ := bind_ok hx
  obtain ⟨_, _, hx⟩ := bind_ok hx
  obtain ⟨_, _, hx⟩ := bind_ok hx
  obtain ⟨_, _, hx⟩ := bind_ok hx
  obtain ⟨_, _, hx⟩ := bind_ok hx
  obtain ⟨_, _, hx⟩ := bind_ok hx
  obtain ⟨nl, hnl, hx⟩ := bind_ok hx
  obtain ⟨⟨nm, i⟩, hb, hx⟩ := bind_ok hx
  simp only [] at hx
  obtain ⟨nm', hz, hx⟩ := bind_ok hx
  have hm : nm'.length ≤ 256 := by
    have h1 := zeroAt_length hz
    have h2 : nm.length = nl + 1 := getBytes_length hb
    have h3 := getByte_small hd hnl
    omega
  split at hx
  · split at hx
    · cases hx; exact ⟨hm, rfl⟩
    · cases hx
  · obtain ⟨_, _, hx⟩ := bind_ok hx
    split at hx
    · cases hx; exact ⟨hm, rfl⟩
    · obtain ⟨_, _, hx⟩ := bind_ok hx
      split at hx
      · split at hx
        · obtain ⟨_, _, hx⟩ := bind_ok hx
          obtain ⟨_, _, hx⟩ := bind_ok hx
          obtain ⟨_, _, hx⟩ := bind_ok hx
          obtain ⟨_, _, hx⟩ := bind_ok hx
          obtain ⟨_, _, hx⟩ := bind_ok hx
          cases hx; exact ⟨hm, rfl⟩
        · cases hx; exact ⟨hm, rfl⟩
      · cases hx; exact ⟨hm, rfl⟩

theorem isBytes_append {a b : List Nat} (ha : IsBytes a) (hb : IsBytes b) : IsBytes (a ++ b) := by
  intro x hx
  rcases List.mem_append.mp hx with h | h
  · exact ha x h
  · exact hb x h

theorem isBytes_take {a : List Nat} (ha : IsBytes a) (n : Nat) : IsBytes (a.take n) := fun x hx => ha x (List.mem_of_mem_take hx)

theorem isBytes_drop {a : List Nat} (ha : IsBytes a) (n : Nat) : IsBytes (a.drop n) := fun x hx => ha x (List.mem_of_mem_drop hx)

theorem getLevel0_small {h g : Hdr} {d inp rest : List Nat} (hd : IsBytes d) (hi : IsBytes inp) (hx : getLevel0 h d inp = .ok (some (g, rest))) :
    g.name.length ≤ 256 ∧ g.realname = h.realname := by
  unfold getLevel0 at hx
  obtain ⟨hs, _, hx⟩ := bind_ok hx
  obtain ⟨sm, _, hx⟩ := bind_ok hx
  split at hx
  · cases hx
  · split at hx
    · cases hx
    · rename_i x r hr
      split at hx
      · cases hx
      · obtain ⟨y, hp, hx⟩ := bind_ok hx
        split at hx
        · cases hx
        · cases hx
          exact parseLevel0_small (isBytes_append hd (by rw [(readF_some hr).1]; exact isBytes_take hi _)) hp

theorem getLevel1_small {h g : Hdr} {d inp rest : List Nat} (hd : IsBytes d) (hi : IsBytes inp) (hx : getLevel1 h d inp = .ok (some (g, rest))) :
    g.name.length ≤ 256 ∧ g.realname = h.realname := by
  unfold getLevel1 at hx
  obtain ⟨hs, _, hx⟩ := bind_ok hx
  obtain ⟨sm, _, hx⟩ := bind_ok hx
  split at hx
  · cases hx
  · rename_i hlt
    split at hx
    · cases hx
    · rename_i x r hr
      split at hx
      · cases hx
      · simp only [] at hx
        obtain ⟨_, _, hx⟩ := bind_ok hx
        obtain ⟨_, _, hx⟩ := bind_ok hx
        obtain ⟨_, _, hx⟩ := bind_ok hx
        obtain ⟨_, _, hx⟩ := bind_ok hx
        obtain ⟨_, _, hx⟩ := bind_ok hx
        obtain ⟨_, _, hx⟩ := bind_ok hx
        obtain ⟨nl, hnl, hx⟩ := bind_ok hx
        obtain ⟨⟨nm, i⟩, hb, hx⟩ := bind_ok hx
        simp only [] at hx
        obtain ⟨nm', hz, hx⟩ := bind_ok hx
        have hm : nm'.length ≤ 256 := by
          have h1 := zeroAt_length hz
          have h2 : nm.length = nl := getBytes_length hb
          have h3 := getByte_small (isBytes_append hd (by rw [(readF_some hr).1]; exact isBytes_take hi _)) hnl
          omega
        obtain ⟨_, _, hx⟩ := bind_ok hx
        obtain ⟨_, _, hx⟩ := bind_ok hx
        obtain ⟨_, _, hx⟩ := bind_ok hx
        split at hx
        · obtain ⟨y, hy, hx⟩ := bind_ok hx
          cases y with
          | none => cases hx
          | some y => exact absurd hy (extLoop_never _ _ _ _ _ (by show hs ≠ 0; omega))
        · cases hx
          exact ⟨hm, rfl⟩

/-- The buffer for the real name: 1024 bytes, the last of them never written. -/
def RealOk (h : Hdr) : Prop := h.realname.length = 1024 ∧ h.realname.getLast? = some 0

theorem RealOk.nul {h : Hdr} (hr : RealOk h) : 0 ∈ h.realname := List.mem_of_getLast? hr.2

theorem RealOk.new : RealOk newHdr := ⟨(List.length_replicate : (List.replicate 1024 0).length = 1024), (List.getLast?_replicate (n := 1024) (a := 0)).trans (if_neg (by decide))⟩

theorem copyInto_last {d x : List Nat} (hx : x.length < d.length) : (copyInto d x).length = d.length ∧ (copyInto d x).getLast? = d.getLast? := by
  unfold copyInto
  rw [List.take_of_length_le (by omega)]
  refine ⟨by simp; omega, ?_⟩
  rw [List.getLast?_append_of_ne_nil _ (by simp; omega)]
  rw [List.getLast?_drop, if_neg (by omega)]

theorem finishHdr_real {f : Fmt} {h g : Hdr} {rest rest' : List Nat} (hn : h.name.length ≤ 256) (hr : RealOk h)
    (hx : finishHdr f h rest = .got g rest') : RealOk g := by
  have hl : ∀ (a b : List Nat) (c : CaseTo), (convertFilename true a b c h.name).length ≤ 256 := by
    intro a b c
    unfold convertFilename
    simpa using hn
  have hc : ∀ (a b : List Nat) (c : CaseTo) (k p : Nat), (copyInto h.realname (((convertFilename true a b c h.name).take k).drop p)).length = 1024 ∧
      (copyInto h.realname (((convertFilename true a b c h.name).take k).drop p)).getLast? = some 0 := by
    intro a b c k p
    have := hl a b c
    obtain ⟨h1, h2⟩ := copyInto_last (d := h.realname) (x := ((convertFilename true a b c h.name).take k).drop p) (by
      rw [hr.1, List.length_drop, List.length_take]; omega)
    exact ⟨h1.trans hr.1, h2.trans hr.2⟩
  unfold finishHdr at hx
  simp only [] at hx
  split at hx
  · split at hx
    · cases hx; exact hc _ _ _ _ _
    · cases hx
  · cases hx; exact hr

/-- Reading a header leaves the end of the buffer alone. -/
theorem getHeader_real {f : Fmt} {tab : Arr} {h g : Hdr} {inp rest : List Nat} (hi : IsBytes inp) (hr : RealOk h)
    (hx : getHeader f tab h inp = .ok (.got g rest)) : RealOk g ∧ IsBytes rest := by
  refine ⟨?_, ?_⟩
  · unfold getHeader at hx
    split at hx
    · cases hx
    · rename_i b inp
      split at hx
      · cases hx
      · split at hx
        · cases hx
        · rename_i x r hr1
          simp only [] at hx
          obtain ⟨y, hy, hx⟩ := bind_ok hx
          split at hx
          · cases hx
          · rename_i h1 r1
            have hx := Except.ok.inj hx
            have hin : IsBytes inp := fun x hx => hi x (List.mem_cons_of_mem _ hx)
            have hdd : IsBytes (b :: x ++ List.replicate (20 - x.length) 0) := by
              refine isBytes_append ?_ (fun z hz => by rw [List.eq_of_mem_replicate hz]; omega)
              intro z hz
              rcases List.mem_cons.mp hz with rfl | hz
              · exact hi _ List.mem_cons_self
              · rw [(readF_some hr1).1] at hz; exact isBytes_take hin _ z hz
            have hrr : IsBytes r := by rw [(readF_some hr1).2]; exact isBytes_drop hin _
            have key : h1.name.length ≤ 256 ∧ h1.realname = h.realname := by
              unfold byLevel at hy
              split at hy
              · exact getLevel0_small hdd hrr hy
              · exact getLevel1_small hdd hrr hy
              · rcases getLevel2_never tab _ r with e | e <;> rw [e] at hy <;> cases hy
              · rcases getLevel3_never tab _ r with e | e <;> rw [e] at hy <;> cases hy
              · cases hy
            exact finishHdr_real key.1 (by unfold RealOk; rw [key.2]; exact hr) hx
  · obtain ⟨_, k, _, rfl⟩ := getHeader_got hx
    exact isBytes_drop hi _

/-- What every decoder leaves of the input is the end of the input. -/
theorem decodeLzhuf_drop {tab : Arr} {m : Nat} {h : Hf} {o p : Nat} {inp : List Nat} {d : DecOut}
    (hd : decodeLzhuf (others tab) tab m h o p inp = .ok d) : ∃ k, d.rest = inp.drop k := by
  unfold decodeLzhuf at hd
  split at hd
  · obtain ⟨⟨x, n, r⟩, h1, hd⟩ := bind_ok hd
    cases hd
    unfold copyfile at h1
    split at h1
    · obtain ⟨_, _, h1⟩ := bind_ok h1
      cases h1
      exact ⟨inp.length, by simp⟩
    · cases h1
      exact ⟨0, rfl⟩
  · split at hd
    · exact ⟨_, (decodeSt1_adv hd).1⟩
    · split at hd
      · exact ⟨_, (decodeSt1_adv hd).1⟩
      · split at hd
        · exact ⟨_, (decodeSt1_adv hd).1⟩
        · split at hd
          · exact ⟨_, (decodeSt1_adv hd).1⟩
          · exact others_rest m h o p inp d hd

end Lha
