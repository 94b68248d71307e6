import Verif.Model.Cli
import Verif.Proof.Entry
import Verif.Proof.Extract
import Verif.Props.C15
/-!
# The command line program
-/

namespace Lha

open Spec

/-- The contents begin with a level-2 header as it is written. -/
def Starts2 (f : Fmt) (tab : Arr) (l : List Nat) : Prop :=
  ∃ gst h b R, h.level = 2 ∧ writeHeader f tab gst h = .ok (some b) ∧ l = b ++ R

theorem Starts2.append {f : Fmt} {tab : Arr} {l : List Nat} (h : Starts2 f tab l) (r : List Nat) : Starts2 f tab (l ++ r) := by
  obtain ⟨gst, h, b, R, h1, h2, h3⟩ := h
  exact ⟨gst, h, b, R ++ r, h1, h2, by rw [h3, List.append_assoc]⟩

theorem Starts2.panics {f : Fmt} {tab : Arr} {l : List Nat} (hs : Starts2 f tab l) (b : Bool) (g : Hdr) :
    getHeader ⟨b, f.convertCase⟩ tab g l = .error .panic := by
  obtain ⟨gst, h, w, R, h1, h2, h3⟩ := hs
  have : getHeader ⟨b, f.convertCase⟩ tab g l = getHeader f tab g l := rfl
  rw [this, h3]
  exact C15_false f tab gst h g w R h1 h2

theorem Starts2.ne_nil {f : Fmt} {tab : Arr} {l : List Nat} (hs : Starts2 f tab l) : l ≠ [] := by
  intro hl
  have := hs.panics f.generic newHdr
  rw [hl] at this
  cases this

/-- `WriteHeader` reports no error for a file that is not a symbolic link. -/
theorem writeHeader_some {f : Fmt} {tab : Arr} {gst : Nat} {h : Hdr} (hl : h.level = 2) (hs : isSymlinkMode h.mode = false) {w : Option (List Nat)}
    (hw : writeHeader f tab gst h = .ok w) : ∃ b, w = some b := by
  unfold writeHeader at hw
  simp only [hl, hs] at hw
  rw [if_neg (by simp), if_neg (by omega), if_neg (by omega), if_pos trivial] at hw
  obtain ⟨d, _, h2⟩ := bind_ok hw
  cases h2
  exact ⟨d, rfl⟩

theorem addOne_starts2 {f : Fmt} {tab : Arr} {e : Env} {m : Nat} {h : Hdr} (hl : h.level = 2) (hs : isSymlinkMode h.mode = false) {body : List Nat}
    {st st' : AddSt} (hst : st.new = [] ∨ Starts2 f tab st.new) (ha : addOne f tab e m h body st = .ok st') :
    Starts2 f tab st'.new ∧ st'.old = st.old := by
  unfold addOne at ha
  obtain ⟨w, hw, ha⟩ := bind_ok ha
  obtain ⟨b, rfl⟩ := writeHeader_some hl hs hw
  simp only [Option.getD_some] at ha
  have h0 : Starts2 f tab (st.new ++ b) := by
    rcases hst with h | h
    · exact ⟨_, _, b, [], hl, hw, by rw [h]; simp⟩
    · exact h.append b
  split at ha
  · cases ha; exact ⟨h0, rfl⟩
  · obtain ⟨r, _, ha⟩ := bind_ok ha
    split at ha
    · obtain ⟨w, hw, ha⟩ := bind_ok ha
      obtain ⟨b2, rfl⟩ := writeHeader_some (by exact hl) (by exact hs) hw
      cases ha
      exact ⟨⟨_, _, b2, _, by exact hl, hw, rfl⟩, rfl⟩
    · obtain ⟨⟨o, n, x⟩, _, ha⟩ := bind_ok ha
      obtain ⟨w, hw, ha⟩ := bind_ok ha
      obtain ⟨b2, rfl⟩ := writeHeader_some (by exact hl) (by exact hs) hw
      cases ha
      exact ⟨⟨_, _, b2, _, by exact hl, hw, rfl⟩, rfl⟩

theorem initHeader_level {e : Env} (hperm : e.perm < 512) {level : Nat} (hl : level < 256) (name : List Nat) (size : Nat) :
    (initHeader e level name size false).level = level ∧ isSymlinkMode (initHeader e level name size false).mode = false :=
  ⟨Nat.mod_eq_of_lt hl, (initHeader_facts e hperm name size).2.2.2.2.1⟩

theorem appendOneS_starts2 {f : Fmt} {tab : Arr} {e : Env} (hperm : e.perm < 512) {m : Nat} {name body : List Nat} {st st' : AddSt}
    (hst : st.new = [] ∨ Starts2 f tab st.new) (ha : appendOneS f tab e m 2 name body st = .ok (some st')) : Starts2 f tab st'.new := by
  obtain ⟨l1, l2⟩ := initHeader_level hperm (by omega : 2 < 256) name body.length
  unfold appendOneS at ha
  simp only [] at ha
  split at ha
  · obtain ⟨s, h1, h2⟩ := bind_ok ha
    cases h2
    exact (addOne_starts2 l1 l2 hst h1).1
  · obtain ⟨r, _, ha⟩ := bind_ok ha
    split at ha
    · obtain ⟨s, h1, h2⟩ := bind_ok ha
      cases h2
      exact (addOne_starts2 l1 l2 (by exact hst) h1).1
    · obtain ⟨s, h1, h2⟩ := bind_ok ha
      cases h2
      exact (addOne_starts2 l1 l2 (by exact hst) h1).1
    · obtain ⟨s, h1, h2⟩ := bind_ok ha
      cases h2
      exact (addOne_starts2 l1 l2 hst h1).1
    · cases ha

theorem appendTimesS_starts2 {f : Fmt} {tab : Arr} {e : Env} (hperm : e.perm < 512) {m : Nat} {name body : List Nat} (n : Nat) :
    ∀ {st st' : AddSt}, (st.new = [] ∨ Starts2 f tab st.new) → appendTimesS f tab e m 2 name body n st = .ok (some st') →
      (st'.new = [] ∧ n = 0) ∨ Starts2 f tab st'.new := by
  induction n with
  | zero =>
    intro st st' hst h
    cases h
    rcases hst with h | h
    · exact Or.inl ⟨h, rfl⟩
    · exact Or.inr h
  | succ n ih =>
    intro st st' hst h
    unfold appendTimesS at h
    obtain ⟨o, h1, h2⟩ := bind_ok h
    cases o with
    | none => cases h2
    | some s =>
      have hs := appendOneS_starts2 hperm hst h1
      rcases ih (Or.inr hs) h2 with h | h
      · obtain ⟨h, rfl⟩ := h
        cases h2
        exact Or.inr hs
      · exact Or.inr h

/-- With header level 2, the new archive begins with a level-2 header as soon as a file has been added. -/
theorem addItemsS_starts2 {f : Fmt} {tab : Arr} {e : Env} (hperm : e.perm < 512) {up : List Nat → List Nat} {m : Nat} {arc : List Nat}
    {excl : List (List Nat)} (items : List (List Nat × Option (List Nat))) :
    ∀ {st st' : AddSt}, (st.new = [] ∨ Starts2 f tab st.new) → addItemsS f tab e up m 2 arc excl items st = .ok (some st') →
      (st.new = [] ∧ st'.new = [] ∧ ∀ x ∈ items, x.1 = arc ∨ x.2 = none ∨ timesAdded up excl x.1 = 0) ∨ Starts2 f tab st'.new := by
  induction items with
  | nil =>
    intro st st' hst h
    cases h
    rcases hst with h | h
    · exact Or.inl ⟨h, h, by simp⟩
    · exact Or.inr h
  | cons x items ih =>
    obtain ⟨name, body⟩ := x
    intro st st' hst h
    unfold addItemsS at h
    split at h
    · rename_i hn
      rcases ih hst h with ⟨h0, h1, h2⟩ | h1
      · refine Or.inl ⟨h0, h1, ?_⟩
        intro x hx
        rcases List.mem_cons.1 hx with rfl | hx
        · exact Or.inl hn
        · exact h2 x hx
      · exact Or.inr h1
    · split at h
      · rcases ih hst h with ⟨h0, h1, h2⟩ | h1
        · refine Or.inl ⟨h0, h1, ?_⟩
          intro x hx
          rcases List.mem_cons.1 hx with rfl | hx
          · exact Or.inr (Or.inl rfl)
          · exact h2 x hx
        · exact Or.inr h1
      · rename_i body
        obtain ⟨o, h1, h2⟩ := bind_ok h
        cases o with
        | none => cases h2
        | some s =>
          rcases appendTimesS_starts2 hperm _ hst h1 with ⟨h3, h4⟩ | h3
          · rcases ih (Or.inl h3) h2 with ⟨_, h5, h6⟩ | h5
            · refine Or.inl ⟨?_, h5, ?_⟩
              · rcases hst with h | h
                · exact h
                · rw [h4] at h1
                  cases h1
                  exact h3
              intro x hx
              rcases List.mem_cons.1 hx with rfl | hx
              · exact Or.inr (Or.inr h4)
              · exact h6 x hx
            · exact Or.inr h5
          · rcases ih (Or.inr h3) h2 with ⟨h5, _⟩ | h5
            · exact absurd h5 h3.ne_nil
            · exact Or.inr h5

end Lha
