import Verif.Spec.Hang
import Verif.Proof.Ends
import Verif.Props.C11
import Verif.Props.C46
import Verif.Props.C24
import Verif.Model.Print
import Verif.Model.Extract
import Verif.Model.Dry
/-!
# C85: reading an archive always ends — unless it contains a certain kind of entry
-/

namespace Lha

open Spec

theorem Spec.Untabled.drop {a : List Nat} (h : Untabled a) (k : Nat) : Untabled (a.drop k) := by
  intro j
  rw [List.drop_drop]
  exact h _

theorem copyfile_ends (size : Nat) (inp : List Nat) : ∃ o n k, copyfile size inp = .ok (o, n, inp.drop k) := by
  by_cases h : 0 < size
  · obtain ⟨pad, e, _⟩ := copyfile_ok size h inp
    exact ⟨_, _, inp.length, by rw [e, List.drop_length]⟩
  · refine ⟨[], 0, 0, ?_⟩
    unfold copyfile
    rw [if_neg (by omega)]
    rfl

/-- A method that is not among the seven: decoding returns. -/
theorem decodeLzhuf_calm {tab : Arr} (ht : makeCrcTable = .ok tab) {x : List Nat} (hx : x ∉ tabled) {m : Nat} (hm : methods.findIdx? (· = x) = some m)
    (h11 : m ≠ 11) {h : Hf} (hok : GOk h) (o p : Nat) (inp : List Nat) :
    ∃ d k, decodeLzhuf (others tab) tab m h o p inp = .ok d ∧ GOk d.h ∧ d.rest = inp.drop k := by
  have hmx : (m = 0 ∨ m = 10 ∨ m = 12) ∨ (m = 1 ∨ m = 8 ∨ m = 9) := by
    rw [List.findIdx?_eq_some_iff_getElem] at hm
    obtain ⟨hl, e, _⟩ := hm
    have e : methods.getD m [] = x := by rw [List.getD_eq_getElem _ _ hl]; simpa using e
    have hl : m < 14 := hl
    rcases (by omega : m = 0 ∨ m = 1 ∨ m = 2 ∨ m = 3 ∨ m = 4 ∨ m = 5 ∨ m = 6 ∨ m = 7 ∨ m = 8 ∨ m = 9 ∨ m = 10 ∨ m = 11 ∨ m = 12 ∨ m = 13) with
      rfl | rfl | rfl | rfl | rfl | rfl | rfl | rfl | rfl | rfl | rfl | rfl | rfl | rfl
    case inr.inr.inl => exact absurd (show x ∈ tabled by rw [← e]; decide) hx
    case inr.inr.inr.inl => exact absurd (show x ∈ tabled by rw [← e]; decide) hx
    case inr.inr.inr.inr.inl => exact absurd (show x ∈ tabled by rw [← e]; decide) hx
    case inr.inr.inr.inr.inr.inl => exact absurd (show x ∈ tabled by rw [← e]; decide) hx
    case inr.inr.inr.inr.inr.inr.inl => exact absurd (show x ∈ tabled by rw [← e]; decide) hx
    case inr.inr.inr.inr.inr.inr.inr.inl => exact absurd (show x ∈ tabled by rw [← e]; decide) hx
    case inr.inr.inr.inr.inr.inr.inr.inr.inr.inr.inr.inr.inr => exact absurd (show x ∈ tabled by rw [← e]; decide) hx
    all_goals omega
  rcases hmx with hm | hm
  · obtain ⟨out, n, k, e⟩ := copyfile_ends o inp
    refine ⟨⟨out, 0, n, inp.drop k, h⟩, k, ?_, hok, rfl⟩
    unfold decodeLzhuf
    rw [if_pos hm, e]
    rfl
  · obtain ⟨d, e, g⟩ := C46 tab ht m hm h hok o p inp
    obtain ⟨k, hk⟩ := decodeLzhuf_rest (fun m h o p i d => others_rest m h o p i d) m h o p inp d e
    exact ⟨d, k, e, g, hk⟩

theorem at_ends (l : List Nat) (p : Nat) : Ends (at_ l p) := by
  unfold at_; split
  · exact Ends.ok _
  · exact Ends.panic

theorem skipSlashes_ends (l : List Nat) (n : Nat) : ∀ p, Ends (skipSlashes l n p) := by
  induction n with
  | zero => intro p; exact Ends.panic
  | succ n ih =>
    intro p
    refine Ends.bind (at_ends _ _) fun _ _ => ?_
    split
    · exact ih _
    · exact Ends.ok _

theorem stripDevice_ends (l : List Nat) (n : Nat) : ∀ p, Ends (stripDevice l n p) := by
  induction n with
  | zero => intro p; exact Ends.panic
  | succ n ih =>
    intro p
    refine Ends.bind (at_ends _ _) fun _ _ => ?_
    split
    · exact Ends.ok _
    · exact ih _

theorem oskName_ends (e : Nat) (l : List Nat) (p : Nat) : Ends (oskName e l p) := by
  unfold oskName
  split
  · refine Ends.bind (stripDevice_ends _ _ _) fun _ _ => ?_
    simp only []
    split
    · split
      · exact Ends.ok _
      · exact Ends.panic
    · refine Ends.bind (at_ends _ _) fun _ _ => ?_
      split <;> exact Ends.ok _
  · exact Ends.ok _

theorem makeName_ends (o : Opts) (q : List Nat) : Ends (makeName o q) := by
  unfold makeName
  simp only []
  split
  · exact Ends.ok _
  · split
    · split
      · exact Ends.panic
      · exact Ends.ok _
    · split
      · exact Ends.ok _
      · exact Ends.panic

theorem entryName_ends (o : Opts) (h : Hdr) : Ends (entryName o h) := by
  unfold entryName
  simp only []
  split
  · split
    · exact Ends.bind (makeName_ends _ _) fun _ _ => Ends.ok _
    · exact Ends.panic
  · split
    · exact Ends.ok _
    · refine Ends.bind (at_ends _ _) fun _ _ => ?_
      split
      · refine Ends.bind (skipSlashes_ends _ _ _) fun _ _ => Ends.bind (oskName_ends _ _ _) fun _ _ => ?_
        exact Ends.bind (makeName_ends _ _) fun _ _ => Ends.ok _
      · exact Ends.bind (Ends.ok _) fun _ _ => Ends.bind (makeName_ends _ _) fun _ _ => Ends.ok _

theorem inquire_ends : ∀ l, Ends (inquire l)
  | [] => Ends.panic
  | [] :: _ => Ends.panic
  | (c :: _) :: ls => by
    unfold inquire
    split
    · exact Ends.ok _
    · exact inquire_ends ls

theorem inquireExtract_ends (s : Sys) (b : Bool) (n : List Nat) : Ends (inquireExtract s b n) := by
  unfold inquireExtract
  split
  · exact Ends.ok _
  · exact Ends.ok _
  · split
    · exact Ends.ok _
    · exact Ends.bind (inquire_ends _) fun _ _ => Ends.ok _
  · exact Ends.ok _

theorem seekLoop_ends (b : List Nat) (n : Nat) : ∀ i p, Ends (seekLoop b n i p) := by
  induction n with
  | zero => intro i p; exact Ends.ok _
  | succ n ih =>
    intro i p
    unfold seekLoop
    simp only []
    split
    · split
      · split
        · exact Ends.ok _
        · split
          · exact Ends.ok _
          · exact ih _ _
      · exact ih _ _
    · exact Ends.panic

theorem seekLhaHeader_ends (a : List Nat) : Ends (seekLhaHeader a) := Ends.bind (seekLoop_ends _ _ _ _) fun _ _ => Ends.ok _

theorem seek_drop {a b : List Nat} (h : seekLhaHeader a = .ok b) : ∃ k, b = a.drop k := by
  obtain ⟨_, _, h⟩ := bind_ok h
  cases h
  exact ⟨_, rfl⟩

theorem skipTo_drop {n : Nat} {inp rest : List Nat} (h : skipTo n inp = some rest) : ∃ k, rest = inp.drop k := by
  unfold skipTo at h
  rw [Option.map_eq_some_iff] at h
  obtain ⟨⟨x, r⟩, h1, h2⟩ := h
  exact ⟨n, by rw [← h2]; exact (readF_some h1).2⟩

theorem skipTo_getD (n : Nat) (inp : List Nat) : ∃ k, (skipTo n inp).getD [] = inp.drop k := by
  cases h : skipTo n inp with
  | none => exact ⟨inp.length, by rw [List.drop_length]; rfl⟩
  | some r => exact skipTo_drop h

/-- A header just read: what the loops need to know of it and of the bytes behind it. -/
theorem got_calm {f : Fmt} {tab : Arr} {h g : Hdr} {inp rest : List Nat} (hm : h.method.length = 5) (hu : Untabled inp)
    (hx : getHeader f tab h inp = .ok (.got g rest)) :
    g.method.length = 5 ∧ g.method ∉ tabled ∧ Untabled rest ∧ rest.length < inp.length := by
  obtain ⟨_, k, hk, rfl⟩ := getHeader_got hx
  obtain ⟨_, hl, _⟩ := getHeader_got01 hx
  obtain ⟨e1, e2⟩ := getHeader_method hm hx
  refine ⟨e1, ?_, hu.drop k, by rw [List.length_drop]; omega⟩
  rcases e2 with e | e
  · rw [e]; exact hu 2
  · rw [e]; decide

/-- What is left behind an entry. -/
theorem left_calm {rest : List Nat} (hu : Untabled rest) (k : Nat) {n : Nat} (hn : rest.length < n) : Untabled (rest.drop k) ∧ (rest.drop k).length < n :=
  ⟨hu.drop k, by rw [List.length_drop]; omega⟩

theorem left_calm' {rest x : List Nat} (hu : Untabled rest) {n : Nat} (hn : rest.length < n) (hx : ∃ k, x = rest.drop k) : Untabled x ∧ x.length < n := by
  obtain ⟨k, rfl⟩ := hx
  exact left_calm hu k hn

theorem verifyOne_calm {tab : Arr} (ht : makeCrcTable = .ok tab) (o : Opts) {hf : Hf} (hok : GOk hf) {h : Hdr} (hm : h.method ∉ tabled) (inp : List Nat) :
    Ends (verifyOne (others tab) tab o hf h inp) ∧
      ∀ d, verifyOne (others tab) tab o hf h inp = .ok (.ok d) → GOk d.hf ∧ ∃ k, d.rest = inp.drop k := by
  unfold verifyOne
  cases he : entryName o h with
  | error e =>
    refine ⟨?_, fun d hd => by cases hd⟩
    have := entryName_ends o h
    rw [he] at this
    exact Ends.bind this fun _ h => by cases h
  | ok r =>
    rw [ok_bind]
    cases r with
    | none => exact ⟨Ends.ok _, fun d hd => by cases hd⟩
    | some r =>
      obtain ⟨_, hn⟩ := r
      simp only []
      cases hi : methods.findIdx? (· = h.method) with
      | none => exact ⟨Ends.ok _, fun d hd => by cases hd⟩
      | some m =>
        simp only []
        split
        · rename_i hc
          obtain ⟨d, k, e, g, hk⟩ := decodeLzhuf_calm ht hm hi hc.2 hok h.originalSize h.packedSize inp
          rw [e, ok_bind]
          split
          · exact ⟨Ends.ok _, fun d hd => by cases hd⟩
          · exact ⟨Ends.ok _, fun d hd => by cases hd; exact ⟨g, k, hk⟩⟩
        · split
          · exact ⟨Ends.ok _, fun d hd => by cases hd; exact ⟨hok, 0, rfl⟩⟩
          · exact ⟨Ends.ok _, fun d hd => by cases hd⟩

theorem printOne_calm {tab : Arr} (ht : makeCrcTable = .ok tab) (q : Bool) (o : Opts) {hf : Hf} (hok : GOk hf) {h : Hdr} (hm : h.method ∉ tabled) (inp : List Nat) :
    Ends (printOne q (others tab) tab o hf h inp) ∧
      ∀ d t, printOne q (others tab) tab o hf h inp = .ok (.ok d, t) → GOk d.hf ∧ ∃ k, d.rest = inp.drop k := by
  unfold printOne
  cases he : entryName o h with
  | error e =>
    refine ⟨?_, fun d t hd => by cases hd⟩
    have := entryName_ends o h
    rw [he] at this
    exact Ends.bind this fun _ h => by cases h
  | ok r =>
    rw [ok_bind]
    cases r with
    | none => exact ⟨Ends.ok _, fun d t hd => by cases hd⟩
    | some r =>
      obtain ⟨_, hn⟩ := r
      simp only []
      cases hi : methods.findIdx? (· = h.method) with
      | none => exact ⟨Ends.ok _, fun d t hd => by cases hd⟩
      | some m =>
        simp only []
        split
        · rename_i hc
          obtain ⟨d, k, e, g, hk⟩ := decodeLzhuf_calm ht hm hi hc.2 hok h.originalSize h.packedSize inp
          rw [e, ok_bind]
          split
          · exact ⟨Ends.ok _, fun d t hd => by cases hd⟩
          · exact ⟨Ends.ok _, fun d t hd => by cases hd; exact ⟨g, k, hk⟩⟩
        · split
          · exact ⟨Ends.ok _, fun d t hd => by cases hd; exact ⟨hok, 0, rfl⟩⟩
          · exact ⟨Ends.ok _, fun d t hd => by cases hd⟩

theorem extractOneStream_calm {tab : Arr} (ht : makeCrcTable = .ok tab) {hf : Hf} (hok : GOk hf) {h : Hdr} (hm : h.method ∉ tabled) (inp : List Nat) :
    Ends (extractOneStream (others tab) tab hf h inp) ∧
      ∀ d, extractOneStream (others tab) tab hf h inp = .ok (.ok d) → GOk d.h ∧ ∃ k, d.rest = inp.drop k := by
  unfold extractOneStream
  cases hi : methods.findIdx? (· = h.method) with
  | none => exact ⟨Ends.ok _, fun d hd => by cases hd⟩
  | some m =>
    simp only []
    split
    · rename_i hc
      obtain ⟨d, k, e, g, hk⟩ := decodeLzhuf_calm ht hm hi hc.2 hok h.originalSize h.packedSize inp
      rw [e, ok_bind]
      split
      · exact ⟨Ends.ok _, fun d hd => by cases hd⟩
      · exact ⟨Ends.ok _, fun d hd => by cases hd; exact ⟨g, k, hk⟩⟩
    · exact ⟨Ends.ok _, fun d hd => by cases hd⟩

theorem extractOneD_calm {tab : Arr} (ht : makeCrcTable = .ok tab) (o : Opts) (s : Sys) {hf : Hf} (hok : GOk hf) {h : Hdr} (hm : h.method ∉ tabled) (inp : List Nat) :
    Ends (extractOneD (others tab) tab o s hf h inp) ∧
      ∀ d s', extractOneD (others tab) tab o s hf h inp = .ok (some d, s') → GOk d.hf ∧ ∃ k, d.rest = inp.drop k := by
  have key : ∀ (d : OneOut) (s s' : Sys) (nm : List Nat), (.ok (some ⟨0, inp, hf, nm, none⟩, s) : G (Option OneOut × Sys)) = .ok (some d, s') →
      GOk d.hf ∧ ∃ k, d.rest = inp.drop k := by
    intro d s s' nm h
    cases h
    exact ⟨hok, 0, rfl⟩
  unfold extractOneD
  cases he : entryName o h with
  | error e =>
    refine ⟨?_, fun d t hd => by cases hd⟩
    have := entryName_ends o h
    rw [he] at this
    exact Ends.bind this fun _ h => by cases h
  | ok r =>
    rw [ok_bind]
    cases r with
    | none => exact ⟨Ends.ok _, fun d t hd => by cases hd⟩
    | some r =>
      obtain ⟨nm, hn⟩ := r
      simp only []
      cases hi : methods.findIdx? (· = h.method) with
      | none => exact ⟨Ends.ok _, fun d t hd => by cases hd⟩
      | some m =>
        simp only []
        split
        · rename_i hc
          cases hq : inquireExtract s o.force nm with
          | error e =>
            have := inquireExtract_ends s o.force nm
            rw [hq] at this
            exact ⟨Ends.bind this (fun _ h => by cases h), fun d t hd => by cases hd⟩
          | ok r =>
            obtain ⟨up, s1⟩ := r
            rw [ok_bind]
            simp only []
            split
            · exact ⟨Ends.ok _, fun d t hd => key _ _ _ _ hd⟩
            · split
              · obtain ⟨d, k, e, g, hk⟩ := decodeLzhuf_calm ht hm hi hc.2 hok h.originalSize h.packedSize inp
                rw [e, ok_bind]
                exact ⟨Ends.ok _, fun d t hd => by cases hd; exact ⟨g, k, hk⟩⟩
              · exact ⟨Ends.ok _, fun d t hd => key _ _ _ _ hd⟩
        · split
          · split
            · exact ⟨Ends.ok _, fun d t hd => key _ _ _ _ hd⟩
            · split
              · cases hq : inquireExtract s o.force nm with
                | error e =>
                  have := inquireExtract_ends s o.force nm
                  rw [hq] at this
                  exact ⟨Ends.bind this (fun _ h => by cases h), fun d t hd => by cases hd⟩
                | ok r =>
                  obtain ⟨up, s1⟩ := r
                  rw [ok_bind]
                  simp only []
                  split
                  · exact ⟨Ends.ok _, fun d t hd => key _ _ _ _ hd⟩
                  · exact ⟨Ends.ok _, fun d t hd => key _ _ _ _ hd⟩
              · split
                · exact ⟨Ends.panic, fun d t hd => by cases hd⟩
                · exact ⟨Ends.ok _, fun d t hd => key _ _ _ _ hd⟩
          · split
            · exact ⟨Ends.ok _, fun d t hd => key _ _ _ _ hd⟩
            · exact ⟨Ends.ok _, fun d t hd => by cases hd⟩

theorem extractOneN_ends (o : Opts) (s : Sys) (hf : Hf) (h : Hdr) (inp : List Nat) :
    Ends (extractOneN o s hf h inp) ∧ ∀ d s', extractOneN o s hf h inp = .ok (some d, s') → d.rest = inp := by
  unfold extractOneN
  cases he : entryName o h with
  | error e =>
    refine ⟨?_, fun d t hd => by cases hd⟩
    have := entryName_ends o h
    rw [he] at this
    exact Ends.bind this fun _ h => by cases h
  | ok r =>
    rw [ok_bind]
    cases r with
    | none => exact ⟨Ends.ok _, fun d t hd => by cases hd⟩
    | some r =>
      obtain ⟨nm, hn⟩ := r
      simp only []
      cases hi : methods.findIdx? (· = h.method) with
      | none => exact ⟨Ends.ok _, fun d t hd => by cases hd⟩
      | some m =>
        simp only []
        repeat' split
        all_goals first
          | exact ⟨Ends.ok _, fun d t hd => by cases hd; rfl⟩
          | exact ⟨Ends.ok _, fun d t hd => by cases hd⟩

theorem listOne_ends (h : Hdr) : Ends (listOne h) := by
  have ow : ∀ n i, Ends (ownerOf n i) := by
    intro n i
    cases n
    · exact Ends.panic
    · exact Ends.ok _
  unfold listOne
  simp only []
  split
  · exact Ends.bind (ow _ _) fun _ _ => Ends.bind (ow _ _) fun _ _ => Ends.bind (Ends.ok _) fun _ _ => Ends.ok _
  · exact Ends.bind (Ends.ok _) fun _ _ => Ends.ok _

/-- **C85 for listing.** Whatever the bytes of the archive and whatever the options: `CommandList` ends. -/
theorem C85_list_partial (f : Fmt) (tab : Arr) (o : Opts) (arch : Option (List Nat)) : commandList f tab o arch ≠ .error .diverge := by
  have key : ∀ (n : Nat) (h : Hdr) (out : ListOut) (inp : List Nat), inp.length < n → Ends (listLoop f tab o n h out inp) := by
    intro n
    induction n with
    | zero => intro h out inp hl; omega
    | succ n ih =>
      intro h out inp hl
      unfold listLoop
      refine Ends.bind (getHeader_ends _ _ _ _) fun r hr => ?_
      split
      · exact Ends.ok _
      · exact Ends.ok _
      · exact Ends.ok _
      · rename_i g rest
        obtain ⟨_, k, hk, rfl⟩ := getHeader_got hr
        obtain ⟨_, hi, _⟩ := getHeader_got01 hr
        have hlt : ((inp.drop k).drop g.packedSize).length < n := by
          rw [List.drop_drop, List.length_drop]; omega
        split
        · exact Ends.bind (listOne_ends _) fun _ _ => Ends.bind (Ends.ok _) fun _ _ => ih _ _ _ hlt
        · exact Ends.bind (Ends.ok _) fun _ _ => ih _ _ _ hlt
  cases arch with
  | none => exact Ends.ok _
  | some a => exact key _ _ _ _ (Nat.lt_succ_self _)

/-- Dry runs decode nothing: they end, whatever the bytes. -/
theorem C85_dry_partial (f : Fmt) (tab : Arr) (o : Opts) (sfx : Bool) (hf : Hf) (s : Sys) (arch : Option (List Nat)) :
    commandExtractN f tab o sfx hf s arch ≠ .error .diverge := by
  have key : ∀ (n : Nat) (h : Hdr) (hf : Hf) (s : Sys) (inp : List Nat), inp.length < n → Ends (extractLoopN f tab o (needFile o) n h hf s inp) := by
    intro n
    induction n with
    | zero => intro h hf s inp hl; omega
    | succ n ih =>
      intro h hf s inp hl
      unfold extractLoopN
      refine Ends.bind (getHeader_ends _ _ _ _) fun r hr => ?_
      split
      · exact Ends.ok _
      · exact Ends.ok _
      · exact Ends.ok _
      · rename_i g rest
        obtain ⟨_, k, hk, rfl⟩ := getHeader_got hr
        obtain ⟨_, hi, _⟩ := getHeader_got01 hr
        have hlt : ∀ j, ((inp.drop k).drop j).length < n := by
          intro j
          rw [List.drop_drop, List.length_drop]; omega
        obtain ⟨e1, e2⟩ := extractOneN_ends o s hf g (inp.drop k)
        split
        · refine Ends.bind e1 fun r hr => ?_
          split
          · exact Ends.ok _
          · rename_i d s'
            have hd := e2 d s' hr
            simp only []
            split
            · split
              · exact Ends.ok _
              · rename_i rest hs
                obtain ⟨j, rfl⟩ := skipTo_drop hs
                rw [hd]
                exact ih _ _ _ _ (hlt _)
            · rw [hd]
              exact ih _ _ _ _ (hlt 0)
        · obtain ⟨j, hj⟩ := skipTo_getD g.packedSize (inp.drop k)
          rw [hj]
          exact ih _ _ _ _ (hlt _)
  cases arch with
  | none => exact Ends.ok _
  | some a =>
    cases sfx
    · exact key _ newHdr hf s a (Nat.lt_succ_self _)
    · exact Ends.bind (seekLhaHeader_ends a) fun b _ => key _ newHdr hf s b (Nat.lt_succ_self _)

section
variable {f : Fmt} {tab : Arr} (ht : makeCrcTable = .ok tab) (o : Opts)
include ht

theorem headersLoop_ends (n : Nat) : ∀ (hf : Hf) (acc : List Hdr) (inp : List Nat), GOk hf → Untabled inp → inp.length < n →
    Ends (headersLoop f (others tab) tab o n hf acc inp) := by
  induction n with
  | zero => intro hf acc inp _ _ hl; omega
  | succ n ih =>
    intro hf acc inp hok hu hl
    unfold headersLoop
    refine Ends.bind (getHeader_ends _ _ _ _) fun r hr => ?_
    split
    · rename_i g rest
      obtain ⟨_, c2, c3, c4⟩ := got_calm (by rfl) hu hr
      obtain ⟨e1, e2⟩ := verifyOne_calm ht o hok c2 rest
      split
      · refine Ends.bind e1 fun r hr => ?_
        split
        · exact Ends.ok _
        · rename_i d
          obtain ⟨g1, k, g2⟩ := e2 d hr
          obtain ⟨l1, l2⟩ := left_calm' (n := n) c3 (by omega) ⟨k, g2⟩
          simp only []
          split
          · split
            · exact Ends.ok _
            · rename_i rest' hs
              obtain ⟨m1, m2⟩ := left_calm' l1 l2 (skipTo_drop hs)
              exact ih _ _ _ g1 m1 m2
          · exact ih _ _ _ g1 l1 l2
      · split
        · exact Ends.ok _
        · refine ih _ _ _ hok ?_ (by simp only [List.length_nil]; omega)
          have := c3.drop rest.length
          rwa [List.drop_length] at this
    · exact Ends.ok _

theorem extractBytesLoop_ends (want : List Nat) (n : Nat) : ∀ (h : Hdr) (hf : Hf) (data inp : List Nat), h.method.length = 5 → GOk hf → Untabled inp →
    inp.length < n → Ends (extractBytesLoop f (others tab) tab want n h hf data inp) := by
  induction n with
  | zero => intro h hf data inp _ _ _ hl; omega
  | succ n ih =>
    intro h hf data inp hm hok hu hl
    unfold extractBytesLoop
    refine Ends.bind (getHeader_ends _ _ _ _) fun r hr => ?_
    split
    · exact Ends.ok _
    · exact Ends.ok _
    · exact Ends.ok _
    · rename_i g rest
      obtain ⟨c1, c2, c3, c4⟩ := got_calm hm hu hr
      obtain ⟨e1, e2⟩ := extractOneStream_calm ht hok c2 rest
      split
      · refine Ends.bind e1 fun r hr => ?_
        split
        · exact Ends.ok _
        · rename_i d
          obtain ⟨g1, k, g2⟩ := e2 d hr
          obtain ⟨l1, l2⟩ := left_calm' (n := n) c3 (by omega) ⟨k, g2⟩
          split
          · split
            · exact Ends.ok _
            · rename_i rest' hs
              obtain ⟨m1, m2⟩ := left_calm' l1 l2 (skipTo_drop hs)
              exact ih _ _ _ _ c1 g1 m1 m2
          · exact ih _ _ _ _ c1 g1 l1 l2
      · obtain ⟨m1, m2⟩ := left_calm' (n := n) c3 (by omega) (skipTo_getD g.packedSize rest)
        exact ih _ _ _ _ c1 hok m1 m2

theorem extractLoopD_ends (need : List Nat → Bool) (n : Nat) : ∀ (h : Hdr) (hf : Hf) (s : Sys) (inp : List Nat), h.method.length = 5 → GOk hf →
    Untabled inp → inp.length < n → Ends (extractLoopD f (others tab) tab o need n h hf s inp) := by
  induction n with
  | zero => intro h hf s inp _ _ _ hl; omega
  | succ n ih =>
    intro h hf s inp hm hok hu hl
    unfold extractLoopD
    refine Ends.bind (getHeader_ends _ _ _ _) fun r hr => ?_
    split
    · exact Ends.ok _
    · exact Ends.ok _
    · exact Ends.ok _
    · rename_i g rest
      obtain ⟨c1, c2, c3, c4⟩ := got_calm hm hu hr
      obtain ⟨e1, e2⟩ := extractOneD_calm ht o s hok c2 rest
      split
      · refine Ends.bind e1 fun r hr => ?_
        split
        · exact Ends.ok _
        · rename_i d s'
          obtain ⟨g1, k, g2⟩ := e2 d s' hr
          obtain ⟨l1, l2⟩ := left_calm' (n := n) c3 (by omega) ⟨k, g2⟩
          simp only []
          split
          · split
            · exact Ends.ok _
            · rename_i rest' hs
              obtain ⟨m1, m2⟩ := left_calm' l1 l2 (skipTo_drop hs)
              exact ih _ _ _ _ c1 g1 m1 m2
          · exact ih _ _ _ _ c1 g1 l1 l2
      · obtain ⟨m1, m2⟩ := left_calm' (n := n) c3 (by omega) (skipTo_getD g.packedSize rest)
        exact ih _ _ _ _ c1 hok m1 m2

theorem testLoop_ends (n : Nat) : ∀ (h : Hdr) (hf : Hf) (inp : List Nat), h.method.length = 5 → GOk hf →
    Untabled inp → inp.length < n → Ends (testLoop f (others tab) tab o n h hf inp) := by
  induction n with
  | zero => intro h hf inp _ _ _ hl; omega
  | succ n ih =>
    intro h hf inp hm hok hu hl
    unfold testLoop
    refine Ends.bind (getHeader_ends _ _ _ _) fun r hr => ?_
    split
    · exact Ends.ok _
    · exact Ends.ok _
    · exact Ends.ok _
    · rename_i g rest
      obtain ⟨c1, c2, c3, c4⟩ := got_calm hm hu hr
      obtain ⟨e1, e2⟩ := verifyOne_calm ht o hok c2 rest
      split
      · refine Ends.bind e1 fun r hr => ?_
        split
        · exact Ends.ok _
        · rename_i d
          obtain ⟨g1, k, g2⟩ := e2 d hr
          obtain ⟨l1, l2⟩ := left_calm' (n := n) c3 (by omega) ⟨k, g2⟩
          simp only []
          split
          · split
            · exact Ends.ok _
            · rename_i rest' hs
              obtain ⟨m1, m2⟩ := left_calm' l1 l2 (skipTo_drop hs)
              exact ih _ _ _ c1 g1 m1 m2
          · exact ih _ _ _ c1 g1 l1 l2
      · obtain ⟨m1, m2⟩ := left_calm' (n := n) c3 (by omega) (skipTo_getD g.packedSize rest)
        exact ih _ _ _ c1 hok m1 m2

theorem printLoop_ends (q : Bool) (n : Nat) : ∀ (h : Hdr) (hf : Hf) (acc inp : List Nat), h.method.length = 5 → GOk hf →
    Untabled inp → inp.length < n → Ends (printLoop q f (others tab) tab o n h hf acc inp) := by
  induction n with
  | zero => intro h hf acc inp _ _ _ hl; omega
  | succ n ih =>
    intro h hf acc inp hm hok hu hl
    unfold printLoop
    refine Ends.bind (getHeader_ends _ _ _ _) fun r hr => ?_
    split
    · exact Ends.ok _
    · exact Ends.ok _
    · exact Ends.ok _
    · rename_i g rest
      obtain ⟨c1, c2, c3, c4⟩ := got_calm hm hu hr
      obtain ⟨e1, e2⟩ := printOne_calm ht q o hok c2 rest
      split
      · refine Ends.bind e1 fun r hr => ?_
        split
        · exact Ends.ok _
        · rename_i d txt
          obtain ⟨g1, k, g2⟩ := e2 d txt hr
          obtain ⟨l1, l2⟩ := left_calm' (n := n) c3 (by omega) ⟨k, g2⟩
          simp only []
          split
          · split
            · exact Ends.ok _
            · rename_i rest' hs
              obtain ⟨m1, m2⟩ := left_calm' l1 l2 (skipTo_drop hs)
              exact ih _ _ _ _ c1 g1 m1 m2
          · exact ih _ _ _ _ c1 g1 l1 l2
      · split
        · rename_i rest' hs
          obtain ⟨m1, m2⟩ := left_calm' (n := n) c3 (by omega) (skipTo_drop hs)
          exact ih _ _ _ _ c1 hok m1 m2
        · refine ih _ _ _ _ c1 hok ?_ (by simp only [List.length_nil]; omega)
          have := c3.drop rest.length
          rwa [List.drop_length] at this

end

/-- **C85, what remains true of the calls that decode.** If none of the identifiers -lh2- to -lh7- and -pm2- is found in the bytes of the archive
(otherwise arbitrary, possibly malformed), then `Headers`, `DecompresBytes`, `Decompress`, `CommandExtract`, testing and printing end, for every
choice of options, names and file system.  Missing: archives with such entries, for which it is false (`C85_false`). -/
theorem C85_partial (tab : Arr) (ht : makeCrcTable = .ok tab) (f : Fmt) (o : Opts) (sfx quiet : Bool) (want : List Nat) (hf : Hf) (hok : GOk hf) (s : Sys)
    (a : List Nat) (hu : Untabled a) :
    headers f (others tab) tab o hf (some a) ≠ .error .diverge ∧
    decompresBytes f (others tab) tab sfx want hf (some a) ≠ .error .diverge ∧
    decompressD f (others tab) tab o sfx want hf s (some a) ≠ .error .diverge ∧
    commandExtractD f (others tab) tab o sfx hf s (some a) ≠ .error .diverge ∧
    commandTest f (others tab) tab o sfx hf (some a) ≠ .error .diverge ∧
    commandPrint quiet f (others tab) tab o sfx hf (some a) ≠ .error .diverge := by
  have hb : ∀ {b : List Nat}, seekLhaHeader a = .ok b → Untabled b := by
    intro b h
    obtain ⟨k, rfl⟩ := seek_drop h
    exact hu.drop k
  have h5 : newHdr.method.length = 5 := rfl
  refine ⟨headersLoop_ends ht o _ _ _ _ hok hu (Nat.lt_succ_self _), ?_⟩
  cases sfx
  · refine ⟨?_, ?_, ?_, ?_, ?_⟩
    · exact extractBytesLoop_ends ht want _ newHdr hf [] a h5 hok hu (Nat.lt_succ_self _)
    · exact extractLoopD_ends ht o _ _ newHdr hf s a h5 hok hu (Nat.lt_succ_self _)
    · exact extractLoopD_ends ht o _ _ newHdr hf s a h5 hok hu (Nat.lt_succ_self _)
    · exact testLoop_ends ht o _ newHdr hf a h5 hok hu (Nat.lt_succ_self _)
    · exact printLoop_ends ht o _ _ newHdr hf [] a h5 hok hu (Nat.lt_succ_self _)
  · refine ⟨?_, ?_, ?_, ?_, ?_⟩
    · exact Ends.bind (seekLhaHeader_ends a) fun b h => extractBytesLoop_ends ht want _ newHdr hf [] b h5 hok (hb h) (Nat.lt_succ_self _)
    · exact Ends.bind (seekLhaHeader_ends a) fun b h => extractLoopD_ends ht o _ _ newHdr hf s b h5 hok (hb h) (Nat.lt_succ_self _)
    · exact Ends.bind (seekLhaHeader_ends a) fun b h => extractLoopD_ends ht o _ _ newHdr hf s b h5 hok (hb h) (Nat.lt_succ_self _)
    · exact Ends.bind (seekLhaHeader_ends a) fun b h => testLoop_ends ht o _ newHdr hf b h5 hok (hb h) (Nat.lt_succ_self _)
    · exact Ends.bind (seekLhaHeader_ends a) fun b h => printLoop_ends ht o _ _ newHdr hf [] b h5 hok (hb h) (Nat.lt_succ_self _)

/-- A well-formed archive of 62 bytes: the entry `x`, method lh7, with the packed data `hangStream` of C24 and 4 announced bytes; then the end mark. -/
def hangArchive : List Nat :=
  [23, 38, 45, 108, 104, 55, 45, 36, 0, 0, 0, 4, 0, 0, 0, 0, 0, 0, 0, 32, 0, 1, 120, 0, 0] ++ hangStream ++ [0]

theorem run_diverges {α β : Type} (k : Arr → G α) (g : α → β) (h : (makeCrcTable >>= fun tab => (k tab).map g) = .error .diverge) (tab : Arr)
    (ht : makeCrcTable = .ok tab) : k tab = .error .diverge := by
  rw [ht, ok_bind] at h
  cases hk : k tab with
  | ok a => rw [hk] at h; cases h
  | error e =>
    rw [hk] at h
    cases e with
    | panic => cases h
    | diverge => rfl

theorem hang_headers : (makeCrcTable >>= fun tab =>
    (headers ⟨false, false⟩ (others tab) tab Opts.default Hf.fresh (some hangArchive)).map (·.err)) = .error .diverge := by
  decide +kernel

theorem hang_bytes : (makeCrcTable >>= fun tab =>
    (decompresBytes ⟨false, false⟩ (others tab) tab false [120, 0] Hf.fresh (some hangArchive)).map (·.err)) = .error .diverge := by
  decide +kernel

theorem hang_test : (makeCrcTable >>= fun tab =>
    (commandTest ⟨false, false⟩ (others tab) tab Opts.default false Hf.fresh (some hangArchive)).map (·.1)) = .error .diverge := by
  decide +kernel

/-- **C85 is false**: in a fresh process `Headers`, `DecompresBytes` of `x` and testing never return on this archive. -/
theorem C85_false (tab : Arr) (ht : makeCrcTable = .ok tab) :
    headers ⟨false, false⟩ (others tab) tab Opts.default Hf.fresh (some hangArchive) = .error .diverge ∧
    decompresBytes ⟨false, false⟩ (others tab) tab false [120, 0] Hf.fresh (some hangArchive) = .error .diverge ∧
    commandTest ⟨false, false⟩ (others tab) tab Opts.default false Hf.fresh (some hangArchive) = .error .diverge :=
  ⟨run_diverges (fun tab => headers ⟨false, false⟩ (others tab) tab Opts.default Hf.fresh (some hangArchive)) _ hang_headers tab ht,
    run_diverges (fun tab => decompresBytes ⟨false, false⟩ (others tab) tab false [120, 0] Hf.fresh (some hangArchive)) _ hang_bytes tab ht,
    run_diverges (fun tab => commandTest ⟨false, false⟩ (others tab) tab Opts.default false Hf.fresh (some hangArchive)) _ hang_test tab ht⟩

/-- The same with the library's default method: a well-formed archive of 60 bytes, one lh5 entry `x` with the packed data
`hangStream5` of C24. -/
def hangArchive5 : List Nat :=
  [23, 34, 45, 108, 104, 53, 45, 34, 0, 0, 0, 4, 0, 0, 0, 0, 0, 0, 0, 32, 0, 1, 120, 0, 0] ++ hangStream5 ++ [0]

theorem hang5_headers : (makeCrcTable >>= fun tab =>
    (headers ⟨false, false⟩ (others tab) tab Opts.default Hf.fresh (some hangArchive5)).map (·.err)) = .error .diverge := by
  decide +kernel

theorem hang5_bytes : (makeCrcTable >>= fun tab =>
    (decompresBytes ⟨false, false⟩ (others tab) tab false [120, 0] Hf.fresh (some hangArchive5)).map (·.err)) = .error .diverge := by
  decide +kernel

theorem hang5_test : (makeCrcTable >>= fun tab =>
    (commandTest ⟨false, false⟩ (others tab) tab Opts.default false Hf.fresh (some hangArchive5)).map (·.1)) = .error .diverge := by
  decide +kernel

/-- **C85 is false** for lh5 entries as well. -/
theorem C85_false_lh5 (tab : Arr) (ht : makeCrcTable = .ok tab) :
    headers ⟨false, false⟩ (others tab) tab Opts.default Hf.fresh (some hangArchive5) = .error .diverge ∧
    decompresBytes ⟨false, false⟩ (others tab) tab false [120, 0] Hf.fresh (some hangArchive5) = .error .diverge ∧
    commandTest ⟨false, false⟩ (others tab) tab Opts.default false Hf.fresh (some hangArchive5) = .error .diverge :=
  ⟨run_diverges (fun tab => headers ⟨false, false⟩ (others tab) tab Opts.default Hf.fresh (some hangArchive5)) _ hang5_headers tab ht,
    run_diverges (fun tab => decompresBytes ⟨false, false⟩ (others tab) tab false [120, 0] Hf.fresh (some hangArchive5)) _ hang5_bytes tab ht,
    run_diverges (fun tab => commandTest ⟨false, false⟩ (others tab) tab Opts.default false Hf.fresh (some hangArchive5)) _ hang5_test tab ht⟩

theorem untabled_of_bounded {a : List Nat} (h : ∀ k < a.length, (a.drop k).take 5 ∉ tabled) : Untabled a := by
  intro k
  by_cases hk : k < a.length
  · exact h k hk
  · rw [List.drop_eq_nil_of_le (by omega)]
    decide

/-- Case covered: an archive with an lh1 entry that announces 65535 bytes and has three, cut off there. -/
example (tab : Arr) (ht : makeCrcTable = .ok tab) (s : Sys) :
    commandExtractD ⟨false, false⟩ (others tab) tab Opts.default false Hf.fresh s
      (some ([23, 249, 45, 108, 104, 49, 45, 3, 0, 0, 0, 255, 255, 0, 0, 0, 0, 0, 0, 32, 0, 1, 120, 0, 0] ++ [0xff, 0x13, 0x77])) ≠ .error .diverge :=
  (C85_partial tab ht ⟨false, false⟩ Opts.default false false [] Hf.fresh ⟨by constructor <;> rfl, by constructor <;> rfl⟩ s _
    (untabled_of_bounded (by decide))).2.2.2.1

/-- The archive that hangs the other calls is listed. -/
example (tab : Arr) : commandList ⟨false, false⟩ tab Opts.default (some hangArchive) ≠ .error .diverge :=
  C85_list_partial _ _ _ _

end Lha
