import Verif.Props.C31
import Verif.Model.Extract
import Verif.Model.List
/-!
# Adding files twice over: from two states of the package variables that cannot be told apart
-/

namespace Lha

/-- What is assumed of the states `P`: `EncodeLzhuf` cannot tell them apart, and leads to such states. -/
def Alike (P : Proc → Prop) (m : Nat) (tab : Arr) : Prop :=
  ∀ p q size D, P p → P q → IsBytes D →
    (∃ e, encodeLzhuf m tab p size D = .error e ∧ encodeLzhuf m tab q size D = .error e) ∨
    ∃ (r : LzhufOut) (p' q' : Proc), encodeLzhuf m tab p size D = .ok { r with proc := p' } ∧ encodeLzhuf m tab q size D = .ok { r with proc := q' } ∧ P p' ∧ P q'

/-- Two outcomes that differ in the package variables only. -/
def Twins (P : Proc → Prop) (x y : G (Option AddSt)) : Prop :=
  (∃ e, x = .error e ∧ y = .error e) ∨ (x = .ok none ∧ y = .ok none) ∨
  ∃ n o p q, x = .ok (some ⟨n, o, p⟩) ∧ y = .ok (some ⟨n, o, q⟩) ∧ P p ∧ P q

theorem addOne_twins {P : Proc → Prop} {m : Nat} {tab : Arr} (hA : Alike P m tab) (f : Fmt) (e : Env) (h : Hdr) {body : List Nat}
    (hb : IsBytes body) (n : List Nat) (o : Option (List Nat)) {p q : Proc} (hp : P p) (hq : P q) :
    (∃ x, addOne f tab e m h body ⟨n, o, p⟩ = .error x ∧ addOne f tab e m h body ⟨n, o, q⟩ = .error x) ∨
    ∃ n' p' q', addOne f tab e m h body ⟨n, o, p⟩ = .ok ⟨n', o, p'⟩ ∧ addOne f tab e m h body ⟨n, o, q⟩ = .ok ⟨n', o, q'⟩ ∧ P p' ∧ P q' := by
  unfold addOne
  cases hw : writeHeader f tab (e.gst h.stamp) h with
  | error x => exact Or.inl ⟨x, rfl, rfl⟩
  | ok w =>
    simp only [ok_bind]
    by_cases h0 : h.originalSize = 0
    · rw [if_pos h0, if_pos h0]
      exact Or.inr ⟨_, p, q, rfl, rfl, hp, hq⟩
    · rw [if_neg h0, if_neg h0]
      rcases hA p q h.originalSize body hp hq hb with ⟨x, h1, h2⟩ | ⟨r, p', q', h1, h2, h3, h4⟩
      · rw [h1, h2]
        exact Or.inl ⟨x, rfl, rfl⟩
      · rw [h1, h2, ok_bind, ok_bind]
        simp only []
        by_cases hlt : r.packed < r.original
        · rw [if_pos hlt, if_pos hlt]
          cases hw2 : writeHeader f tab (e.gst h.stamp)
              { h with crc := r.crc, method := r.method, originalSize := r.original, packedSize := r.packed } with
          | error x => exact Or.inl ⟨x, rfl, rfl⟩
          | ok w2 => exact Or.inr ⟨_, p', q', rfl, rfl, h3, h4⟩
        · rw [if_neg hlt, if_neg hlt]
          cases hc : copyfile h.originalSize r.rest with
          | error x => exact Or.inl ⟨x, rfl, rfl⟩
          | ok c =>
            obtain ⟨o1, n1, r1⟩ := c
            simp only [ok_bind]
            cases hw2 : writeHeader f tab (e.gst h.stamp) { h with crc := 0, method := lh0, originalSize := n1, packedSize := n1 } with
            | error x => exact Or.inl ⟨x, rfl, rfl⟩
            | ok w2 => exact Or.inr ⟨_, p', q', rfl, rfl, h3, h4⟩

theorem addOne_twins' {P : Proc → Prop} {m : Nat} {tab : Arr} (hA : Alike P m tab) (f : Fmt) (e : Env) (h : Hdr) {body : List Nat}
    (hb : IsBytes body) (n : List Nat) (o : Option (List Nat)) {p q : Proc} (hp : P p) (hq : P q) :
    Twins P (do let st ← addOne f tab e m h body ⟨n, o, p⟩; .ok (some st)) (do let st ← addOne f tab e m h body ⟨n, o, q⟩; .ok (some st)) := by
  rcases addOne_twins hA f e h hb n o hp hq with ⟨x, h1, h2⟩ | ⟨n', p', q', h1, h2, h3, h4⟩
  · rw [h1, h2]
    exact Or.inl ⟨x, rfl, rfl⟩
  · rw [h1, h2]
    exact Or.inr (Or.inr ⟨n', o, p', q', rfl, rfl, h3, h4⟩)

theorem appendOne_twins {P : Proc → Prop} {m : Nat} {tab : Arr} (hA : Alike P m tab) (f : Fmt) (e : Env) (level : Nat) (name : List Nat)
    {body : List Nat} (hb : IsBytes body) (n : List Nat) (o : Option (List Nat)) {p q : Proc} (hp : P p) (hq : P q) :
    Twins P (appendOne f tab e m level name body ⟨n, o, p⟩) (appendOne f tab e m level name body ⟨n, o, q⟩) := by
  unfold appendOne
  rcases o with _ | _ | ⟨b, o⟩
  · exact addOne_twins' hA f e _ hb n none hp hq
  · exact addOne_twins' hA f e _ hb n (some []) hp hq
  · simp only []
    cases hg : getHeader f tab newHdr (b :: o) with
    | error x => exact Or.inl ⟨x, rfl, rfl⟩
    | ok r =>
      simp only [ok_bind]
      cases r with
      | got ah rest =>
        simp only []
        cases hc : copyOldOne ah rest n with
        | error x => exact Or.inl ⟨x, rfl, rfl⟩
        | ok c => exact addOne_twins' hA f e _ hb c.1 (some c.2) hp hq
      | fin => exact Or.inr (Or.inl ⟨rfl, rfl⟩)
      | eof => exact Or.inr (Or.inl ⟨rfl, rfl⟩)
      | bad => exact Or.inr (Or.inl ⟨rfl, rfl⟩)

theorem appendTimes_twins {P : Proc → Prop} {m : Nat} {tab : Arr} (hA : Alike P m tab) (f : Fmt) (e : Env) (level : Nat) (name : List Nat)
    {body : List Nat} (hb : IsBytes body) (k : Nat) : ∀ (n : List Nat) (o : Option (List Nat)) {p q : Proc}, P p → P q →
    Twins P (appendTimes f tab e m level name body k ⟨n, o, p⟩) (appendTimes f tab e m level name body k ⟨n, o, q⟩) := by
  induction k with
  | zero => exact fun n o p q hp hq => Or.inr (Or.inr ⟨n, o, p, q, rfl, rfl, hp, hq⟩)
  | succ k ih =>
    intro n o p q hp hq
    unfold appendTimes
    rcases appendOne_twins hA f e level name hb n o hp hq with ⟨x, h1, h2⟩ | ⟨h1, h2⟩ | ⟨n', o', p', q', h1, h2, h3, h4⟩
    · rw [h1, h2]
      exact Or.inl ⟨x, rfl, rfl⟩
    · rw [h1, h2]
      exact Or.inr (Or.inl ⟨rfl, rfl⟩)
    · rw [h1, h2]
      exact ih n' o' h3 h4

theorem addItems_twins {P : Proc → Prop} {m : Nat} {tab : Arr} (hA : Alike P m tab) (f : Fmt) (e : Env) (up : List Nat → List Nat) (level : Nat)
    (archive : List Nat) (excl : List (List Nat)) (items : List (List Nat × Option (List Nat))) (hb : ∀ i ∈ items, ∀ b, i.2 = some b → IsBytes b) :
    ∀ (n : List Nat) (o : Option (List Nat)) {p q : Proc}, P p → P q →
    Twins P (addItems f tab e up m level archive excl items ⟨n, o, p⟩) (addItems f tab e up m level archive excl items ⟨n, o, q⟩) := by
  induction items with
  | nil => exact fun n o p q hp hq => Or.inr (Or.inr ⟨n, o, p, q, rfl, rfl, hp, hq⟩)
  | cons i items ih =>
    intro n o p q hp hq
    obtain ⟨name, body⟩ := i
    have ih' := ih (fun i hi => hb i (List.mem_cons_of_mem _ hi))
    unfold addItems
    by_cases hn : name = archive
    · rw [if_pos hn, if_pos hn]
      exact ih' n o hp hq
    · rw [if_neg hn, if_neg hn]
      cases body with
      | none => exact ih' n o hp hq
      | some body =>
        simp only []
        rcases appendTimes_twins hA f e level name (hb _ List.mem_cons_self body rfl) (timesAdded up excl name) n o hp hq with
          ⟨x, h1, h2⟩ | ⟨h1, h2⟩ | ⟨n', o', p', q', h1, h2, h3, h4⟩
        · rw [h1, h2]
          exact Or.inl ⟨x, rfl, rfl⟩
        · rw [h1, h2]
          exact Or.inr (Or.inl ⟨rfl, rfl⟩)
        · rw [h1, h2]
          exact ih' n' o' h3 h4

theorem copyTail_twins {P : Proc → Prop} {tab : Arr} (f : Fmt) (n : List Nat) (o : Option (List Nat)) {p q : Proc} (hp : P p) (hq : P q) :
    Twins P (copyTail f tab ⟨n, o, p⟩) (copyTail f tab ⟨n, o, q⟩) := by
  unfold copyTail
  rcases o with _ | _ | ⟨b, o⟩
  · exact Or.inr (Or.inr ⟨_, _, p, q, rfl, rfl, hp, hq⟩)
  · exact Or.inr (Or.inr ⟨_, _, p, q, rfl, rfl, hp, hq⟩)
  · simp only []
    cases hg : getHeader f tab newHdr (b :: o) with
    | error x => exact Or.inl ⟨x, rfl, rfl⟩
    | ok r =>
      simp only [ok_bind]
      cases r with
      | got ah rest =>
        simp only []
        cases hc : copyOldOne ah rest n with
        | error x => exact Or.inl ⟨x, rfl, rfl⟩
        | ok c => exact Or.inr (Or.inr ⟨_, _, p, q, rfl, rfl, hp, hq⟩)
      | fin => exact Or.inr (Or.inl ⟨rfl, rfl⟩)
      | eof => exact Or.inr (Or.inl ⟨rfl, rfl⟩)
      | bad => exact Or.inr (Or.inl ⟨rfl, rfl⟩)

/-- `CommandAdd` (and with it `Compress` and `CompressBytes`) does the same from two such states. -/
theorem commandAdd_twins {P : Proc → Prop} {m : Nat} {tab : Arr} (hA : Alike P m tab) (f : Fmt) (e : Env) (up : List Nat → List Nat) (level : Nat)
    (name : List Nat) (excl : List (List Nat)) (move : Bool) (items : List (List Nat × Option (List Nat)))
    (hb : ∀ i ∈ items, ∀ b, i.2 = some b → IsBytes b) (arch : Option (List Nat)) {p q : Proc} (hp : P p) (hq : P q) :
    (∃ x, commandAdd f tab e up m level name excl move items arch p = .error x ∧
      commandAdd f tab e up m level name excl move items arch q = .error x) ∨
    (commandAdd f tab e up m level name excl move items arch p = .ok none ∧
      commandAdd f tab e up m level name excl move items arch q = .ok none) ∨
    ∃ (c : CallOut) (p' q' : Proc), commandAdd f tab e up m level name excl move items arch p = .ok (some { c with proc := p' }) ∧
      commandAdd f tab e up m level name excl move items arch q = .ok (some { c with proc := q' }) ∧ P p' ∧ P q' := by
  unfold commandAdd
  by_cases hi : items = []
  · rw [if_pos hi, if_pos hi]
    exact Or.inr (Or.inr ⟨⟨true, arch, [], p⟩, p, q, rfl, rfl, hp, hq⟩)
  · rw [if_neg hi, if_neg hi]
    simp only []
    rcases addItems_twins hA f e up level name excl items hb [] arch hp hq with ⟨x, h1, h2⟩ | ⟨h1, h2⟩ | ⟨n', o', p', q', h1, h2, h3, h4⟩
    · rw [h1, h2]
      exact Or.inl ⟨x, rfl, rfl⟩
    · rw [h1, h2]
      exact Or.inr (Or.inl ⟨rfl, rfl⟩)
    · rw [h1, h2, ok_bind, ok_bind]
      simp only []
      rcases copyTail_twins (tab := tab) f n' o' h3 h4 with ⟨x, k1, k2⟩ | ⟨k1, k2⟩ | ⟨n2, o2, p2, q2, k1, k2, k3, k4⟩
      · rw [k1, k2]
        exact Or.inl ⟨x, rfl, rfl⟩
      · rw [k1, k2]
        exact Or.inr (Or.inl ⟨rfl, rfl⟩)
      · rw [k1, k2]
        exact Or.inr (Or.inr ⟨⟨false, some (n2 ++ [0]), if move then (items.filter (fun x => x.1 ≠ name)).map Prod.fst else [], p2⟩, p2, q2, rfl, rfl, k3, k4⟩)

/-- The methods that are not methods of the compressor leave the package variables alone. -/
theorem alike_none {P : Proc → Prop} {m : Nat} (hm : geoOf m = none) (tab : Arr) : Alike P m tab := by
  intro p q size D hp hq _
  unfold encodeLzhuf
  rw [hm]
  simp only []
  cases hc : copyfile size D with
  | error x => exact Or.inl ⟨x, rfl, rfl⟩
  | ok c =>
    obtain ⟨o, n, rest⟩ := c
    simp only [ok_bind]
    unfold percent
    simp only []
    by_cases h0 : n = 0
    · rw [if_pos h0, if_pos h0]
      exact Or.inl ⟨_, rfl, rfl⟩
    · rw [if_neg h0, if_neg h0]
      exact Or.inr ⟨⟨o, n, n, 0, methodStr 0, rest, p⟩, p, q, rfl, rfl, hp, hq⟩

theorem geo_cases {m : Nat} {g : Geo} (hm : m = 5 ∨ m = 6 ∨ m = 7) (hg : geoOf m = some g) : g = ⟨13, 256⟩ ∨ g = ⟨15, 256⟩ ∨ g = ⟨16, 256⟩ := by
  rcases hm with rfl | rfl | rfl <;> · cases hg; simp

/-- States after compressions with one method. -/
theorem alike_after {m : Nat} (hm : m = 5 ∨ m = 6 ∨ m = 7) {g : Geo} (hg : geoOf m = some g) {tab : Arr} (ht : makeCrcTable = .ok tab) :
    Alike (After g tab) m tab := by
  intro p q size D hp hq hD
  have a := (C31_partial tab ht g (geo_cases hm hg) p hp size D hD).trans (C31_partial tab ht g (geo_cases hm hg) q hq size D hD).symm
  unfold encodeLzhuf
  rw [hg]
  simp only []
  cases he : encode g tab p size D with
  | error x =>
    cases hd : encode g tab q size D with
    | error y =>
      rw [he, hd] at a
      cases a
      exact Or.inl ⟨x, rfl, rfl⟩
    | ok v => rw [he, hd] at a; cases a
  | ok u =>
    cases hd : encode g tab q size D with
    | error y => rw [he, hd] at a; cases a
    | ok v =>
      rw [he, hd] at a
      simp only [ok_bind]
      cases u with
      | none =>
        cases v with
        | some v => cases a
        | none =>
          simp only []
          unfold percent
          simp only []
          by_cases h0 : size = 0
          · rw [if_pos h0, if_pos h0]
            exact Or.inl ⟨_, rfl, rfl⟩
          · rw [if_neg h0, if_neg h0]
            exact Or.inr ⟨⟨[], size, 0, 0, methodStr m, [], p⟩, p, q, rfl, rfl, hp, hq⟩
      | some u =>
        cases v with
        | none => cases a
        | some v =>
          have b : (u.out, u.packed, u.original, u.crc, u.unp, u.rest) = (v.out, v.packed, v.original, v.crc, v.unp, v.rest) := by
            have : Except.ok (some (u.out, u.packed, u.original, u.crc, u.unp, u.rest)) =
              (Except.ok (some (v.out, v.packed, v.original, v.crc, v.unp, v.rest)) : G _) := a
            exact Option.some.inj (Except.ok.inj this)
          simp only [Prod.mk.injEq] at b
          obtain ⟨b1, b2, b3, b4, b5, b6⟩ := b
          simp only []
          unfold percent
          simp only []
          rw [b1, b2, b3, b4, b6]
          by_cases h0 : v.original = 0
          · rw [if_pos h0, if_pos h0]
            exact Or.inl ⟨_, rfl, rfl⟩
          · rw [if_neg h0, if_neg h0]
            exact Or.inr ⟨⟨v.out, v.original, v.packed, v.crc, methodStr m, v.rest, v.proc⟩, u.proc, v.proc, rfl, rfl,
              .pack hp hD he, .pack hq hD hd⟩

/-! ## Reading calls are sequences of decompressions -/

/-- A relation between the package variables before and after that decompressions establish. -/
structure ReadRel (tab : Arr) (R : Hf → Hf → Prop) : Prop where
  refl : ∀ h, R h h
  trans : ∀ a b c, R a b → R b c → R a c
  dec : ∀ m h original packed inp o, decodeLzhuf (others tab) tab m h original packed inp = .ok o → R h o.h

/-- The globals after the attempt to decompress an entry, verified or not. -/
def hfOf : Except (Hf × List Nat) DecOut → Hf
  | .error h => h.1
  | .ok d => d.h

/-- The same for an entry to be checked. -/
def hfOf1 : Except Hf OneOut → Hf
  | .error h => h
  | .ok d => d.hf

theorem extractOneStream_reads {tab : Arr} {R : Hf → Hf → Prop} (hR : ReadRel tab R) {hf : Hf} {h : Hdr} {inp : List Nat} {d : Except (Hf × List Nat) DecOut}
    (hd : extractOneStream (others tab) tab hf h inp = .ok d) : R hf (hfOf d) := by
  unfold extractOneStream at hd
  split at hd
  · cases hd; exact hR.refl _
  · split at hd
    · obtain ⟨x, h1, h2⟩ := bind_ok hd
      split at h2
      · cases h2
        exact hR.dec _ _ _ _ _ _ h1
      · cases h2
        exact hR.dec _ _ _ _ _ _ h1
    · cases hd; exact hR.refl _

theorem extractBytesLoop_reads {f : Fmt} {tab : Arr} {R : Hf → Hf → Prop} (hR : ReadRel tab R) {want : List Nat} (n : Nat) :
    ∀ {h : Hdr} {hf : Hf} {data inp : List Nat} {r : ReadOut}, extractBytesLoop f (others tab) tab want n h hf data inp = .ok r → R hf r.hf := by
  induction n with
  | zero => intro h hf data inp r hr; cases hr
  | succ n ih =>
    intro h hf data inp r hr
    unfold extractBytesLoop at hr
    obtain ⟨x, h1, h2⟩ := bind_ok hr
    cases x with
    | eof => cases h2; exact hR.refl _
    | bad => cases h2; exact hR.refl _
    | fin => cases h2; exact hR.refl _
    | got g rest =>
      simp only [] at h2
      split at h2
      · obtain ⟨y, h3, h4⟩ := bind_ok h2
        have a := extractOneStream_reads hR h3
        cases y with
        | error h' => cases h4; exact a
        | ok d =>
          simp only [] at h4
          split at h4
          · split at h4
            · cases h4; exact a
            · exact hR.trans _ _ _ a (ih h4)
          · exact hR.trans _ _ _ a (ih h4)
      · exact ih h2

theorem verifyOne_reads {tab : Arr} {R : Hf → Hf → Prop} (hR : ReadRel tab R) {o : Opts} {hf : Hf} {h : Hdr} {inp : List Nat} {d : Except Hf OneOut}
    (hd : verifyOne (others tab) tab o hf h inp = .ok d) : R hf (hfOf1 d) := by
  unfold verifyOne at hd
  obtain ⟨x, h1, h2⟩ := bind_ok hd
  cases x with
  | none => cases h2; exact hR.refl _
  | some x =>
    simp only [] at h2
    split at h2
    · cases h2; exact hR.refl _
    · split at h2
      · obtain ⟨y, h3, h4⟩ := bind_ok h2
        split at h4
        · cases h4
          exact hR.dec _ _ _ _ _ _ h3
        · cases h4
          exact hR.dec _ _ _ _ _ _ h3
      · split at h2
        · cases h2; exact hR.refl _
        · cases h2; exact hR.refl _

theorem headersLoop_reads {f : Fmt} {tab : Arr} {R : Hf → Hf → Prop} (hR : ReadRel tab R) {o : Opts} (n : Nat) :
    ∀ {hf : Hf} {acc : List Hdr} {inp : List Nat} {r : HeadersOut}, headersLoop f (others tab) tab o n hf acc inp = .ok r → R hf r.hf := by
  induction n with
  | zero => intro hf acc inp r hr; cases hr
  | succ n ih =>
    intro hf acc inp r hr
    unfold headersLoop at hr
    obtain ⟨x, h1, h2⟩ := bind_ok hr
    cases x with
    | eof => cases h2; exact hR.refl _
    | bad => cases h2; exact hR.refl _
    | fin => cases h2; exact hR.refl _
    | got g rest =>
      simp only [] at h2
      split at h2
      · obtain ⟨y, h3, h4⟩ := bind_ok h2
        have a := verifyOne_reads hR h3
        cases y with
        | error h' => cases h4; exact a
        | ok d =>
          simp only [] at h4
          split at h4
          · split at h4
            · cases h4; exact a
            · exact hR.trans _ _ _ a (ih h4)
          · exact hR.trans _ _ _ a (ih h4)
      · split at h2
        · cases h2; exact hR.refl _
        · exact ih h2

theorem extractOneD_reads {tab : Arr} {R : Hf → Hf → Prop} (hR : ReadRel tab R) {o : Opts} {s s' : Sys} {hf : Hf} {h : Hdr} {inp : List Nat}
    {d : OneOut} (hd : extractOneD (others tab) tab o s hf h inp = .ok (some d, s')) : R hf d.hf := by
  unfold extractOneD at hd
  obtain ⟨x, h1, h2⟩ := bind_ok hd
  cases x with
  | none => cases h2
  | some x =>
    simp only [] at h2
    split at h2
    · cases h2
    · split at h2
      · obtain ⟨⟨up, s1⟩, h3, h4⟩ := bind_ok h2
        simp only [] at h4
        split at h4
        · cases h4; exact hR.refl _
        · split at h4
          · obtain ⟨y, h5, h6⟩ := bind_ok h4
            cases h6
            exact hR.dec _ _ _ _ _ _ h5
          · cases h4; exact hR.refl _
      · split at h2
        · split at h2
          · cases h2; exact hR.refl _
          · split at h2
            · obtain ⟨⟨up, s1⟩, h3, h4⟩ := bind_ok h2
              simp only [] at h4
              split at h4
              · cases h4; exact hR.refl _
              · cases h4; exact hR.refl _
            · split at h2
              · cases h2
              · cases h2; exact hR.refl _
        · split at h2
          · cases h2; exact hR.refl _
          · cases h2

theorem extractLoopD_reads {f : Fmt} {tab : Arr} {R : Hf → Hf → Prop} (hR : ReadRel tab R) {o : Opts} {need : List Nat → Bool} (n : Nat) :
    ∀ {h : Hdr} {hf : Hf} {s : Sys} {inp : List Nat} {r : Bool × Sys × Hf},
    extractLoopD f (others tab) tab o need n h hf s inp = .ok r → R hf r.2.2 := by
  induction n with
  | zero => intro h hf s inp r hr; cases hr
  | succ n ih =>
    intro h hf s inp r hr
    unfold extractLoopD at hr
    obtain ⟨x, h1, h2⟩ := bind_ok hr
    cases x with
    | eof => cases h2; exact hR.refl _
    | bad => cases h2; exact hR.refl _
    | fin => cases h2; exact hR.refl _
    | got g rest =>
      simp only [] at h2
      split at h2
      · obtain ⟨⟨y, s1⟩, h3, h4⟩ := bind_ok h2
        cases y with
        | none => cases h4; exact hR.refl _
        | some d =>
          have a := extractOneD_reads hR h3
          simp only [] at h4
          split at h4
          · split at h4
            · cases h4; exact a
            · exact hR.trans _ _ _ a (ih h4)
          · exact hR.trans _ _ _ a (ih h4)
      · exact ih h2

theorem testLoop_reads {f : Fmt} {tab : Arr} {R : Hf → Hf → Prop} (hR : ReadRel tab R) {o : Opts} (n : Nat) :
    ∀ {h : Hdr} {hf : Hf} {inp : List Nat} {r : Bool × Hf}, testLoop f (others tab) tab o n h hf inp = .ok r → R hf r.2 := by
  induction n with
  | zero => intro h hf inp r hr; cases hr
  | succ n ih =>
    intro h hf inp r hr
    unfold testLoop at hr
    obtain ⟨x, h1, h2⟩ := bind_ok hr
    cases x with
    | eof => cases h2; exact hR.refl _
    | bad => cases h2; exact hR.refl _
    | fin => cases h2; exact hR.refl _
    | got g rest =>
      simp only [] at h2
      split at h2
      · obtain ⟨y, h3, h4⟩ := bind_ok h2
        have a := verifyOne_reads hR h3
        cases y with
        | error h' => cases h4; exact a
        | ok d =>
          simp only [] at h4
          split at h4
          · split at h4
            · cases h4; exact a
            · exact hR.trans _ _ _ a (ih h4)
          · exact hR.trans _ _ _ a (ih h4)
      · exact ih h2

theorem reads_after (tab : Arr) : ReadRel tab (fun a b => ∀ g l, After g tab ⟨a, l⟩ → After g tab ⟨b, l⟩) where
  refl := fun _ _ _ h => h
  trans := fun _ _ _ h1 h2 g l h => h2 g l (h1 g l h)
  dec := by
    intro m h original packed inp o ho g l ha
    unfold decodeLzhuf at ho
    split at ho
    · obtain ⟨x, _, h2⟩ := bind_ok ho
      cases h2
      exact ha
    · split at ho
      · exact .unpack ha ho
      · split at ho
        · exact .unpack ha ho
        · split at ho
          · exact .unpack ha ho
          · split at ho
            · exact .unpack ha ho
            · exact .unpackOther ha ho

end Lha
