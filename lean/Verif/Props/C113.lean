import Verif.Props.C112
import Verif.Props.C96
import Verif.Spec.Terminal
/-!
# C113: a listing sends no control characters to the terminal

False of the code: names are printed as they are, and every line for an entry of a Unix system has a NUL in it.  What is true: all other bytes that are
not printable come from one of five fields of a header.
-/

namespace Lha

open Spec

/-- Printable, a line feed, or a NUL. -/
def Mild (c : Nat) : Prop := Printable c ∨ c = 10 ∨ c = 0

/-- The headers `CommandList` reads, one after the other (`GetHeader` gets the one before to fill in). -/
inductive Headed (f : Fmt) (tab : Arr) : Hdr → List Nat → List Hdr → Prop
  | stop {h : Hdr} {inp : List Nat} : Headed f tab h inp []
  | next {h g : Hdr} {inp rest : List Nat} {gs : List Hdr} : getHeader f tab h inp = .ok (.got g rest) → Headed f tab g (rest.drop g.packedSize) gs →
      Headed f tab h inp (g :: gs)

/-- The fields of a header that hold text. -/
def texts (g : Hdr) : List Nat := g.name ++ g.realname ++ g.method ++ g.user ++ g.group

/-- Every byte is mild, or one of the text of a header. -/
def From (s : List Nat) (l : List Nat) : Prop := ∀ c ∈ l, Mild c ∨ c ∈ s

theorem From.append {s a b : List Nat} (ha : From s a) (hb : From s b) : From s (a ++ b) := fun c hc =>
  (List.mem_append.mp hc).elim (ha c) (hb c)

theorem From.mono {s s' a : List Nat} (h : ∀ c ∈ s, c ∈ s') (ha : From s a) : From s' a := fun c hc => (ha c hc).imp id (h c)

theorem From.quiet {s a : List Nat} (h : Quiet a) : From s a := by
  intro c hc
  refine Or.inl ?_
  induction h with
  | nil => simp at hc
  | lf _ ih => rcases List.mem_cons.mp hc with rfl | hc; exacts [Or.inr (Or.inl rfl), ih hc]
  | ascii h1 h2 _ ih => rcases List.mem_cons.mp hc with rfl | hc; exacts [Or.inl ⟨h1, by omega⟩, ih hc]
  | latin h1 h2 h3 _ ih =>
    rcases List.mem_cons.mp hc with rfl | hc
    · exact Or.inl ⟨by omega, by omega⟩
    · rcases List.mem_cons.mp hc with rfl | hc
      · exact Or.inl ⟨by omega, by omega⟩
      · exact ih hc

theorem From.self {s a : List Nat} (h : ∀ c ∈ a, c ∈ s) : From s a := fun c hc => Or.inr (h c hc)

theorem From.ite {s a b : List Nat} {p : Prop} [Decidable p] (ha : From s a) (hb : From s b) : From s (if p then a else b) := by
  split <;> assumption

theorem From.nil {s : List Nat} : From s [] := fun c hc => by simp at hc

theorem From.mild {s a : List Nat} (h : ∀ c ∈ a, Mild c) : From s a := fun c hc => Or.inl (h c hc)

theorem From.spaces {s : List Nat} (n : Nat) : From s (List.replicate n 32) := From.mild fun c hc => by
  rw [(List.mem_replicate.mp hc).2]
  exact Or.inl ⟨by omega, by omega⟩

theorem From.dec {s : List Nat} (n : Nat) : From s (dec n) := From.quiet (quiet_dec n)

theorem From.padl {s a : List Nat} (w : Nat) (h : From s a) : From s (padl w a) := (From.spaces _).append h

theorem From.padr {s a : List Nat} (w : Nat) (h : From s a) : From s (padr w a) := h.append (From.spaces _)

instance (c : Nat) : Decidable (Mild c) := inferInstanceAs (Decidable ((32 ≤ c ∧ c ≠ 127) ∨ c = 10 ∨ c = 0))

theorem hex_mild (n : Nat) : ∀ c ∈ (Nat.toDigits 16 n).map Char.toNat, Mild c := fun c hc => by
  have := (hex_digits n).1 c hc
  exact Or.inl ⟨by omega, by omega⟩

theorem From.hex4 {s : List Nat} (n : Nat) : From s (hex4 n) := by
  unfold Lha.hex4
  refine From.mild fun c hc => ?_
  rcases List.mem_append.mp hc with hc | hc
  · rw [(List.mem_replicate.mp hc).2]; decide
  · exact hex_mild n c hc

theorem From.size {s : List Nat} (k : Look) (p o : Nat) : From s (sizeText k p o) := by
  unfold sizeText percentText
  exact ((((From.ite ((From.padl 7 (From.dec p)).append (From.mild (by decide))) From.nil).append (From.padl 7 (From.dec o))).append
    (From.mild (by decide))).append (From.ite (From.mild (by decide)) ((From.padl 5 (((From.dec _).append (From.mild (by decide))).append
      (From.dec _))).append (From.mild (by decide)))))

theorem From.stamp {s : List Nat} (k : Look) : From s (stampText k) := From.spaces _

theorem permChars_mild (mode : Nat) : ∀ c ∈ (permChars mode).map Char.toNat, Mild c := by
  intro c hc
  obtain ⟨d, hd, rfl⟩ := List.mem_map.mp hc
  simp only [permChars, List.mem_cons, List.not_mem_nil, or_false] at hd
  rcases hd with rfl | rfl | rfl | rfl | rfl | rfl | rfl | rfl | rfl | rfl <;> (split_ifs <;> decide)

theorem oskChars_mild (mode : Nat) : ∀ c ∈ oskChars mode, Mild c := by
  intro c hc
  simp only [oskChars, List.mem_cons, List.not_mem_nil, or_false] at hc
  rcases hc with rfl | rfl | rfl | rfl | rfl | rfl | rfl | rfl <;> (split_ifs <;> decide)

theorem mild_ite {p : Prop} [Decidable p] {a b : String} (ha : ∀ c ∈ str a, Mild c) (hb : ∀ c ∈ str b, Mild c) : ∀ c ∈ str (if p then a else b), Mild c := by
  by_cases h : p
  · rw [if_pos h]; exact ha
  · rw [if_neg h]; exact hb

theorem systemLabel_mild (t : Nat) : ∀ c ∈ str (systemLabel t), Mild c := by
  unfold systemLabel
  iterate 12 refine mild_ite (by decide +kernel) ?_
  decide +kernel

theorem From.perm {s : List Nat} (h : Hdr) : From s (permText h) := by
  unfold permText
  refine From.ite ((From.mild (permChars_mild _)).append (From.mild (by decide))) (From.ite From.nil
    (From.ite ((From.mild (oskChars_mild _)).append (From.mild (by decide))) (From.padr 11 (From.mild fun c hc => ?_))))
  exact systemLabel_mild _ c (List.mem_of_mem_take hc)

theorem From.name (h : Hdr) : From (texts h) (nameText h) := by
  unfold nameText texts
  exact From.ite (From.self fun c hc => by simp [hc]) (((From.self fun c hc => by simp [hc]).append (From.mild (by decide))).append
    (From.self fun c hc => by simp [hc]))

theorem From.owner {h : Hdr} {t : List Nat} (ht : ownerText h = .ok t) : From (texts h) t := by
  unfold ownerText at ht
  split at ht
  · obtain ⟨u, hu, ht⟩ := bind_ok ht
    obtain ⟨g, hg, ht⟩ := bind_ok ht
    cases ht
    have key : ∀ {name : List Nat} {id : Nat} {x : List Nat ⊕ Nat}, ownerOf name id = .ok x → ∀ n, x = .inl n → n = name := by
      intro name id x hx n hn
      unfold ownerOf at hx
      split at hx
      · cases hx
      · split at hx
        · cases hx; cases hn; rfl
        · cases hx; cases hn
    refine (((From.append ?_ (From.mild (by decide))).append ?_).append (From.mild (by decide)))
    · cases u with
      | inl n =>
        have := key hu n rfl
        subst this
        exact From.padl 5 (From.self fun c hc => by simp [texts, List.mem_of_mem_take hc])
      | inr i => exact From.padl 5 (From.dec i)
    · cases g with
      | inl n =>
        have := key hg n rfl
        subst this
        exact From.padr 5 (From.self fun c hc => by simp [texts, List.mem_of_mem_take hc])
      | inr i => exact From.padr 5 (From.dec i)
  · cases ht
    exact From.spaces _

theorem From.row {k : Look} {h : Hdr} {t : List Nat} (ht : rowText k h = .ok t) : From (texts h) t := by
  unfold rowText at ht
  obtain ⟨o, ho, ht⟩ := bind_ok ht
  cases ht
  have hmeth : From (texts h) ((h.method ++ List.replicate 5 0).take 5) := fun c hc => by
    rcases List.mem_append.mp (List.mem_of_mem_take hc) with hc | hc
    · exact Or.inr (by simp [texts, hc])
    · rw [(List.mem_replicate.mp hc).2]; exact Or.inl (by decide)
  have h1 : From (texts h) [32] := From.mild (by decide)
  have h0 : From (texts h) [0] := From.mild (by decide)
  have h10 : From (texts h) [10] := From.mild (by decide)
  refine From.append (From.append (From.append (From.append (From.append (From.append (From.append (From.append (From.append ?_ (From.perm h))
    (From.owner ho)) (From.size k _ _)) ?_) h1) (From.stamp k)) ?_) ?_) h10
  · exact From.ite ((From.name h).append h10) From.nil
  · exact From.ite (((((h1.append hmeth).append h0).append h1)).append (From.ite (From.hex4 _) (From.mild (by decide)))) From.nil
  · exact From.ite From.nil (h1.append (From.name h))
  · exact From.ite (((From.mild (by decide)).append (From.dec _)).append (From.mild (by decide))) From.nil

theorem From.bar {s : List Nat} (k : Look) : From s (barText k) := by
  unfold barText
  split_ifs <;> exact From.mild (by decide)

theorem From.head {s : List Nat} (k : Look) : From s (headText k) := by
  unfold headText
  refine From.append ?_ (From.bar k)
  split_ifs <;> exact From.mild (by decide)

theorem From.tail {s : List Nat} (k : Look) (a b c : Nat) : From s (tailText k a b c) := by
  unfold tailText
  have h32 : From s [32] := From.mild (by decide)
  have hs : From s [if a = 1 then 32 else 115] := by split_ifs <;> exact From.mild (by decide)
  exact ((((((((((From.bar k).append (From.mild (by decide))).append (From.padl 9 (From.dec a))).append (From.mild (by decide))).append hs).append
    h32).append (From.size k b c)).append h32).append (From.ite (From.spaces 11) From.nil)).append (From.stamp k)).append (From.mild (by decide))

theorem listLoopT_from (f : Fmt) (tab : Arr) (o : Opts) (k : Look) : ∀ (n : Nat) (h : Hdr) (err : Bool) (text : List Nat) (a b c : Nat) (inp : List Nat)
    (err' : Bool) (text' : List Nat) (a' b' c' : Nat), listLoopT f tab o k n h err text a b c inp = .ok (err', text', a', b', c') →
    ∃ gs add, Headed f tab h inp gs ∧ text' = text ++ add ∧ From (gs.flatMap texts) add := by
  intro n
  induction n with
  | zero => intro h err text a b c inp err' text' a' b' c' hl; cases hl
  | succ n ih =>
    intro h err text a b c inp err' text' a' b' c' hl
    unfold listLoopT at hl
    obtain ⟨x, hx, hl⟩ := bind_ok hl
    cases x with
    | eof => cases hl; exact ⟨[], [], .stop, by simp, From.nil⟩
    | bad => cases hl; exact ⟨[], [], .stop, by simp, From.nil⟩
    | fin => cases hl; exact ⟨[], [], .stop, by simp, From.nil⟩
    | got g rest =>
      simp only [] at hl
      by_cases hn : needFile o g.name
      · rw [if_pos hn] at hl
        obtain ⟨r, hr, hl⟩ := bind_ok hl
        obtain ⟨gs, add, w, e, m⟩ := ih _ _ _ _ _ _ _ _ _ _ _ _ hl
        refine ⟨g :: gs, r ++ add, .next hx w, by rw [e, List.append_assoc], ?_⟩
        rw [List.flatMap_cons]
        exact ((From.row hr).mono fun c hc => List.mem_append_left _ hc).append (m.mono fun c hc => List.mem_append_right _ hc)
      · rw [if_neg hn] at hl
        obtain ⟨gs, add, w, e, m⟩ := ih _ _ _ _ _ _ _ _ _ _ _ _ hl
        refine ⟨g :: gs, add, .next hx w, e, ?_⟩
        rw [List.flatMap_cons]
        exact m.mono fun c hc => List.mem_append_right _ hc

/-- **C113 (partial).**  Full statement: the text of a listing consists of line feeds and printable characters.  Proved: every byte of it that is neither
is a NUL, or stands in the name, the target of a link, the method, the owner or the group of one of the headers read.  Any archive, damaged or not, any
style, any selection. -/
theorem C113_partial (f : Fmt) (tab : Arr) (o : Opts) (k : Look) (a : List Nat) (err : Bool) (text : List Nat)
    (h : commandListT f tab o k (some a) = .ok (err, text)) :
    ∃ gs, Headed f tab newHdr a gs ∧
      ∀ c ∈ text, Printable c ∨ c = 10 ∨ c = 0 ∨ ∃ g ∈ gs, c ∈ g.name ∨ c ∈ g.realname ∨ c ∈ g.method ∨ c ∈ g.user ∨ c ∈ g.group := by
  unfold commandListT at h
  simp only [] at h
  obtain ⟨⟨err1, text1, a1, b1, c1⟩, h1, h⟩ := bind_ok h
  cases h
  obtain ⟨gs, add, w, e, m⟩ := listLoopT_from f tab o k _ _ _ _ _ _ _ _ _ _ _ _ _ h1
  refine ⟨gs, w, fun c hc => ?_⟩
  have hall : From (gs.flatMap texts) (text1 ++ if k.quiet then [] else tailText k a1 b1 c1) := by
    rw [e]
    exact ((From.ite From.nil (From.head k)).append m).append (From.ite From.nil (From.tail k _ _ _))
  rcases hall c hc with (h | h | h) | h
  · exact Or.inl h
  · exact Or.inr (Or.inl h)
  · exact Or.inr (Or.inr (Or.inl h))
  · obtain ⟨g, hg, h⟩ := List.mem_flatMap.mp h
    simp only [texts, List.mem_append] at h
    exact Or.inr (Or.inr (Or.inr ⟨g, hg, by tauto⟩))

/-- **C113 is false:** a name is printed as it is; whatever escape sequences are in it, the terminal gets them.  Every name of an archive as in C60, in
every style. -/
theorem C113_false (f : Fmt) (hg : f.generic = false) (tab : Arr) (k : Look) (es : List Entry) (hes : ∀ e ∈ es, e.Ok) (hinc : NonInc 1024 es) (r : List Nat)
    (e : Entry) (he : e ∈ es) :
    ∃ text, commandListT f tab Opts.default k (some (archive es (0 :: r))) = .ok (false, text) ∧ e.name <:+: text ∧ 0 ∈ text := by
  refine ⟨_, listing_styled f hg tab k es hes hinc r, ?_⟩
  have h1 : styledOf k e <:+: (if k.quiet then [] else headText k) ++ es.flatMap (styledOf k) ++
      if k.quiet then [] else tailText k es.length (es.map (·.packed.length)).sum (es.map (·.content.length)).sum := by
    obtain ⟨l1, l2, rfl⟩ := List.append_of_mem he
    rw [List.flatMap_append, List.flatMap_cons]
    exact ⟨(if k.quiet then [] else headText k) ++ l1.flatMap (styledOf k), l2.flatMap (styledOf k) ++ if k.quiet then [] else
      tailText k (l1 ++ e :: l2).length ((l1 ++ e :: l2).map (·.packed.length)).sum ((l1 ++ e :: l2).map (·.content.length)).sum, by simp only [List.append_assoc]⟩
  have h2 : e.name <:+: styledOf k e := by
    unfold styledOf
    by_cases hv : k.verbose
    · simp only [hv, if_true]
      exact ⟨[], _, by rw [List.nil_append]; simp only [List.append_assoc]; rfl⟩
    · simp only [hv]
      exact (List.infix_append [32] e.name [0]).trans (List.infix_append _ _ [10])
  refine ⟨h2.trans h1, h1.subset ?_⟩
  unfold styledOf
  simp

/-- A name that clears the screen, as in the theorem: `ESC [ 2 J`. -/
example : let e : Entry := ⟨[45, 108, 104, 48, 45], [27, 91, 50, 74], [65], [65], 0, 0, 0, 0o644, 0, 0, 0x20, 0o100000⟩
    e.Ok ∧ NonInc 1024 [e] ∧ ¬ Printable 27 :=
  ⟨⟨rfl, by decide, by decide, by decide, by decide, by decide, by decide, by decide, Or.inl rfl⟩, ⟨by decide, trivial⟩, fun h => by have := h.1; omega⟩

/-- A case of `C113_partial`: a listing that comes to an end, of an archive cut off in the middle of a header. -/
example : (commandListT ⟨false, false⟩ ⟨0, .leaf 0⟩ Opts.default ⟨false, false, true⟩ (some [40, 1, 2])).toBool = true := by decide +kernel

end Lha
