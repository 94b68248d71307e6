import Verif.Props.C93
/-!
# C95: what can be told from a listing
-/

namespace Lha

open Spec

theorem lf_split {a b x y : List Nat} (ha : 10 ∉ a) (hb : 10 ∉ b) (h : a ++ 10 :: x = b ++ 10 :: y) : a = b ∧ x = y := by
  induction a generalizing b with
  | nil =>
    cases b with
    | nil => exact ⟨rfl, (List.cons.inj h).2⟩
    | cons d b =>
      have := (List.cons.inj h).1
      exact absurd (this ▸ List.mem_cons_self) hb
  | cons c a ih =>
    cases b with
    | nil =>
      have := (List.cons.inj h).1
      exact absurd (this ▸ List.mem_cons_self) ha
    | cons d b =>
      obtain ⟨h1, h2⟩ := List.cons.inj h
      obtain ⟨i1, i2⟩ := ih (fun hm => ha (List.mem_cons_of_mem c hm)) (fun hm => hb (List.mem_cons_of_mem d hm)) h2
      exact ⟨by rw [h1, i1], i2⟩

theorem digits_filter {n : Nat} {ds : List Nat} (h : Digits n ds) : ds.filter (· ≠ 32) = ds := by
  rw [List.filter_eq_self]
  intro d hd
  have := h.2.1 d hd
  simp only [decide_eq_true_eq]
  omega

theorem blanks_filter (n : Nat) : (List.replicate n 32).filter (· ≠ 32) = ([] : List Nat) := by
  rw [List.filter_eq_nil_iff]
  intro d hd
  rw [List.eq_of_mem_replicate hd]
  decide

/-- A column shows one number only. -/
theorem colR_inj {w a b : Nat} {s : List Nat} (ha : ColR w a s) (hb : ColR w b s) : a = b := by
  obtain ⟨_, k, ds, h1, h2⟩ := ha
  obtain ⟨_, k', ds', h1', h2'⟩ := hb
  have e1 : s.filter (· ≠ 32) = ds := by rw [h1, List.filter_append, blanks_filter, digits_filter h2, List.nil_append]
  have e2 : s.filter (· ≠ 32) = ds' := by rw [h1', List.filter_append, blanks_filter, digits_filter h2', List.nil_append]
  rw [← h2.2.2, ← h2'.2.2, ← e1, ← e2]

theorem colL_inj {w a b : Nat} {s : List Nat} (ha : ColL w a s) (hb : ColL w b s) : a = b := by
  obtain ⟨_, k, ds, h1, h2⟩ := ha
  obtain ⟨_, k', ds', h1', h2'⟩ := hb
  have e1 : s.filter (· ≠ 32) = ds := by rw [h1, List.filter_append, blanks_filter, digits_filter h2, List.append_nil]
  have e2 : s.filter (· ≠ 32) = ds' := by rw [h1', List.filter_append, blanks_filter, digits_filter h2', List.append_nil]
  rw [← h2.2.2, ← h2'.2.2, ← e1, ← e2]

theorem permString_length (d : Bool) (p : Nat) : ((permString d p).map Char.toNat).length = 10 := by
  rw [List.length_map]
  rfl

/-- What the ten characters say. -/
def readPerm (s : List Nat) : Bool × Nat := (s.headD 0 = 100, (s.drop 1).foldl (fun a c => 2 * a + if c = 45 then 0 else 1) 0)

theorem readPerm_permString : ∀ (d : Bool) (p : Fin 512), readPerm ((permString d p.1).map Char.toNat) = (d, p.1) := by decide +kernel

/-- Two entries agree in what a listing shows: name, kind, permissions, owner, size. -/
def SameShown (e e' : Entry) : Prop :=
  e.name = e'.name ∧ e.kind = e'.kind ∧ e.perm = e'.perm ∧ e.uid % 2 ^ 16 = e'.uid % 2 ^ 16 ∧ e.gid % 2 ^ 16 = e'.gid % 2 ^ 16 ∧
    e.content.length = e'.content.length

/-- What the entries of `C95_partial` must be. -/
structure Tame (e : Entry) : Prop where
  ok : e.Ok
  lf : 10 ∉ e.name
  perm : e.perm < 512
  size : e.content.length < 10 ^ 7
  ratio : e.packed.length ≤ 9 * e.content.length

theorem line_inj {e e' : Entry} (t : Tame e) (t' : Tame e') (h : lineOf e = lineOf e') : SameShown e e' := by
  have hl := lineOf_line t.size t.ratio
  have hl' := lineOf_line t'.size t'.ratio
  rw [← h] at hl'
  generalize lineOf e = l at *
  obtain ⟨u, g, s, r, h1, hu, hg, hs, hr⟩ := hl
  obtain ⟨u', g', s', r', h2, hu', hg', hs', hr'⟩ := hl'
  rw [h1] at h2
  simp only [List.append_assoc] at h2
  obtain ⟨p1, h2⟩ := List.append_inj h2 (by rw [permString_length, permString_length])
  obtain ⟨_, h2⟩ := List.append_inj h2 rfl
  obtain ⟨p2, h2⟩ := List.append_inj h2 (by rw [hu.1, hu'.1])
  obtain ⟨_, h2⟩ := List.append_inj h2 rfl
  obtain ⟨p3, h2⟩ := List.append_inj h2 (by rw [hg.1, hg'.1])
  obtain ⟨_, h2⟩ := List.append_inj h2 rfl
  obtain ⟨p4, h2⟩ := List.append_inj h2 (by rw [hs.1, hs'.1])
  obtain ⟨_, h2⟩ := List.append_inj h2 rfl
  obtain ⟨_, h2⟩ := List.append_inj h2 (by rw [hr.1, hr'.1])
  obtain ⟨_, h2⟩ := List.append_inj h2 rfl
  obtain ⟨_, h2⟩ := List.append_inj h2 rfl
  obtain ⟨_, h2⟩ := List.append_inj h2 rfl
  obtain ⟨p5, _⟩ := List.append_inj' h2 rfl
  subst p2 p3 p4
  have q := readPerm_permString (e.kind = 0o040000) ⟨e.perm, t.perm⟩
  have q' := readPerm_permString (e'.kind = 0o040000) ⟨e'.perm, t'.perm⟩
  rw [p1, q'] at q
  obtain ⟨q1, q2⟩ := Prod.mk.inj q
  refine ⟨p5, ?_, q2.symm, colR_inj hu hu', colL_inj hg hg', colR_inj hs hs'⟩
  have q1 := decide_eq_decide.mp q1
  rcases t.ok.kind with a | a <;> rcases t'.ok.kind with b | b <;> rw [a, b] at q1 ⊢ <;> revert q1 <;> decide

theorem lineOf_end (e : Entry) (h : 10 ∉ e.name) : ∃ l, lineOf e = l ++ [10] ∧ 10 ∉ l := by
  have hc := lineOf_lf e
  obtain ⟨l, hl⟩ : ∃ l, lineOf e = l ++ [10] := by
    unfold lineOf
    rw [show ([0, 10] : List Nat) = [0] ++ [10] from rfl, ← List.append_assoc]
    exact ⟨_, rfl⟩
  refine ⟨l, hl, ?_⟩
  rw [hl, List.count_append, List.count_eq_zero.2 h] at hc
  exact List.count_eq_zero.1 (by simpa using hc)

theorem lines_inj {es : List Entry} : ∀ {es' : List Entry} {x y : List Nat}, (∀ e ∈ es, Tame e) → (∀ e ∈ es', Tame e) → es.length = es'.length →
    es.flatMap lineOf ++ x = es'.flatMap lineOf ++ y → List.Forall₂ SameShown es es' := by
  induction es with
  | nil =>
    intro es' x y _ _ hl _
    rw [List.eq_nil_of_length_eq_zero hl.symm]
    exact .nil
  | cons e es ih =>
    intro es' x y h1 h2 hl h
    cases es' with
    | nil => cases hl
    | cons e' es' =>
      rw [List.flatMap_cons, List.flatMap_cons] at h
      have t := h1 e List.mem_cons_self
      have t' := h2 e' List.mem_cons_self
      obtain ⟨l, hl1, hl2⟩ := lineOf_end e t.lf
      obtain ⟨l', hl1', hl2'⟩ := lineOf_end e' t'.lf
      have hh := h
      rw [hl1, hl1'] at hh
      simp only [List.append_assoc, List.singleton_append] at hh
      obtain ⟨a, b⟩ := lf_split hl2 hl2' hh
      refine .cons (line_inj t t' (by rw [hl1, hl1', a])) ?_
      exact ih (fun z hz => h1 z (List.mem_cons_of_mem _ hz)) (fun z hz => h2 z (List.mem_cons_of_mem _ hz)) (by simpa using hl) b

/-- **C95 (partial).**  Full statement: from a listing one can tell the names, kinds, permissions, owners, sizes and times of the entries.  Proved without the
times, for entries as in C93, with permissions of nine bits: if the listings of two archives are the same, so are these (owners modulo 2^16, as
they are stored). -/
theorem C95_partial (f : Fmt) (hg : f.generic = false) (tab : Arr) (es es' : List Entry) (hes : ∀ e ∈ es, Tame e) (hes' : ∀ e ∈ es', Tame e)
    (hinc : NonInc 1024 es) (hinc' : NonInc 1024 es') (r r' : List Nat)
    (h : commandListT f tab Opts.default Look.plain (some (archive es (0 :: r))) = commandListT f tab Opts.default Look.plain (some (archive es' (0 :: r')))) :
    List.Forall₂ SameShown es es' := by
  have h1 := listing_text f hg tab false es (fun e he => (hes e he).ok) hinc r
  have h2 := listing_text f hg tab false es' (fun e he => (hes' e he).ok) hinc' r'
  have hn : ∀ {l : List Entry}, (∀ e ∈ l, Tame e) → (l.map (·.name.count 10)).sum = 0 := by
    intro l hl
    rw [List.sum_eq_zero]
    intro x hx
    obtain ⟨e, he, rfl⟩ := List.mem_map.mp hx
    exact List.count_eq_zero.2 (hl e he).lf
  obtain ⟨t1, c1, d1⟩ := C93_false f hg tab es (fun e he => (hes e he).ok) hinc r
  obtain ⟨t2, c2, d2⟩ := C93_false f hg tab es' (fun e he => (hes' e he).ok) hinc' r'
  have c3 := c1.symm.trans (h.trans c2)
  have c4 := (Prod.mk.inj (Except.ok.inj c3)).2
  have hl : es.length = es'.length := by
    rw [hn hes] at d1
    rw [hn hes'] at d2
    rw [c4] at d1
    omega
  have h3 := h1.symm.trans (h.trans h2)
  have h4 := (Prod.mk.inj (Except.ok.inj h3)).2
  simp only [Bool.false_eq_true, if_false, List.append_assoc] at h4
  exact lines_inj hes hes' hl (List.append_cancel_left h4)

/-- **C95 is false:** no listing shows a time.  Two archives whose entries differ in their times only have the same listing. -/
theorem C95_false (f : Fmt) (hg : f.generic = false) (tab : Arr) (q : Bool) (es : List Entry) (dos unix : Entry → Nat) (hes : ∀ e ∈ es, e.Ok)
    (hinc : NonInc 1024 es) (hinc' : NonInc 1024 (es.map fun e => { e with dosTime := dos e, unixTime := unix e })) (r : List Nat) :
    commandListT f tab Opts.default ⟨false, false, q⟩ (some (archive (es.map fun e => { e with dosTime := dos e, unixTime := unix e }) (0 :: r))) =
      commandListT f tab Opts.default ⟨false, false, q⟩ (some (archive es (0 :: r))) := by
  rw [listing_text f hg tab q es hes hinc r, listing_text f hg tab q _ ?_ hinc' r]
  · simp only [List.length_map, List.map_map, List.flatMap_map]
    rfl
  · intro e he
    obtain ⟨e, h, rfl⟩ := List.mem_map.mp he
    have := hes e h
    exact ⟨this.method, this.name, this.nul, this.bs, this.packed, this.content, this.crc, this.perm, this.kind⟩

/-- Nor can one tell whether a file with the set-uid bit may be executed: `rws` is shown for both. -/
theorem C95_false_setuid (f : Fmt) (hg : f.generic = false) (tab : Arr) (e : Entry) (he : e.Ok) (hk : e.kind = 0o100000) (hn : e.name.length < 1024)
    (r : List Nat) :
    commandListT f tab Opts.default Look.plain (some (archive [{ e with perm := 0o4644 }] (0 :: r))) =
      commandListT f tab Opts.default Look.plain (some (archive [{ e with perm := 0o4744 }] (0 :: r))) := by
  have key : ∀ p, p < 2 ^ 12 → ({ e with perm := p } : Entry).Ok := fun p hp => ⟨he.method, he.name, he.nul, he.bs, he.packed, he.content, he.crc, hp, he.kind⟩
  have a := listing_text f hg tab false [{ e with perm := 0o4644 }] (by intro x hx; rw [List.mem_singleton.mp hx]; exact key _ (by decide)) ⟨hn, trivial⟩ r
  have b := listing_text f hg tab false [{ e with perm := 0o4744 }] (by intro x hx; rw [List.mem_singleton.mp hx]; exact key _ (by decide)) ⟨hn, trivial⟩ r
  refine a.trans (Eq.trans ?_ b.symm)
  have hp : permString (decide (e.kind = 0o040000)) 0o4644 = permString (decide (e.kind = 0o040000)) 0o4744 := by rw [hk]; decide +kernel
  have hl : lineOf { e with perm := 0o4644 } = lineOf { e with perm := 0o4744 } := by
    unfold lineOf
    simp only [hp]
  simp only [List.flatMap_cons, List.flatMap_nil, hl, List.map_cons, List.map_nil, List.length_singleton]

/-- The hypotheses are met by a directory `d` and an entry `a`: -/
example : let e : Entry := ⟨[45, 108, 104, 100, 45], [100], [], [], 0, 0, 0, 0o755, 0, 0, 0x20, 0o040000⟩
    let e' : Entry := ⟨[45, 120, 120, 120, 45], [97], [1, 2], [3], 4, 0, 0, 0o644, 0, 0, 0x20, 0o100000⟩
    (∀ x ∈ [e, e'], Tame x) ∧ NonInc 1024 [e, e'] := by
  refine ⟨?_, ⟨by decide, by decide, trivial⟩⟩
  intro x hx
  simp only [List.mem_cons, List.not_mem_nil, or_false] at hx
  rcases hx with rfl | rfl
  · exact ⟨⟨rfl, by decide, by decide, by decide, by decide, by decide, by decide, by decide, Or.inr rfl⟩, by decide, by decide, by decide, by decide⟩
  · exact ⟨⟨rfl, by decide, by decide, by decide, by decide, by decide, by decide, by decide, Or.inl rfl⟩, by decide, by decide, by decide, by decide⟩

end Lha
