import Verif.Proof.Session
import Verif.Props.C01
/-!
# C74: using the package for a while does not change what it does
-/

namespace Lha

/-- The package variables after a session: a sequence of calls in one process, of which those that compress use the method `m`
(or one that stores), the others any archives, well-formed or not, and any options.  `decode` is one entry being decompressed in any other way. -/
inductive Session (m : Nat) (tab : Arr) : Proc → Prop
  | start : Session m tab Proc.fresh
  | commandAdd {p : Proc} {f : Fmt} {e : Env} {up : List Nat → List Nat} {m' level : Nat} {name : List Nat} {excl : List (List Nat)} {move : Bool}
      {items : List (List Nat × Option (List Nat))} {arch : Option (List Nat)} {c : CallOut} : Session m tab p → m' = m ∨ geoOf m' = none →
      (∀ i ∈ items, ∀ b, i.2 = some b → IsBytes b) → commandAdd f tab e up m' level name excl move items arch p = .ok (some c) → Session m tab c.proc
  | compressBytes {p : Proc} {f : Fmt} {e : Env} {m' level : Nat} {archive name body : List Nat} {arch : Option (List Nat)} {c : CallOut} :
      Session m tab p → m' = m ∨ geoOf m' = none → IsBytes body →
      compressBytes f tab e m' level archive name body arch p = .ok (some c) → Session m tab c.proc
  | compress {p : Proc} {f : Fmt} {e : Env} {m' level : Nat} {archive name : List Nat} {body : Option (List Nat)} {arch : Option (List Nat)}
      {c : CallOut} : Session m tab p → m' = m ∨ geoOf m' = none → (∀ b, body = some b → IsBytes b) →
      compress f tab e m' level archive name body arch p = .ok (some c) → Session m tab c.proc
  | headers {p : Proc} {f : Fmt} {o : Opts} {arch : Option (List Nat)} {r : HeadersOut} : Session m tab p →
      headers f (others tab) tab o p.h arch = .ok r → Session m tab ⟨r.hf, p.b⟩
  | decompresBytes {p : Proc} {f : Fmt} {sfx : Bool} {want : List Nat} {arch : Option (List Nat)} {r : ReadOut} : Session m tab p →
      decompresBytes f (others tab) tab sfx want p.h arch = .ok r → Session m tab ⟨r.hf, p.b⟩
  | decompress {p : Proc} {f : Fmt} {o : Opts} {sfx : Bool} {want : List Nat} {s s' : Sys} {arch : Option (List Nat)} {err : Bool} {hf : Hf} :
      Session m tab p → decompressD f (others tab) tab o sfx want p.h s arch = .ok (err, s', hf) → Session m tab ⟨hf, p.b⟩
  | commandExtract {p : Proc} {f : Fmt} {o : Opts} {sfx : Bool} {s s' : Sys} {arch : Option (List Nat)} {err : Bool} {hf : Hf} :
      Session m tab p → commandExtractD f (others tab) tab o sfx p.h s arch = .ok (err, s', hf) → Session m tab ⟨hf, p.b⟩
  | commandTest {p : Proc} {f : Fmt} {o : Opts} {sfx : Bool} {arch : Option (List Nat)} {err : Bool} {hf : Hf} :
      Session m tab p → commandTest f (others tab) tab o sfx p.h arch = .ok (err, hf) → Session m tab ⟨hf, p.b⟩
  | decode {p : Proc} {k original packed : Nat} {inp : List Nat} {d : DecOut} : Session m tab p →
      decodeLzhuf (others tab) tab k p.h original packed inp = .ok d → Session m tab ⟨d.h, p.b⟩

/-- What adding shows to its caller: whether an error is returned, the archive, the files deleted. -/
def shownAdd (x : G (Option CallOut)) : G (Option (Bool × Option (List Nat) × List (List Nat))) :=
  x.map (Option.map (fun c => (c.err, c.archive, c.deleted)))

theorem alike_of {m : Nat} (hm : m = 5 ∨ m = 6 ∨ m = 7) {g : Geo} (hg : geoOf m = some g) {tab : Arr} (ht : makeCrcTable = .ok tab) {m' : Nat}
    (h : m' = m ∨ geoOf m' = none) : Alike (After g tab) m' tab := by
  rcases h with rfl | h
  · exact alike_after hm hg ht
  · exact alike_none h tab

theorem commandAdd_after {m : Nat} (hm : m = 5 ∨ m = 6 ∨ m = 7) {g : Geo} (hg : geoOf m = some g) {tab : Arr} (ht : makeCrcTable = .ok tab) {m' : Nat}
    (hm' : m' = m ∨ geoOf m' = none) {f : Fmt} {e : Env} {up : List Nat → List Nat} {level : Nat} {name : List Nat} {excl : List (List Nat)} {move : Bool}
    {items : List (List Nat × Option (List Nat))} {arch : Option (List Nat)} {c : CallOut} {p : Proc} (hp : After g tab p)
    (hb : ∀ i ∈ items, ∀ b, i.2 = some b → IsBytes b) (hc : commandAdd f tab e up m' level name excl move items arch p = .ok (some c)) :
    After g tab c.proc := by
  rcases commandAdd_twins (alike_of hm hg ht hm') f e up level name excl move items hb arch hp hp with ⟨x, h1, _⟩ | ⟨h1, _⟩ | ⟨c', p', q', h1, _, h3, _⟩
  · rw [hc] at h1; cases h1
  · rw [hc] at h1; cases h1
  · rw [hc] at h1
    cases h1
    exact h3

theorem one_item {name : List Nat} {body : Option (List Nat)} (h : ∀ b, body = some b → IsBytes b) : ∀ i ∈ [(name, body)], ∀ b, i.2 = some b → IsBytes b := by
  intro i hi b hb
  simp only [List.mem_singleton] at hi
  subst hi
  exact h b hb

theorem Session.after {m : Nat} (hm : m = 5 ∨ m = 6 ∨ m = 7) {g : Geo} (hg : geoOf m = some g) {tab : Arr} (ht : makeCrcTable = .ok tab) {p : Proc}
    (h : Session m tab p) : After g tab p := by
  have R := reads_after tab
  induction h with
  | start => exact .fresh
  | commandAdd _ h1 h2 h3 ih => exact commandAdd_after hm hg ht h1 ih h2 h3
  | @compressBytes _ _ _ _ _ _ _ _ arch _ _ h1 h2 h3 ih =>
    cases arch with
    | some a => cases h3; exact ih
    | none => exact commandAdd_after hm hg ht h1 ih (one_item (fun b hb => by cases hb; exact h2)) h3
  | @compress _ _ _ _ _ _ _ _ arch _ _ h1 h2 h3 ih =>
    cases arch with
    | some a => cases h3; exact ih
    | none => exact commandAdd_after hm hg ht h1 ih (one_item h2) h3
  | @headers _ _ _ arch _ _ h1 ih =>
    cases arch with
    | none => cases h1; exact ih
    | some a => exact headersLoop_reads R _ h1 g _ ih
  | @decompresBytes _ _ _ _ arch _ _ h1 ih =>
    cases arch with
    | none => cases h1; exact ih
    | some a =>
      unfold Lha.decompresBytes at h1
      simp only [] at h1
      split at h1 <;>
      · obtain ⟨a', _, h2⟩ := bind_ok h1
        exact extractBytesLoop_reads R _ h2 g _ ih
  | @decompress _ _ _ _ _ _ _ arch _ _ _ h1 ih =>
    cases arch with
    | none => cases h1; exact ih
    | some a =>
      unfold decompressD at h1
      simp only [] at h1
      split at h1 <;>
      · obtain ⟨a', _, h2⟩ := bind_ok h1
        exact extractLoopD_reads R _ h2 g _ ih
  | @commandExtract _ _ _ _ _ _ arch _ _ _ h1 ih =>
    cases arch with
    | none => cases h1; exact ih
    | some a =>
      unfold commandExtractD at h1
      simp only [] at h1
      split at h1 <;>
      · obtain ⟨a', _, h2⟩ := bind_ok h1
        exact extractLoopD_reads R _ h2 g _ ih
  | @commandTest _ _ _ _ arch _ _ _ h1 ih =>
    cases arch with
    | none => cases h1; exact ih
    | some a =>
      unfold Lha.commandTest at h1
      simp only [] at h1
      split at h1 <;>
      · obtain ⟨a', _, h2⟩ := bind_ok h1
        exact testLoop_reads R _ h2 g _ ih
  | decode _ h1 ih => exact R.dec _ _ _ _ _ _ h1 g _ ih

/-- **C74, writing.**  At any point of any session, what adding files to an archive shows to its caller (the archive, errors, also panics) is what
it would show in a fresh process. -/
theorem C74_add (tab : Arr) (ht : makeCrcTable = .ok tab) (m : Nat) (hm : m = 5 ∨ m = 6 ∨ m = 7) (p : Proc) (hp : Session m tab p)
    (f : Fmt) (e : Env) (up : List Nat → List Nat) (m' level : Nat) (hm' : m' = m ∨ geoOf m' = none) (name : List Nat) (excl : List (List Nat))
    (move : Bool) (items : List (List Nat × Option (List Nat))) (hb : ∀ i ∈ items, ∀ b, i.2 = some b → IsBytes b) (arch : Option (List Nat)) :
    shownAdd (commandAdd f tab e up m' level name excl move items arch p) =
      shownAdd (commandAdd f tab e up m' level name excl move items arch Proc.fresh) := by
  obtain ⟨g, hg⟩ : ∃ g, geoOf m = some g := by rcases hm with rfl | rfl | rfl <;> exact ⟨_, rfl⟩
  rcases commandAdd_twins (alike_of hm hg ht hm') f e up level name excl move items hb arch (hp.after hm hg ht) .fresh with
    ⟨x, h1, h2⟩ | ⟨h1, h2⟩ | ⟨c', p', q', h1, h2, _, _⟩
  · rw [h1, h2]
  · rw [h1, h2]
  · rw [h1, h2]
    rfl

/-- The same for `CompressBytes`. -/
theorem C74_compressBytes (tab : Arr) (ht : makeCrcTable = .ok tab) (m : Nat) (hm : m = 5 ∨ m = 6 ∨ m = 7) (p : Proc) (hp : Session m tab p)
    (f : Fmt) (e : Env) (m' level : Nat) (hm' : m' = m ∨ geoOf m' = none) (archive name body : List Nat) (hb : IsBytes body)
    (arch : Option (List Nat)) :
    shownAdd (compressBytes f tab e m' level archive name body arch p) = shownAdd (compressBytes f tab e m' level archive name body arch Proc.fresh) := by
  cases arch with
  | some a => rfl
  | none => exact C74_add tab ht m hm p hp f e id m' level hm' archive [] false _ (one_item (fun b h => by cases h; exact hb)) none

/-- The same for `Compress`. -/
theorem C74_compress (tab : Arr) (ht : makeCrcTable = .ok tab) (m : Nat) (hm : m = 5 ∨ m = 6 ∨ m = 7) (p : Proc) (hp : Session m tab p)
    (f : Fmt) (e : Env) (m' level : Nat) (hm' : m' = m ∨ geoOf m' = none) (archive name : List Nat) (body : Option (List Nat))
    (hb : ∀ b, body = some b → IsBytes b) (arch : Option (List Nat)) :
    shownAdd (compress f tab e m' level archive name body arch p) = shownAdd (compress f tab e m' level archive name body arch Proc.fresh) := by
  cases arch with
  | some a => rfl
  | none => exact C74_add tab ht m hm p hp f e id m' level hm' archive [] false _ (one_item hb) none

/-- **C74, round trip.**  At any point of any session, for the bodies of C01 (nothing about the session is assumed: that the body gets smaller is
asked of a fresh process): `CompressBytes`, then, at any points of any sessions (of this process or another), `Headers` and `DecompresBytes`, give
the body back. -/
theorem C74_round_trip_partial (f : Fmt) (tab : Arr) (ht : makeCrcTable = .ok tab) (e : Env) (hperm : e.perm < 512)
    (m : Nat) (hm : m = 5 ∨ m = 6 ∨ m = 7) (archive name body : List Nat) (hname : name ≠ archive) (hD : IsBytes body) (hlen : body.length < 2 ^ 32)
    (hfirst : body.getD 0 0 &&& 32 = 0) (hpack : body ≠ [] → Packs m tab Proc.fresh body) (h7 : m = 7 → body.length < 65536)
    (p : Proc) (hp : Session m tab p) (m₁ m₂ : Nat) (hm₁ : m₁ = 5 ∨ m₁ = 6 ∨ m₁ = 7) (hm₂ : m₂ = 5 ∨ m₂ = 6 ∨ m₂ = 7)
    (p₁ p₂ : Proc) (hp₁ : Session m₁ tab p₁) (hp₂ : Session m₂ tab p₂) :
    ∃ c a g hf1 hf2, compressBytes f tab e m 0 archive name body none p = .ok (some c) ∧ c.err = false ∧ c.archive = some a ∧
      headers f (others tab) tab Opts.default p₁.h (some a) = .ok ⟨false, [g], hf1⟩ ∧
      decompresBytes f (others tab) tab false g.name p₂.h (some a) = .ok ⟨false, body, hf2⟩ ∧ g.originalSize = body.length := by
  obtain ⟨tab', ht1, ht2⟩ := makeCrcTable_ok
  have ht' := ht
  rw [ht1] at ht'
  cases ht'
  have hfok : ∀ {k : Nat} {q : Proc}, k = 5 ∨ k = 6 ∨ k = 7 → Session k tab q → HfOk q.h := by
    intro k q hk hq
    obtain ⟨g, hg⟩ : ∃ g, geoOf k = some g := by rcases hk with rfl | rfl | rfl <;> exact ⟨_, rfl⟩
    exact ((hq.after hk hg ht).ok (GeoM.of hk hg) ht2).1
  obtain ⟨c, a, g, hf1, h1, h2, h3, h4, h5, h6, h7', _⟩ := C01_round_trip_partial f (others tab) tab ht e hperm m hm archive name body hname p
    (fun g hg => (hp.after hm hg ht).ok (GeoM.of hm hg) ht2) hD hlen hfirst (by
      intro hne g r hg hr
      have a := C31_partial tab ht g (geo_cases hm hg) p (hp.after hm hg ht) body.length body hD
      rw [hr] at a
      cases he : encode g tab Proc.fresh body.length body with
      | error x => rw [he] at a; cases a
      | ok v =>
        rw [he] at a
        cases v with
        | none => cases a
        | some v =>
          have b : (r.out, r.packed, r.original, r.crc, r.unp, r.rest) = (v.out, v.packed, v.original, v.crc, v.unp, v.rest) := by
            have : Except.ok (some (r.out, r.packed, r.original, r.crc, r.unp, r.rest)) =
              (Except.ok (some (v.out, v.packed, v.original, v.crc, v.unp, v.rest)) : G _) := a
            exact Option.some.inj (Except.ok.inj this)
          simp only [Prod.mk.injEq] at b
          rw [b.2.1, b.2.2.1]
          exact hpack hne g v hg he) h7 p₁.h (hfok hm₁ hp₁)
  obtain ⟨hf2, _, k⟩ := h6 p₂.h (hfok hm₂ hp₂)
  exact ⟨c, a, g, hf1, hf2, h1, h2, h3, h4, k, h7'⟩

/-- Not vacuous: a session that has compressed (forty times `A`, with lh5: `sampleBody`) and read the archive; `sampleBody` meets the other
hypotheses (see the example after `C01_round_trip_partial`). -/
example (tab : Arr) (ht : makeCrcTable = .ok tab) : ∃ c hf1 hf2 a, Session 5 tab c.proc ∧ c.archive = some a ∧
    Session 5 tab ⟨hf2, c.proc.b⟩ ∧
    compressBytes ⟨false, false⟩ tab ⟨0, 0o644, 0, 0, fun _ => ⟨1970, 1, 1, 0, 0, 0⟩⟩ 5 0 [120] [97] sampleBody none Proc.fresh = .ok (some c) ∧
    headers ⟨false, false⟩ (others tab) tab Opts.default c.proc.h (some a) = .ok hf1 ∧ hf1.hf = hf2 := by
  have hD : IsBytes sampleBody := by unfold IsBytes; decide
  have key := C74_round_trip_partial ⟨false, false⟩ tab ht
    ⟨0, 0o644, 0, 0, fun _ => ⟨1970, 1, 1, 0, 0, 0⟩⟩ (by decide) 5 (Or.inl rfl) [120] [97] sampleBody (by decide) hD (by decide) (by decide)
    (fun _ => sampleBody_packs tab ht) (by decide) Proc.fresh .start 5 5 (Or.inl rfl) (Or.inl rfl)
  obtain ⟨c, a, _, _, _, h1, _, h3, _⟩ := key Proc.fresh Proc.fresh .start .start
  have s1 : Session 5 tab c.proc := .compressBytes .start (Or.inl rfl) hD h1
  obtain ⟨c', a', g, hf1, hf2, k1, _, k3, k4, _⟩ := key c.proc Proc.fresh s1 .start
  rw [h1] at k1
  cases k1
  rw [h3] at k3
  cases k3
  exact ⟨c, _, hf1, a, s1, h3, .headers s1 k4, h1, k4, rfl⟩

end Lha
