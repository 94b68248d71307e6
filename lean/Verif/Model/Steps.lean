import Verif.Model.Slide
/-!
# The work of the compressor's search for matches

The functions of `Verif/Model/Slide.lean` once more, with a counter `t` for the rounds of all their loops.  That nothing else changes is proved
(`encodeLzN_fst` in `Verif/Props/C108.lean`).
-/

namespace Lha

/-- `searchDict1`'s loop, with the rounds of it and of the collating loop inside (one round less than `le + 1` if the maximum is reached): `/repo/slide.go` lines 358-384. -/
def scanLoopN (g : Geo) (text prevs : Arr) (pos off max : Nat) : Nat → Nat → Nat → Match → Nat → G ((Nat × Match) × Nat)
  | 0, _, _, _, _ => diverge
  | f + 1, scanPos, chain, m, t =>
    if off < scanPos ∧ pos < scanPos - off + g.dicsiz then do
      let sb := scanPos - off
      let x ← rd text (sb + m.len)
      let y ← rd text (pos + m.len)
      let (m', t) ←
        if x = y then do
          let le ← collate text max sb pos
          if le > m.len then .ok ((⟨le, pos - sb⟩ : Match), t + 1 + min (le + 1) max) else .ok (m, t + 1 + min (le + 1) max)
        else .ok (m, t + 1)
      if m'.len = max ∧ m'.len > m.len then .ok ((chain + 1, m'), t)
      else do
        let sp ← rd prevs (scanPos % g.dicsiz)
        scanLoopN g text prevs pos off max f sp (chain + 1) m' t
    else .ok ((chain, m), t)

/-- `searchDict1`: `/repo/slide.go` lines 349-389. -/
def searchDict1N (g : Geo) (s : Lz) (token off max : Nat) (m : Match) (t : Nat) : G ((Lz × Match) × Nat) := do
  let sp ← rd s.hpos token
  let ((chain, m), t) ← scanLoopN g s.text s.prevs s.pos off max (s.pos + 2) sp 0 m t
  if chain ≥ 256 then do
    let hf ← wr s.hflag token 1
    .ok (({ s with hflag := hf }, m), t)
  else .ok ((s, m), t)

/-- `searchDict`: `/repo/slide.go` lines 311-347.  The loop that chooses `off` makes `off` rounds. -/
def searchDictN (g : Geo) (s : Lz) (mn t : Nat) : G ((Lz × Match) × Nat) := do
  let mn := if mn < 2 then 2 else mn
  let (off, tok) ← offLoop s (g.maxmatch - 3) 0 s.token
  let t := t + off
  let (off, tok) := if off = g.maxmatch - 3 then (0, s.token) else (off, tok)
  let ((s, m), t) ← searchDict1N g s tok off g.maxmatch ⟨mn, 0⟩ t
  let ((s, m), t) ←
    if off > 0 ∧ m.len < off + 3 then searchDict1N g s s.token 0 (off + 2) m t
    else .ok ((s, m), t)
  if m.len > s.rem then .ok ((s, ⟨s.rem, m.off⟩), t) else .ok ((s, m), t)

/-- What `updateDict` does: bytes moved, bytes read, rounds of the two loops.  `/repo/slide.go` lines 272-300. -/
def updateSteps (g : Geo) : Nat := (g.txtsiz - g.dicsiz) + g.dicsiz + 32768 + g.dicsiz

/-- What `nextToken` does: `/repo/slide.go` lines 302-309. -/
def nextSteps (g : Geo) (s : Lz) : Nat := 1 + if s.pos + 1 ≥ g.txtsiz - g.maxmatch then updateSteps g else 0

/-- `/repo/slide.go` lines 450-455. -/
def skipLoopN (g : Geo) (tab : Arr) : Nat → Lz → Nat → G (Lz × Nat)
  | 0, s, t => .ok (s, t)
  | n + 1, s, t => do
    let t := t + 1 + nextSteps g s
    let s ← nextToken g tab s
    let s ← insertHash g s
    skipLoopN g tab n s t

/-- Main loop of `encode`: `/repo/slide.go` lines 431-460.  First argument: fuel. -/
def encodeLoopN {σ : Type} (k : Sink σ) (g : Geo) (tab : Arr) : Nat → Lz → Match → Nat → σ → Nat → G ((Lz × Nat × σ) × Nat)
  | 0, _, _, _, _, _ => diverge
  | f + 1, s, m, count, o, t =>
    if s.rem > 0 ∧ k.stop o = false then do
      let last := m
      let t := t + 1 + nextSteps g s
      let s ← nextToken g tab s
      let ((s, m), t) ← searchDictN g s (last.len - 1) t
      let s ← insertHash g s
      if m.len > last.len ∨ last.len < 3 then do
        let c ← rd s.text (s.pos - 1)
        let o ← k.out c 0 o
        encodeLoopN k g tab f s m (count + 1) o t
      else do
        let o ← k.out (last.len + 253) ((last.off + g.dicsiz - 1) % g.dicsiz) o
        let (s, t) ← skipLoopN g tab (last.len - 2) s t
        let t := t + nextSteps g s
        let s ← nextToken g tab s
        let ((s, m), t) ← searchDictN g s 2 t
        let s ← insertHash g s
        encodeLoopN k g tab f s m (count + last.len) o t
    else .ok ((s, count, o), t)

/-- `encode` without `encodeStart`/`encodeEnd`: `/repo/slide.go` lines 403-460 and `initSlide` (469-474). -/
def encodeLzN {σ : Type} (k : Sink σ) (g : Geo) (tab : Arr) (b : LzBufs) (inp : List Nat) (o : σ) : G (Option (LzOut σ × Nat)) := do
  let hpos ← fillAll 32768 0 b.hpos
  let hflag ← fillAll 32768 0 b.hflag
  let text ← fillAll (g.txtsiz + 1) 32 b.text
  if inp = [] then .ok none
  else do
    let (v, s) ← freadText tab g.dicsiz (g.txtsiz - g.dicsiz)
      ⟨hpos, hflag, b.prevs, text, inp, 0, g.dicsiz, 0, 0⟩
    let s := { s with rem := v }
    let m : Match := if 2 > v then ⟨v, 0⟩ else ⟨2, 0⟩
    let t ← initHash s.text s.pos
    let s ← insertHash g { s with token := t }
    let ((s, count, o), t) ← encodeLoopN k g tab (inp.length + 1) s m 0 o (32768 + (g.txtsiz + 1) + v)
    .ok (some (⟨s.crc, count, o, ⟨s.hpos, s.hflag, s.prevs, s.text⟩, s.inp⟩, t))

/-- `encode` with the counter: `/repo/slide.go` lines 391-467.  Simplification: what the entropy coder does (`encodeOuput`, `encodeStart`, `encodeEnd`) is not counted. -/
def encodeN (g : Geo) (tab : Arr) (p : Proc) (size : Nat) (inp : List Nat) : G (Option (EncOut × Nat)) := do
  let (b, h) := allocBufs g p.b p.h
  let e ← encodeStartSt1 g.dicbit ⟨h, ⟨[], 0, size, 0, 0, false⟩⟩
  match ← encodeLzN st1Sink g tab b inp e with
  | none => .ok none
  | some (r, t) => do
    let e ← encodeEndSt1 r.sink
    .ok (some (⟨e.w.out, e.w.compsize, r.count, r.crc, e.w.unp, ⟨e.h, r.bufs⟩, r.rest⟩, t))

end Lha
