import Verif.Model.Memory
import Verif.Props.C90
import Verif.Props.C94
/-!
# C104: listing an archive takes no more memory than the archive has bytes
-/

namespace Lha

open Spec

/-- Without the record of the slices it is `CommandList`. -/
theorem listLoopM_erase (f : Fmt) (tab : Arr) (o : Opts) : ∀ (n : Nat) (h : Hdr) (out : ListOut) (bufs inp : List Nat),
    (do let x ← listLoopM f tab o n h out bufs inp; .ok x.1) = listLoop f tab o n h out inp := by
  intro n
  induction n with
  | zero => intros; rfl
  | succ n ih =>
    intro h out bufs inp
    unfold listLoopM listLoop
    cases hx : getHeader f tab h inp with
    | error e => rfl
    | ok x =>
      rw [ok_bind, ok_bind]
      cases x with
      | eof => rfl
      | bad => rfl
      | fin => rfl
      | got g rest =>
        simp only []
        by_cases hneed : needFile o g.name = true
        · rw [if_pos hneed, if_pos hneed]
          cases listOne g with
          | error e => rfl
          | ok r => rw [ok_bind, ok_bind, ok_bind]; exact ih g _ _ _
        · rw [if_neg hneed, if_neg hneed]
          exact ih g out _ _

theorem commandListM_erase (f : Fmt) (tab : Arr) (o : Opts) (arch : Option (List Nat)) :
    (do let x ← commandListM f tab o arch; .ok x.1) = commandList f tab o arch := by
  cases arch with
  | none => rfl
  | some a => exact listLoopM_erase f tab o _ _ _ _ _

/-- What is known of the slices, for every archive. -/
theorem listLoopM_limit (f : Fmt) (tab : Arr) (o : Opts) : ∀ (n : Nat) (h : Hdr) (out : ListOut) (bufs inp : List Nat) (out' : ListOut) (bufs' : List Nat),
    IsBytes inp → listLoopM f tab o n h out bufs inp = .ok (out', bufs') →
    ∃ new, bufs' = bufs ++ new ∧ new.length ≤ inp.length ∧ (∀ b ∈ new, b < 2 ^ 32) ∧ out'.packed ≤ out.packed + new.sum ∧
      ((∀ x, needFile o x = true) → out'.packed = out.packed + new.sum) := by
  intro n
  induction n with
  | zero => intro _ _ _ _ _ _ _ h; cases h
  | succ n ih =>
    intro h out bufs inp out' bufs' hi hx
    unfold listLoopM at hx
    obtain ⟨x, hgh, hx⟩ := bind_ok hx
    cases x with
    | eof => cases hx; exact ⟨[], by simp, by simp, by simp, by simp, by simp⟩
    | bad => cases hx; exact ⟨[], by simp, by simp, by simp, by simp, by simp⟩
    | fin => cases hx; exact ⟨[], by simp, by simp, by simp, by simp, by simp⟩
    | got g rest =>
      simp only [] at hx
      obtain ⟨_, k, hk, hrest⟩ := getHeader_got hgh
      have hp := getHeader_packed hi hgh
      have hpos : inp ≠ [] := by
        rintro rfl
        unfold getHeader at hgh
        cases hgh
      have hpos' : 0 < inp.length := List.length_pos_iff.mpr hpos
      have hx : ∃ out1, listLoopM f tab o n g out1 (bufs ++ [g.packedSize]) (rest.drop g.packedSize) = .ok (out', bufs') ∧
          (out1.packed ≤ out.packed + g.packedSize ∧ ((∀ x, needFile o x = true) → out1.packed = out.packed + g.packedSize)) := by
        split at hx
        · obtain ⟨r, _, hx⟩ := bind_ok hx
          exact ⟨_, hx, Nat.le_refl _, fun _ => rfl⟩
        · rename_i hneed
          exact ⟨out, hx, by omega, fun hall => absurd (hall _) hneed⟩
      obtain ⟨out1, hx, ho⟩ := hx
      have hi' : IsBytes (rest.drop g.packedSize) := by
        rw [hrest]
        intro b hb
        exact hi b (List.mem_of_mem_drop (List.mem_of_mem_drop hb))
      obtain ⟨new, n1, n2, n3, n4, n5⟩ := ih g out1 _ _ out' bufs' hi' hx
      have hl : (rest.drop g.packedSize).length + 1 ≤ inp.length := by rw [hrest]; simp; omega
      refine ⟨g.packedSize :: new, by rw [n1]; simp, by simp; omega, ?_, ?_, ?_⟩
      · intro b hb
        rcases List.mem_cons.mp hb with rfl | hb
        · exact hp
        · exact n3 b hb
      · rw [List.sum_cons]; omega
      · intro hall
        rw [n5 hall, ho.2 hall, List.sum_cons]
        omega

/-- **C104, the limit that holds**: whatever the archive, no slice has 2^32 bytes or more, and there are no more slices than the archive has bytes; together they have exactly as many bytes as the
listing gives as the total of packed sizes. -/
theorem C104_limit (f : Fmt) (tab : Arr) (a : List Nat) (ha : IsBytes a) (out : ListOut) (bufs : List Nat)
    (h : commandListM f tab Opts.default (some a) = .ok (out, bufs)) :
    bufs.length ≤ a.length ∧ (∀ b ∈ bufs, b < 2 ^ 32) ∧ bufs.sum = out.packed := by
  obtain ⟨new, h1, h2, h3, _, h5⟩ := listLoopM_limit f tab Opts.default _ _ _ _ _ out bufs ha h
  rw [List.nil_append] at h1
  subst h1
  refine ⟨h2, h3, ?_⟩
  rw [h5 (by intro x; simp [needFile, Opts.default])]
  simp

theorem listLoopM_entries (f : Fmt) (hg : f.generic = false) (tab : Arr) {t : List Nat} (htl : Tail t) (es : List Entry) :
    ∀ (n : Nat) (h : Hdr) (out : ListOut) (bufs : List Nat), es.length < n → (∀ e ∈ es, e.Ok) → NoNames h → h.method.length = 5 → NonInc h.name.length es →
      ∃ out', listLoopM f tab Opts.default n h out bufs (archive es t) = .ok (out', bufs ++ es.map (·.packed.length)) := by
  induction es with
  | nil =>
    intro n h out bufs hn _ _ _ _
    obtain ⟨n, rfl⟩ : ∃ k, n = k + 1 := ⟨n - 1, by simp at hn; omega⟩
    unfold listLoopM
    show ∃ out', (getHeader f tab h t >>= _) = _
    rcases tail_end f tab h htl with e | e
    · rw [e, ok_bind]; exact ⟨_, by rw [List.map_nil, List.append_nil]⟩
    · rw [e, ok_bind]; exact ⟨_, by rw [List.map_nil, List.append_nil]⟩
  | cons e es ih =>
    intro n h out bufs hn hoks hnn hm hinc
    obtain ⟨n, rfl⟩ : ∃ k, n = k + 1 := ⟨n - 1, by simp at hn; omega⟩
    have ho := hoks e List.mem_cons_self
    obtain ⟨g, e1, P⟩ := entry_parse f hg tab e ho h hm hinc.1 (archive es t)
    obtain ⟨o1, o2⟩ := getHeader_owner e1
    have hnn' : NoNames g := ⟨by rw [o1]; exact hnn.1, by rw [o2]; exact hnn.2⟩
    obtain ⟨r, hr⟩ := listOne_total hnn'
    obtain ⟨out', h'⟩ := ih n g { out with rows := out.rows ++ [r], files := out.files + 1, packed := out.packed + g.packedSize, original := out.original + g.originalSize }
      (bufs ++ [g.packedSize]) (by simp at hn; omega) (fun e' he' => hoks e' (List.mem_cons_of_mem _ he')) hnn'
      (by rw [P.method]; exact ho.method) (by rw [P.name, List.length_append]; exact hinc.2)
    refine ⟨out', ?_⟩
    unfold listLoopM
    rw [archive_cons, e1, ok_bind]
    simp only []
    rw [if_pos (by simp [needFile, Opts.default]), hr, ok_bind, ok_bind, show (e.packed ++ archive es t).drop g.packedSize = archive es t by rw [P.packed]; simp, h', P.packed]
    simp

theorem archive_sum (es : List Entry) (t : List Nat) : (es.map (·.packed.length)).sum ≤ (archive es t).length := by
  induction es with
  | nil => simp
  | cons e es ih =>
    rw [List.map_cons, List.sum_cons, archive_cons, List.length_append]
    have : e.packed.length ≤ e.bytes.length := by unfold Entry.bytes; rw [List.length_append]; omega
    omega

/-- **C104 (partial).**  Full statement: the slices `CommandList` makes to skip the packed data of an archive together have no more bytes than the archive.  Proved of archives of valid entries,
whose packed data are all there; then they are just as long as the packed data. -/
theorem C104_partial (f : Fmt) (hg : f.generic = false) (tab : Arr) (es : List Entry) (hes : ∀ e ∈ es, e.Ok) (hinc : NonInc 1024 es) (t : List Nat) (htl : Tail t) :
    ∃ out bufs, commandListM f tab Opts.default (some (archive es t)) = .ok (out, bufs) ∧ bufs = es.map (·.packed.length) ∧ bufs.sum ≤ (archive es t).length := by
  obtain ⟨out, h⟩ := listLoopM_entries f hg tab htl es ((archive es t).length + 1) newHdr ⟨false, [], 0, 0, 0⟩ [] (by have := archive_length es t; omega) hes noNames_new newHdr_method
    (by rw [newHdr_name]; exact hinc)
  exact ⟨out, _, h, by simp, by rw [List.nil_append]; exact archive_sum es t⟩

/-- An entry of which only the header is there: it announces `n` packed bytes. -/
def hollow (n : Nat) : Entry := { sampleEntry [45, 108, 104, 53, 45] [97] [] [] with packed := List.replicate n 0 }

theorem hollow_ok {n : Nat} (hn : n < 2 ^ 32) : (hollow n).Ok :=
  ⟨rfl, (by decide : [97].length ≤ 221), (by decide : 0 ∉ [97]), (by decide : 0x5c ∉ [97]), by show (List.replicate n 0).length < _; rw [List.length_replicate]; exact hn,
    (by decide : ([] : List Nat).length < 2 ^ 32), sampleEntry_crc [] [] [] [], (by decide : 0o644 < 2 ^ 12), Or.inl rfl⟩

/-- **C104 is false**: an archive of 37 bytes makes `CommandList` allocate any number of bytes below 2^32 at once. -/
theorem C104_false (f : Fmt) (hg : f.generic = false) (tab : Arr) (n : Nat) (hn : n < 2 ^ 32) :
    (hollow n).header.length = 37 ∧ ∃ out, commandListM f tab Opts.default (some (hollow n).header) = .ok (out, [n]) := by
  have ho := hollow_ok hn
  have hlen : (hollow n).header.length = 37 := rfl
  refine ⟨hlen, ?_⟩
  obtain ⟨g, e1, P⟩ := header_parse f hg tab (hollow n) ho newHdr newHdr_method (by rw [newHdr_name]; show 1 < 1024; omega) []
  rw [List.append_nil] at e1
  obtain ⟨o1, o2⟩ := getHeader_owner e1
  obtain ⟨r, hr⟩ := listOne_total (h := g) ⟨by rw [o1]; exact noNames_new.1, by rw [o2]; exact noNames_new.2⟩
  unfold commandListM
  simp only []
  rw [show (hollow n).header.length + 1 = ((hollow n).header.length - 1) + 1 + 1 by omega]
  generalize (hollow n).header.length - 1 = k
  unfold listLoopM
  rw [e1, ok_bind]
  simp only []
  rw [if_pos (by simp [needFile, Opts.default]), hr, ok_bind, ok_bind, List.drop_nil]
  have hp : g.packedSize = n := by rw [P.packed]; exact List.length_replicate
  rw [hp]
  generalize ListOut.mk _ _ _ _ _ = out
  unfold listLoopM
  exact ⟨{ out with err := true }, rfl⟩

/-- The hypotheses are met. -/
example : (∀ e ∈ [hollow 3, hollow 0], e.Ok) ∧ NonInc 1024 [hollow 3, hollow 0] ∧ Tail [0] := by
  refine ⟨?_, ⟨(by decide : 1 < 1024), (by decide : 1 < 2), trivial⟩, Or.inr ⟨[], rfl⟩⟩
  intro e he
  simp only [List.mem_cons, List.not_mem_nil, or_false] at he
  rcases he with rfl | rfl
  · exact hollow_ok (by decide)
  · exact hollow_ok (by decide)

end Lha
