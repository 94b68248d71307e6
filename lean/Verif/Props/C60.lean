import Verif.Spec.Listing
import Verif.Model.List
import Verif.Proof.Multi
import Verif.Proof.Names
/-!
# C60: the listing of an archive
-/

namespace Lha

open Spec

/-- The row that describes an entry. -/
def Spec.Entry.row (e : Entry) : Row :=
  { perm := some (permString (e.kind = 0o040000) e.perm), owner := some (.inr (e.uid % 2 ^ 16)), group := some (.inr (e.gid % 2 ^ 16)),
    packed := e.packed.length, original := e.content.length, method := e.method, crc := some e.crc, name := e.name ++ [0] }

theorem permChars_file_table : ∀ a b : Fin 64, permChars (0o100000 + (a * 64 + b)) = permString false (a * 64 + b) := by decide +kernel

theorem permChars_dir_table : ∀ a b : Fin 64, permChars (0o040000 + (a * 64 + b)) = permString true (a * 64 + b) := by decide +kernel

theorem permChars_file {p : Nat} (hp : p < 2 ^ 12) : permChars (0o100000 + p) = permString false p := by
  have := permChars_file_table ⟨p / 64, by omega⟩ ⟨p % 64, by omega⟩
  rwa [show p / 64 * 64 + p % 64 = p by omega] at this

theorem permChars_dir {p : Nat} (hp : p < 2 ^ 12) : permChars (0o040000 + p) = permString true p := by
  have := permChars_dir_table ⟨p / 64, by omega⟩ ⟨p % 64, by omega⟩
  rwa [show p / 64 * 64 + p % 64 = p by omega] at this

/-- No header that can be read sets the names of owner and group. -/
theorem parseLevel0_owner {h g : Hdr} {hs : Nat} {d : List Nat} (hx : parseLevel0 h hs d = .ok (some g)) : g.user = h.user ∧ g.group = h.group := by
  unfold parseLevel0 at hx
  obtain ⟨_, _, hx⟩ := bind_ok hx
  obtain ⟨_, _, hx⟩ := bind_ok hx
  obtain ⟨_, _, hx⟩ := bind_ok hx
  obtain ⟨_, _, hx⟩ := bind_ok hx
  obtain ⟨_, _, hx⟩ := bind_ok hx
  obtain ⟨_, _, hx⟩ := bind_ok hx
  obtain ⟨nl, hnl, hx⟩ := bind_ok hx
  obtain ⟨⟨nm, i⟩, hb, hx⟩ := bind_ok hx
  simp only [] at hx
  obtain ⟨nm', hz, hx⟩ := bind_ok hx
  split at hx
  · split at hx
    · cases hx; exact ⟨rfl, rfl⟩
    · cases hx
  · obtain ⟨_, _, hx⟩ := bind_ok hx
    split at hx
    · cases hx; exact ⟨rfl, rfl⟩
    · obtain ⟨_, _, hx⟩ := bind_ok hx
      split at hx
      · split at hx
        · obtain ⟨_, _, hx⟩ := bind_ok hx
          obtain ⟨_, _, hx⟩ := bind_ok hx
          obtain ⟨_, _, hx⟩ := bind_ok hx
          obtain ⟨_, _, hx⟩ := bind_ok hx
          obtain ⟨_, _, hx⟩ := bind_ok hx
          cases hx; exact ⟨rfl, rfl⟩
        · cases hx; exact ⟨rfl, rfl⟩
      · cases hx; exact ⟨rfl, rfl⟩

theorem getLevel0_owner {h g : Hdr} {d inp rest : List Nat} (hx : getLevel0 h d inp = .ok (some (g, rest))) : g.user = h.user ∧ g.group = h.group := by
  unfold getLevel0 at hx
  obtain ⟨hs, _, hx⟩ := bind_ok hx
  obtain ⟨sm, _, hx⟩ := bind_ok hx
  split at hx
  · cases hx
  · split at hx
    · cases hx
    · split at hx
      · cases hx
      · obtain ⟨y, hp, hx⟩ := bind_ok hx
        split at hx
        · cases hx
        · cases hx
          exact parseLevel0_owner hp

theorem getLevel1_owner {h g : Hdr} {d inp rest : List Nat} (hx : getLevel1 h d inp = .ok (some (g, rest))) : g.user = h.user ∧ g.group = h.group := by
  unfold getLevel1 at hx
  obtain ⟨hs, _, hx⟩ := bind_ok hx
  obtain ⟨sm, _, hx⟩ := bind_ok hx
  split at hx
  · cases hx
  · rename_i hlt
    split at hx
    · cases hx
    · split at hx
      · cases hx
      · simp only [] at hx
        obtain ⟨_, _, hx⟩ := bind_ok hx
        obtain ⟨_, _, hx⟩ := bind_ok hx
        obtain ⟨_, _, hx⟩ := bind_ok hx
        obtain ⟨_, _, hx⟩ := bind_ok hx
        obtain ⟨_, _, hx⟩ := bind_ok hx
        obtain ⟨_, _, hx⟩ := bind_ok hx
        obtain ⟨nl, hnl, hx⟩ := bind_ok hx
        obtain ⟨⟨nm, i⟩, hb, hx⟩ := bind_ok hx
        simp only [] at hx
        obtain ⟨nm', hz, hx⟩ := bind_ok hx
        obtain ⟨_, _, hx⟩ := bind_ok hx
        obtain ⟨_, _, hx⟩ := bind_ok hx
        obtain ⟨_, _, hx⟩ := bind_ok hx
        split at hx
        · obtain ⟨y, hy, hx⟩ := bind_ok hx
          cases y with
          | none => cases hx
          | some y => exact absurd hy (extLoop_never _ _ _ _ _ (by show hs ≠ 0; omega))
        · cases hx
          exact ⟨rfl, rfl⟩

theorem getHeader_owner {f : Fmt} {tab : Arr} {h g : Hdr} {inp rest : List Nat} (hx : getHeader f tab h inp = .ok (.got g rest)) :
    g.user = h.user ∧ g.group = h.group := by
  unfold getHeader at hx
  split at hx
  · cases hx
  · rename_i b inp
    split at hx
    · cases hx
    · split at hx
      · cases hx
      · rename_i x r hr1
        simp only [] at hx
        obtain ⟨y, hy, hx⟩ := bind_ok hx
        split at hx
        · cases hx
        · rename_i h1 r1
          have hx := Except.ok.inj hx
          have key : h1.user = h.user ∧ h1.group = h.group := by
            unfold byLevel at hy
            split at hy
            · exact getLevel0_owner hy
            · exact getLevel1_owner hy
            · rcases getLevel2_never tab _ r with e | e <;> rw [e] at hy <;> cases hy
            · rcases getLevel3_never tab _ r with e | e <;> rw [e] at hy <;> cases hy
            · cases hy
          unfold finishHdr at hx
          simp only [] at hx
          split at hx
          · split at hx
            · cases hx; exact key
            · cases hx
          · cases hx; exact key

/-- No names of owner and group. -/
def NoNames (h : Hdr) : Prop := h.user.head? = some 0 ∧ h.group.head? = some 0

theorem noNames_new : NoNames newHdr := ⟨rfl, rfl⟩

theorem ownerOf_zero {l : List Nat} (h : l.head? = some 0) (id : Nat) : ownerOf l id = .ok (.inr id) := by
  cases l with
  | nil => cases h
  | cons c cs =>
    have : c = 0 := by simpa using h
    subst this
    rfl

theorem Parsed.listOne {e : Entry} {g : Hdr} (P : Parsed e g) (ho : e.Ok) (hn : NoNames g) : listOne g = .ok e.row := by
  have hperm : permChars g.mode = permString (e.kind = 0o040000) e.perm := by
    rw [P.mode]
    rcases ho.kind with h | h
    · rw [h]
      exact permChars_file ho.perm
    · rw [h]
      exact permChars_dir ho.perm
  unfold Lha.listOne
  rw [if_pos (Or.inl P.ext), ownerOf_zero hn.1, ok_bind, ownerOf_zero hn.2, ok_bind, ok_bind]
  simp only []
  rw [if_pos P.ext, P.hasCrc, if_pos rfl, hperm, P.uid, P.gid, P.packed, P.original, P.method, P.crc, P.name]
  rfl

theorem listLoop_entries (f : Fmt) (hg : f.generic = false) (tab : Arr) (t : List Nat) (es : List Entry) :
    ∀ (n : Nat) (h : Hdr) (out : ListOut), es.length < n → (∀ e ∈ es, e.Ok) → NoNames h → h.method.length = 5 → NonInc h.name.length es →
      ∃ k h', k ≤ n ∧ NoNames h' ∧ n = es.length + k ∧ h'.method.length = 5 ∧
        (∀ fs, NonInc h.name.length (es ++ fs) → NonInc h'.name.length fs) ∧ listLoop f tab Opts.default n h out (archive es t) =
        listLoop f tab Opts.default k h' ⟨out.err, out.rows ++ es.map Entry.row, out.files + es.length, out.packed + (es.map (·.packed.length)).sum,
          out.original + (es.map (·.content.length)).sum⟩ t := by
  induction es with
  | nil =>
    intro n h out hn _ hnn hm _
    exact ⟨n, h, Nat.le_refl _, hnn, by simp, hm, fun _ hfs => hfs, by simp [archive]⟩
  | cons e es ih =>
    intro n h out hn hoks hnn hm hinc
    obtain ⟨n, rfl⟩ : ∃ k, n = k + 1 := ⟨n - 1, by simp at hn; omega⟩
    have ho := hoks e List.mem_cons_self
    obtain ⟨g, e1, P⟩ := entry_parse f hg tab e ho h hm hinc.1 (archive es t)
    obtain ⟨o1, o2⟩ := getHeader_owner e1
    have hnn' : NoNames g := ⟨by rw [o1]; exact hnn.1, by rw [o2]; exact hnn.2⟩
    obtain ⟨k, h', k1, k2, k3, k5, k6, k4⟩ := ih n g
      { out with rows := out.rows ++ [e.row], files := out.files + 1, packed := out.packed + e.packed.length, original := out.original + e.content.length }
      (by simp at hn; omega) (fun e' he' => hoks e' (List.mem_cons_of_mem e he')) hnn' (by rw [P.method]; exact ho.method)
      (by rw [P.name, List.length_append]; exact hinc.2)
    refine ⟨k, h', by omega, k2, by simp; omega, k5,
      fun fs hfs => k6 fs (by rw [P.name, List.length_append]; exact hfs.2), ?_⟩
    conv_lhs => unfold listLoop
    rw [archive_cons, e1, ok_bind]
    simp only []
    rw [if_pos (by simp [needFile, Opts.default]), P.listOne ho hnn', ok_bind, ok_bind, P.packed, P.original, List.drop_left, k4]
    simp only [List.map_cons, List.sum_cons, List.length_cons, List.append_assoc, List.cons_append, List.nil_append, Nat.add_assoc, Nat.add_comm 1]

/-- **C60 (partial).**  Full statement: `CommandList` lists the entries of every archive of the format, in order, with their permissions, owners,
sizes, methods, checksums and names, the totals are the sums, and no error is returned.  Proved for archives of any number of entries, files
and directories, of any method, even an unknown one, whatever their data, that end with a zero byte and in which names do not get longer. -/
theorem C60_partial (f : Fmt) (hg : f.generic = false) (tab : Arr) (es : List Entry) (hes : ∀ e ∈ es, e.Ok) (hinc : NonInc 1024 es) (r : List Nat) :
    commandList f tab Opts.default (some (archive es (0 :: r))) =
      .ok ⟨false, es.map Entry.row, es.length, (es.map (·.packed.length)).sum, (es.map (·.content.length)).sum⟩ := by
  have hl := archive_length es (0 :: r)
  obtain ⟨k, h', _, _, k3, _, _, k4⟩ := listLoop_entries f hg tab (0 :: r) es ((archive es (0 :: r)).length + 1) newHdr ⟨false, [], 0, 0, 0⟩ (by omega) hes
    noNames_new newHdr_method (by rw [newHdr_name]; exact hinc)
  unfold commandList
  simp only []
  rw [k4]
  obtain ⟨k, rfl⟩ : ∃ j, k = j + 1 := ⟨k - 1, by omega⟩
  simp only [List.nil_append, Nat.zero_add]
  rfl

/-- **C60 is false** of archives that end after the last entry: the whole listing is printed and then an error is returned (exit status 1), although
`CommandExtract` accepts them. -/
theorem C60_false (f : Fmt) (hg : f.generic = false) (tab : Arr) (es : List Entry) (hes : ∀ e ∈ es, e.Ok) (hinc : NonInc 1024 es) :
    commandList f tab Opts.default (some (archive es [])) =
      .ok ⟨true, es.map Entry.row, es.length, (es.map (·.packed.length)).sum, (es.map (·.content.length)).sum⟩ := by
  have hl := archive_length es []
  obtain ⟨k, h', _, _, k3, _, _, k4⟩ := listLoop_entries f hg tab [] es ((archive es []).length + 1) newHdr ⟨false, [], 0, 0, 0⟩ (by omega) hes
    noNames_new newHdr_method (by rw [newHdr_name]; exact hinc)
  unfold commandList
  simp only []
  rw [k4]
  obtain ⟨k, rfl⟩ : ∃ j, k = j + 1 := ⟨k - 1, by omega⟩
  simp only [List.nil_append, Nat.zero_add]
  rfl

/-- It is false, too, if a name gets longer: `ab` after `a` is listed as `a`. -/
theorem C60_false_name : ∃ e e' : Entry, e.Ok ∧ e'.Ok ∧ e.name = [97] ∧ e'.name = [97, 98] ∧ ∃ tab,
    (commandList ⟨false, false⟩ tab Opts.default (some (archive [e, e'] [0]))).map (fun o => (o.err, o.rows.map (·.name))) =
      .ok (false, [[97, 0], [97, 0, 0]]) := by
  refine ⟨⟨[45, 108, 104, 53, 45], [97], [], [], 0, 0, 0, 0o644, 0, 0, 0x20, 0o100000⟩,
    ⟨[45, 108, 104, 53, 45], [97, 98], [], [], 0, 0, 0, 0o644, 0, 0, 0x20, 0o100000⟩, ?_, ?_, rfl, rfl, ⟨0, .leaf 0⟩, ?_⟩
  · exact ⟨rfl, by decide, by decide, by decide, by decide, by decide, by decide, by decide, Or.inl rfl⟩
  · exact ⟨rfl, by decide, by decide, by decide, by decide, by decide, by decide, by decide, Or.inl rfl⟩
  · decide +kernel

/-- The hypotheses are met by a directory `d`, an entry `a` of an unknown method, and the row of the first: -/
example : let e : Entry := ⟨[45, 108, 104, 100, 45], [100], [], [], 0, 0, 0, 0o1755, 0, 0, 0x20, 0o040000⟩
    let e' : Entry := ⟨[45, 120, 120, 120, 45], [97], [1, 2], [3], 4, 0, 0, 0o4644, 0, 0, 0x20, 0o100000⟩
    e.Ok ∧ e'.Ok ∧ NonInc 1024 [e, e'] ∧ e.row.perm = some "drwxr-xr-t".toList ∧ e'.row.perm = some "-rwsr--r--".toList := by
  refine ⟨?_, ?_, ⟨by decide, by decide, trivial⟩, ?_, ?_⟩
  · exact ⟨rfl, by decide, by decide, by decide, by decide, by decide, by decide, by decide, Or.inr rfl⟩
  · exact ⟨rfl, by decide, by decide, by decide, by decide, by decide, by decide, by decide, Or.inl rfl⟩
  · decide
  · decide

end Lha
