import Verif.Spec.ListText
import Verif.Proof.Ratio
import Verif.Props.C60
/-!
# C93: the lines and columns of a listing
-/

namespace Lha

open Spec

/-! ## Numbers -/

theorem dec_digits (n : Nat) : Digits n (dec n) := by
  refine ⟨by simp [dec, Nat.toDigits_ne_nil], ?_, ?_⟩
  · intro d hd
    unfold dec at hd
    obtain ⟨c, hc, rfl⟩ := List.mem_map.mp hd
    have := Nat.isDigit_of_mem_toDigits (by omega) (by omega) hc
    simp only [Char.isDigit, Bool.and_eq_true, decide_eq_true_eq] at this
    exact ⟨UInt32.le_iff_toNat_le.1 this.1, UInt32.le_iff_toNat_le.1 this.2⟩
  · have h := Nat.ofDigitChars_ten_toDigits (n := n)
    rw [Nat.ofDigitChars_eq_foldl] at h
    unfold decimal dec
    rw [List.foldl_map]
    exact h

theorem dec_length {n k : Nat} (hk : 0 < k) (hn : n < 10 ^ k) : (dec n).length ≤ k := by
  unfold dec
  rw [List.length_map]
  exact (Nat.length_toDigits_le_iff (by omega) hk).2 hn

theorem padl_col {w n : Nat} (hw : 0 < w) (hn : n < 10 ^ w) : ColR w n (padl w (dec n)) := by
  have := dec_length hw hn
  exact ⟨by unfold padl; rw [List.length_append, List.length_replicate]; omega, _, _, rfl, dec_digits n⟩

theorem padr_col {w n : Nat} (hw : 0 < w) (hn : n < 10 ^ w) : ColL w n (padr w (dec n)) := by
  have := dec_length hw hn
  exact ⟨by unfold padr; rw [List.length_append, List.length_replicate]; omega, _, _, rfl, dec_digits n⟩

theorem dec_digit {n : Nat} (hn : n < 10) : ∃ d, dec n = [d] := by
  unfold dec
  rw [Nat.toDigits_of_lt_base hn]
  exact ⟨_, rfl⟩

theorem ratio_col {p o : Nat} (hp : p < 2 ^ 42) (ho' : o < 2 ^ 53) (hr : p ≤ 9 * o) :
    ColRatio p o (if o = 0 then str "******" else percentText (tenths p o)) := by
  by_cases h0 : o = 0
  · rw [if_pos h0]
    refine ⟨rfl, ?_⟩
    unfold RatioText
    rw [if_pos h0]
    rfl
  · rw [if_neg h0]
    obtain ⟨t1, t2⟩ := tenths_le hp (Nat.pos_of_ne_zero h0) ho'
    generalize tenths p o = t at *
    have ht : t < 10000 := by
      by_contra hc
      have : 10000 * o ≤ t * o := Nat.mul_le_mul_right o (by omega)
      omega
    obtain ⟨d, hd⟩ := dec_digit (n := t % 10) (by omega)
    have hl := dec_length (n := t / 10) (k := 3) (by omega) (by omega)
    have hd' := dec_digits (t % 10)
    rw [hd] at hd'
    unfold percentText
    rw [hd]
    refine ⟨?_, ?_⟩
    · unfold padl
      simp only [List.length_append, List.length_replicate, List.length_singleton]
      omega
    · unfold RatioText
      rw [if_neg h0]
      refine ⟨t, 5 - (dec (t / 10) ++ [46] ++ [d]).length, dec (t / 10), d, ?_, dec_digits _, hd', t1, t2⟩
      unfold padl
      simp

/-! ## The loop -/

/-- The looks of `lharc -l`. -/
def Look.plain : Look := ⟨false, false, false⟩

/-- The line printed for an entry. -/
def lineOf (e : Entry) : List Nat :=
  (permString (e.kind = 0o040000) e.perm).map Char.toNat ++ [0, 32] ++ padl 5 (dec (e.uid % 2 ^ 16)) ++ [47] ++ padr 5 (dec (e.gid % 2 ^ 16)) ++ [32] ++
    padl 7 (dec e.content.length) ++ [32] ++
    (if e.content.length = 0 then str "******" else percentText (tenths e.packed.length e.content.length)) ++ [32] ++ List.replicate 12 32 ++ [32] ++
    e.name ++ [0, 10]

theorem permChars_of {e : Entry} (ho : e.Ok) : permChars (e.kind + e.perm) = permString (e.kind = 0o040000) e.perm := by
  rcases ho.kind with h | h
  · rw [h]
    exact permChars_file ho.perm
  · rw [h]
    exact permChars_dir ho.perm

theorem file_nolink : ∀ a b : Fin 64, (0o100000 + (a * 64 + b : Nat)) &&& 0o120000 ≠ 0o120000 := by decide +kernel

theorem dir_nolink : ∀ a b : Fin 64, (0o040000 + (a * 64 + b : Nat)) &&& 0o120000 ≠ 0o120000 := by decide +kernel

theorem nolink_of {e : Entry} (ho : e.Ok) : (e.kind + e.perm) &&& 0o120000 ≠ 0o120000 := by
  have hp := ho.perm
  rcases ho.kind with h | h
  · have := file_nolink ⟨e.perm / 64, by omega⟩ ⟨e.perm % 64, by omega⟩
    rw [h]
    rwa [show e.perm / 64 * 64 + e.perm % 64 = e.perm by omega] at this
  · have := dir_nolink ⟨e.perm / 64, by omega⟩ ⟨e.perm % 64, by omega⟩
    rw [h]
    rwa [show e.perm / 64 * 64 + e.perm % 64 = e.perm by omega] at this

theorem Parsed.rowText {e : Entry} {g : Hdr} (P : Parsed e g) (ho : e.Ok) (hn : NoNames g) (q : Bool) :
    rowText ⟨false, false, q⟩ g = .ok (lineOf e) := by
  unfold Lha.rowText ownerText
  rw [if_pos (Or.inl P.ext), ownerOf_zero hn.1, ok_bind, ownerOf_zero hn.2, ok_bind, ok_bind]
  simp only [Bool.false_eq_true, if_false, Bool.and_false]
  unfold permText nameText sizeText stampText lineOf
  simp only [Bool.false_eq_true, if_false, Bool.and_false]
  rw [if_pos P.ext, P.mode, permChars_of ho, if_pos (nolink_of ho), P.uid, P.gid, P.packed, P.original, P.name]
  simp only [List.nil_append, List.append_assoc, List.append_nil, List.cons_append]

theorem listLoopT_entries (f : Fmt) (hg : f.generic = false) (tab : Arr) (q : Bool) (t : List Nat) (es : List Entry) :
    ∀ (n : Nat) (h : Hdr) (err : Bool) (text : List Nat) (a b c : Nat), es.length < n → (∀ e ∈ es, e.Ok) → NoNames h → h.method.length = 5 →
      NonInc h.name.length es →
      ∃ k h', n = es.length + k ∧ listLoopT f tab Opts.default ⟨false, false, q⟩ n h err text a b c (archive es t) =
        listLoopT f tab Opts.default ⟨false, false, q⟩ k h' err (text ++ es.flatMap lineOf) (a + es.length) (b + (es.map (·.packed.length)).sum)
          (c + (es.map (·.content.length)).sum) t := by
  induction es with
  | nil =>
    intro n h err text a b c hn _ hnn hm _
    exact ⟨n, h, by simp, by simp [archive]⟩
  | cons e es ih =>
    intro n h err text a b c hn hoks hnn hm hinc
    obtain ⟨n, rfl⟩ : ∃ k, n = k + 1 := ⟨n - 1, by simp at hn; omega⟩
    have ho := hoks e List.mem_cons_self
    obtain ⟨g, e1, P⟩ := entry_parse f hg tab e ho h hm hinc.1 (archive es t)
    obtain ⟨o1, o2⟩ := getHeader_owner e1
    have hnn' : NoNames g := ⟨by rw [o1]; exact hnn.1, by rw [o2]; exact hnn.2⟩
    obtain ⟨k, h', k3, k4⟩ := ih n g err (text ++ lineOf e) (a + 1) (b + e.packed.length) (c + e.content.length)
      (by simp at hn; omega) (fun e' he' => hoks e' (List.mem_cons_of_mem e he')) hnn' (by rw [P.method]; exact ho.method)
      (by rw [P.name, List.length_append]; exact hinc.2)
    refine ⟨k, h', by simp; omega, ?_⟩
    conv_lhs => unfold listLoopT
    rw [archive_cons, e1, ok_bind]
    simp only []
    rw [if_pos (by simp [needFile, Opts.default]), P.rowText ho hnn', ok_bind, P.packed, P.original, List.drop_left, k4]
    simp only [List.map_cons, List.sum_cons, List.length_cons, List.append_assoc, List.flatMap_cons, Nat.add_assoc, Nat.add_comm 1]

/-- What is printed for an archive of entries that ends with a zero byte. -/
theorem listing_text (f : Fmt) (hg : f.generic = false) (tab : Arr) (q : Bool) (es : List Entry) (hes : ∀ e ∈ es, e.Ok) (hinc : NonInc 1024 es) (r : List Nat) :
    commandListT f tab Opts.default ⟨false, false, q⟩ (some (archive es (0 :: r))) =
      .ok (false, (if q then [] else headText Look.plain) ++ es.flatMap lineOf ++
        if q then [] else tailText Look.plain es.length (es.map (·.packed.length)).sum (es.map (·.content.length)).sum) := by
  have hl := archive_length es (0 :: r)
  obtain ⟨k, h', k3, k4⟩ := listLoopT_entries f hg tab q (0 :: r) es ((archive es (0 :: r)).length + 1) newHdr false
    (if q then [] else headText ⟨false, false, q⟩) 0 0 0 (by omega) hes noNames_new newHdr_method (by rw [newHdr_name]; exact hinc)
  unfold commandListT
  simp only []
  rw [k4]
  obtain ⟨k, rfl⟩ : ∃ j, k = j + 1 := ⟨k - 1, by omega⟩
  unfold listLoopT
  rw [show getHeader f tab h' (0 :: r) = .ok .fin from rfl, ok_bind]
  simp only []
  rw [ok_bind]
  simp only [Nat.zero_add]
  cases q <;> rfl

theorem lineOf_line {e : Entry} (hs : e.content.length < 10 ^ 7) (hr : e.packed.length ≤ 9 * e.content.length) : Line e (lineOf e) :=
  ⟨_, _, _, _, rfl, padl_col (by omega) (by have := Nat.mod_lt e.uid (y := 2 ^ 16) (by omega); omega),
    padr_col (by omega) (by have := Nat.mod_lt e.gid (y := 2 ^ 16) (by omega); omega), padl_col (by omega) hs, ratio_col (by omega) (by omega) hr⟩

theorem tail_total {n p o : Nat} (hn : n < 10 ^ 9) (ho : o < 10 ^ 7) (hr : p ≤ 9 * o) : Total n p o (tailText Look.plain n p o) := by
  refine ⟨padl 9 (dec n), padl 7 (dec o), _, ?_, padl_col (by omega) hn, padl_col (by omega) ho, ratio_col (by omega) (by omega) hr⟩
  unfold tailText sizeText stampText barText Look.plain
  simp only [Bool.false_eq_true, if_false, Bool.and_false, List.nil_append, List.append_nil, List.append_assoc, List.cons_append, str]

theorem sum_ratio {es : List Entry} (h : ∀ e ∈ es, e.packed.length ≤ 9 * e.content.length) :
    (es.map (·.packed.length)).sum ≤ 9 * (es.map (·.content.length)).sum := by
  induction es with
  | nil => simp
  | cons e es ih =>
    have h1 := h e List.mem_cons_self
    have h2 := ih fun e' he' => h e' (List.mem_cons_of_mem e he')
    simp only [List.map_cons, List.sum_cons]
    omega

theorem le_sum {es : List Entry} {e : Entry} (h : e ∈ es) : e.content.length ≤ (es.map (·.content.length)).sum := by
  induction es with
  | nil => cases h
  | cons a es ih =>
    simp only [List.map_cons, List.sum_cons]
    cases h with
    | head => omega
    | tail _ h => have := ih h; omega

/-! ## Line feeds -/

theorem digits_lf {n : Nat} {ds : List Nat} (h : Digits n ds) : ds.count 10 = 0 := by
  rw [List.count_eq_zero]
  intro hm
  have := h.2.1 10 hm
  omega

theorem replicate_lf (n : Nat) : (List.replicate n 32).count 10 = 0 := by
  rw [List.count_eq_zero]
  intro hm
  have := List.eq_of_mem_replicate hm
  omega

theorem padl_lf (w n : Nat) : (padl w (dec n)).count 10 = 0 := by
  unfold padl
  rw [List.count_append, replicate_lf, digits_lf (dec_digits n)]

theorem padr_lf (w n : Nat) : (padr w (dec n)).count 10 = 0 := by
  unfold padr
  rw [List.count_append, replicate_lf, digits_lf (dec_digits n)]

theorem percent_lf (t : Nat) : (percentText t).count 10 = 0 := by
  unfold percentText padl
  simp only [List.count_append, replicate_lf, digits_lf (dec_digits _)]
  rfl

theorem triple_lf (p : Nat) (s : Bool) (c : Char) (hc : c.toNat ≠ 10) : ((triple p s c).map Char.toNat).count 10 = 0 := by
  rw [List.count_eq_zero]
  intro hm
  obtain ⟨d, hd, hd'⟩ := List.mem_map.mp hm
  simp only [triple, List.mem_cons, List.not_mem_nil, or_false] at hd
  rcases hd with rfl | rfl | rfl
  · split_ifs at hd' <;> exact absurd hd' (by decide)
  · split_ifs at hd' <;> exact absurd hd' (by decide)
  · split_ifs at hd'
    · exact hc hd'
    · exact absurd hd' (by decide)
    · exact absurd hd' (by decide)

theorem perm_lf (d : Bool) (p : Nat) : ((permString d p).map Char.toNat).count 10 = 0 := by
  unfold permString
  simp only [List.map_cons, List.map_append, List.count_cons, List.count_append]
  rw [triple_lf _ _ _ (by decide), triple_lf _ _ _ (by decide), triple_lf _ _ _ (by decide)]
  cases d <;> rfl

theorem size_lf (p o : Nat) : (if o = 0 then str "******" else percentText (tenths p o)).count 10 = 0 := by
  split_ifs
  · decide
  · exact percent_lf _

theorem lineOf_lf (e : Entry) : (lineOf e).count 10 = e.name.count 10 + 1 := by
  unfold lineOf
  simp only [List.count_append, perm_lf, padl_lf, padr_lf, size_lf, replicate_lf]
  simp

theorem lines_lf (es : List Entry) : (es.flatMap lineOf).count 10 = es.length + (es.map (·.name.count 10)).sum := by
  induction es with
  | nil => rfl
  | cons e es ih =>
    rw [List.flatMap_cons, List.count_append, ih, lineOf_lf]
    simp only [List.length_cons, List.map_cons, List.sum_cons]
    omega

theorem tail_lf (n p o : Nat) : (tailText Look.plain n p o).count 10 = 2 := by
  unfold tailText sizeText stampText barText Look.plain
  simp only [Bool.false_eq_true, if_false, Bool.and_false, List.count_append, padl_lf, size_lf, replicate_lf]
  split_ifs <;> decide +kernel

/-! ## The property -/

/-- **C93 (partial).**  Full statement: the listing of an archive has a heading of two lines, one line for each entry, with permissions, owner, size,
ratio and name in fixed columns, a bar and a line with the totals.  Proved for archives as in C60 whose names contain no line feed, whose contents have
less than ten million bytes together, and in which no content is packed into more than nine times as many bytes. -/
theorem C93_partial (f : Fmt) (hg : f.generic = false) (tab : Arr) (es : List Entry) (hes : ∀ e ∈ es, e.Ok) (hinc : NonInc 1024 es)
    (hlf : ∀ e ∈ es, 10 ∉ e.name) (hn : es.length < 10 ^ 9) (hs : (es.map (·.content.length)).sum < 10 ^ 7)
    (hr : ∀ e ∈ es, e.packed.length ≤ 9 * e.content.length) (r : List Nat) :
    ∃ text lines total, commandListT f tab Opts.default Look.plain (some (archive es (0 :: r))) = .ok (false, text) ∧
      text = "PERMISSION  UID  GID      SIZE  RATIO     STAMP           NAME\n".toList.map Char.toNat ++
        "---------- ----------- ------- ------ ------------ --------------------\n".toList.map Char.toNat ++ lines.flatten ++ total ∧
      List.Forall₂ Line es lines ∧ (∀ l ∈ lines, l.count 10 = 1) ∧
      Total es.length (es.map (·.packed.length)).sum (es.map (·.content.length)).sum total ∧ text.count 10 = 4 + es.length := by
  have h := listing_text f hg tab false es hes hinc r
  rw [List.flatMap_def] at h
  refine ⟨_, es.map lineOf, _, h, rfl, ?_, ?_, tail_total hn hs (sum_ratio hr), ?_⟩
  · rw [List.forall₂_map_right_iff, List.forall₂_same]
    exact fun e he => lineOf_line (Nat.lt_of_le_of_lt (le_sum he) hs) (hr e he)
  · intro l hl
    obtain ⟨e, he, rfl⟩ := List.mem_map.mp hl
    rw [lineOf_lf, List.count_eq_zero.2 (hlf e he)]
  · have h0 : (es.map (·.name.count 10)).sum = 0 := by
      rw [List.sum_eq_zero]
      intro x hx
      obtain ⟨e, he, rfl⟩ := List.mem_map.mp hx
      exact List.count_eq_zero.2 (hlf e he)
    rw [← List.flatMap_def, List.count_append, List.count_append, lines_lf, h0]
    simp only [Bool.false_eq_true, if_false]
    rw [tail_lf, show (headText Look.plain).count 10 = 2 by decide +kernel]
    omega

/-- **C93 is false:** names are printed as they are, so that each line feed in a name begins another line, and who made the archive chooses what stands
there.  The number of lines in general: -/
theorem C93_false (f : Fmt) (hg : f.generic = false) (tab : Arr) (es : List Entry) (hes : ∀ e ∈ es, e.Ok) (hinc : NonInc 1024 es) (r : List Nat) :
    ∃ text, commandListT f tab Opts.default Look.plain (some (archive es (0 :: r))) = .ok (false, text) ∧
      text.count 10 = 4 + es.length + (es.map (·.name.count 10)).sum := by
  refine ⟨_, listing_text f hg tab false es hes hinc r, ?_⟩
  rw [List.count_append, List.count_append, lines_lf]
  simp only [Bool.false_eq_true, if_false]
  rw [tail_lf, show (headText Look.plain).count 10 = 2 by decide +kernel]
  omega

/-- A forged line: the listing of one entry, whose name goes on after a line feed as the line of an entry `b` does, is (but for the totals) byte for
byte that of two entries. -/
theorem C93_false_forged : ∃ e a b : Entry, e.Ok ∧ a.Ok ∧ b.Ok ∧ 0 ∉ e.name ∧
    ∀ (f : Fmt) (tab : Arr), f.generic = false → ∃ text, commandListT f tab Opts.default ⟨false, false, true⟩ (some (archive [e] [0])) = .ok (false, text) ∧
      ∃ text', commandListT f tab Opts.default ⟨false, false, true⟩ (some (archive [a, b] [0])) = .ok (false, text') ∧
        text.filter (· ≠ 0) = text'.filter (· ≠ 0) := by
  let a : Entry := ⟨[45, 108, 104, 48, 45], [97], [65], [65], 0, 0, 0, 0o644, 0, 0, 0x20, 0o100000⟩
  let b : Entry := ⟨[45, 108, 104, 48, 45], [98], [65], [65], 0, 0, 0, 0o644, 0, 0, 0x20, 0o100000⟩
  let e : Entry := { a with name := [97, 10] ++ ((lineOf b).filter (· ≠ 0)).dropLast }
  have ha : a.Ok := ⟨rfl, by decide, by decide, by decide, by decide, by decide, by decide, by decide, Or.inl rfl⟩
  have hb : b.Ok := ⟨rfl, by decide, by decide, by decide, by decide, by decide, by decide, by decide, Or.inl rfl⟩
  have he : e.Ok := ⟨rfl, by decide +kernel, by decide +kernel, by decide +kernel, by decide, by decide, by decide, by decide, Or.inl rfl⟩
  refine ⟨e, a, b, he, ha, hb, by decide +kernel, fun f tab hg => ?_⟩
  refine ⟨_, listing_text f hg tab true [e] ?_ ⟨by decide +kernel, trivial⟩ [], _, listing_text f hg tab true [a, b] ?_ ⟨by decide, by decide, trivial⟩ [], by decide +kernel⟩
  · intro x hx
    rw [List.mem_singleton.mp hx]
    exact he
  · intro x hx
    simp only [List.mem_cons, List.not_mem_nil, or_false] at hx
    rcases hx with rfl | rfl
    · exact ha
    · exact hb

/-! ## Both models of the listing agree -/

theorem rowText_listOne (k : Look) (h : Hdr) : (rowText k h).map (fun _ => ()) = (listOne h).map fun _ => () := by
  unfold rowText ownerText listOne
  by_cases hx : h.extendType = 0x55 ∨ h.extendType = 0x4b ∨ h.extendType = 0x58
  · rw [if_pos hx, if_pos hx]
    cases ownerOf h.user h.uid with
    | error _ => rfl
    | ok u =>
      cases ownerOf h.group h.gid with
      | error _ => rfl
      | ok g => rfl
  · rw [if_neg hx, if_neg hx]
    rfl

theorem listLoopT_eq (f : Fmt) (tab : Arr) (o : Opts) (k : Look) : ∀ (n : Nat) (h : Hdr) (out : ListOut) (text : List Nat) (inp : List Nat),
    (listLoopT f tab o k n h out.err text out.files out.packed out.original inp).map (fun r => (r.1, r.2.2)) =
      (listLoop f tab o n h out inp).map fun x => (x.err, x.files, x.packed, x.original) := by
  intro n
  induction n with
  | zero => intros; rfl
  | succ n ih =>
    intro h out text inp
    unfold listLoopT listLoop
    cases getHeader f tab h inp with
    | error _ => rfl
    | ok x =>
      rw [ok_bind, ok_bind]
      cases x with
      | eof => rfl
      | bad => rfl
      | fin => rfl
      | got g rest =>
        simp only []
        by_cases hn : needFile o g.name
        · rw [if_pos hn, if_pos hn]
          have hr := rowText_listOne k g
          cases h1 : listOne g with
          | error x =>
            rw [h1] at hr
            cases h2 : rowText k g with
            | ok _ => rw [h2] at hr; cases hr
            | error y => rw [h2] at hr; cases hr; rfl
          | ok row =>
            rw [h1] at hr
            cases h2 : rowText k g with
            | error y => rw [h2] at hr; cases hr
            | ok t =>
              rw [ok_bind, ok_bind, ok_bind]
              exact ih g { out with rows := out.rows ++ [row], files := out.files + 1, packed := out.packed + g.packedSize, original := out.original + g.originalSize } _ _
        · rw [if_neg hn, if_neg hn, ok_bind]
          exact ih g out _ _

/-- The model with the text and the one without return an error, and panic, in the same cases. -/
theorem C93_model (f : Fmt) (tab : Arr) (o : Opts) (k : Look) (arch : Option (List Nat)) :
    (commandListT f tab o k arch).map Prod.fst = (commandList f tab o arch).map (·.err) := by
  cases arch with
  | none => rfl
  | some a =>
    have h := listLoopT_eq f tab o k (a.length + 1) newHdr ⟨false, [], 0, 0, 0⟩ (if k.quiet then [] else headText k) a
    unfold commandListT commandList
    simp only []
    simp only [] at h
    cases h1 : listLoop f tab o (a.length + 1) newHdr ⟨false, [], 0, 0, 0⟩ a with
    | error x =>
      rw [h1] at h
      cases h2 : listLoopT f tab o k (a.length + 1) newHdr false (if k.quiet then [] else headText k) 0 0 0 a with
      | ok _ => rw [h2] at h; cases h
      | error y => rw [h2] at h; cases h; rfl
    | ok x =>
      rw [h1] at h
      cases h2 : listLoopT f tab o k (a.length + 1) newHdr false (if k.quiet then [] else headText k) 0 0 0 a with
      | error _ => rw [h2] at h; cases h
      | ok y =>
        rw [h2] at h
        have := Except.ok.inj h
        rw [ok_bind]
        exact congrArg Except.ok (Prod.mk.inj this).1

/-- The hypotheses are met by a directory `d` and an entry `a`: -/
example : let e : Entry := ⟨[45, 108, 104, 100, 45], [100], [], [], 0, 0, 0, 0o1755, 0, 0, 0x20, 0o040000⟩
    let e' : Entry := ⟨[45, 120, 120, 120, 45], [97], [1, 2], [3], 4, 0, 0, 0o4644, 0, 0, 0x20, 0o100000⟩
    (∀ x ∈ [e, e'], x.Ok ∧ 10 ∉ x.name ∧ x.packed.length ≤ 9 * x.content.length) ∧ NonInc 1024 [e, e'] := by
  refine ⟨?_, ⟨by decide, by decide, trivial⟩⟩
  intro x hx
  simp only [List.mem_cons, List.not_mem_nil, or_false] at hx
  rcases hx with rfl | rfl
  · exact ⟨⟨rfl, by decide, by decide, by decide, by decide, by decide, by decide, by decide, Or.inr rfl⟩, by decide, by decide⟩
  · exact ⟨⟨rfl, by decide, by decide, by decide, by decide, by decide, by decide, by decide, Or.inl rfl⟩, by decide, by decide⟩

end Lha
