import Verif.Spec.ListStyle
import Verif.Props.C94
/-!
# C96: the styles of a listing
-/

namespace Lha

open Spec

/-! ## Hexadecimal numbers -/

theorem hex_digit : ∀ d : Fin 16, let c := (Nat.digitChar d).toNat
    ((48 ≤ c ∧ c ≤ 57) ∨ (97 ≤ c ∧ c ≤ 102)) ∧ (if c ≤ 57 then c - 48 else c - 87) = d := by decide

theorem hex_digits (n : Nat) : (∀ d ∈ (Nat.toDigits 16 n).map Char.toNat, (48 ≤ d ∧ d ≤ 57) ∨ (97 ≤ d ∧ d ≤ 102)) ∧
    hexadecimal ((Nat.toDigits 16 n).map Char.toNat) = n := by
  induction n using Nat.strongRecOn with
  | ind n ih =>
    rw [Nat.toDigits_eq_if (by omega)]
    by_cases h : n < 16
    · rw [if_pos h]
      have := hex_digit ⟨n, h⟩
      refine ⟨fun d hd => ?_, ?_⟩
      · rw [List.map_singleton, List.mem_singleton] at hd
        rw [hd]
        exact this.1
      · simpa [hexadecimal] using this.2
    · rw [if_neg h]
      have d := hex_digit ⟨n % 16, Nat.mod_lt _ (by omega)⟩
      obtain ⟨i1, i2⟩ := ih (n / 16) (by omega)
      rw [List.map_append, List.map_singleton]
      refine ⟨fun x hx => ?_, ?_⟩
      · rcases List.mem_append.1 hx with hx | hx
        · exact i1 x hx
        · rw [List.mem_singleton.1 hx]
          exact d.1
      · unfold hexadecimal at i2 ⊢
        rw [List.foldl_append, i2, List.foldl_cons, List.foldl_nil, d.2]
        simp only []
        omega

theorem zeros_hex (k : Nat) (ds : List Nat) : hexadecimal (List.replicate k 48 ++ ds) = hexadecimal ds := by
  unfold hexadecimal
  rw [List.foldl_append]
  congr 1
  induction k with
  | zero => rfl
  | succ k ih => rw [List.replicate_succ, List.foldl_cons]; exact ih

theorem hex4_col {n : Nat} (hn : n < 2 ^ 16) : Hex4 n (hex4 n) := by
  obtain ⟨h1, h2⟩ := hex_digits n
  have hl : ((Nat.toDigits 16 n).map Char.toNat).length ≤ 4 := by
    rw [List.length_map]
    exact (Nat.length_toDigits_le_iff (by omega) (by omega)).2 hn
  unfold hex4
  simp only []
  refine ⟨by rw [List.length_append, List.length_replicate]; omega, fun d hd => ?_, by rw [zeros_hex, h2]⟩
  rcases List.mem_append.1 hd with hd | hd
  · rw [List.eq_of_mem_replicate hd]; omega
  · exact h1 d hd

theorem padl_num (w n : Nat) : NumR w n (padl w (dec n)) := by
  refine ⟨_, _, rfl, dec_digits n, ?_, ?_⟩
  · unfold padl; rw [List.length_append, List.length_replicate]; omega
  · unfold padl; rw [List.length_append, List.length_replicate]; omega

theorem padr_num (w n : Nat) : NumL w n (padr w (dec n)) := by
  refine ⟨_, _, rfl, dec_digits n, ?_, ?_⟩
  · unfold padr; rw [List.length_append, List.length_replicate]; omega
  · unfold padr; rw [List.length_append, List.length_replicate]; omega

/-! ## Lines -/

/-- What is printed for an entry. -/
def styledOf (k : Look) (e : Entry) : List Nat :=
  (if k.verbose then e.name ++ [0, 10] else []) ++ (permString (e.kind = 0o040000) e.perm).map Char.toNat ++ [0, 32] ++
    padl 5 (dec (e.uid % 2 ^ 16)) ++ [47] ++ padr 5 (dec (e.gid % 2 ^ 16)) ++ [32] ++
    (if k.full then padl 7 (dec e.packed.length) ++ [32] else []) ++ padl 7 (dec e.content.length) ++ [32] ++
    (if e.content.length = 0 then str "******" else percentText (tenths e.packed.length e.content.length)) ++
    (if k.full then [32] ++ e.method ++ [0, 32] ++ hex4 e.crc else []) ++ [32] ++ List.replicate (if k.full ∧ k.verbose then 19 else 12) 32 ++
    (if k.verbose then [32, 91, 48, 93] else [32] ++ e.name ++ [0]) ++ [10]

theorem Parsed.styled {e : Entry} {g : Hdr} (P : Parsed e g) (ho : e.Ok) (hn : NoNames g) (k : Look) : Lha.rowText k g = .ok (styledOf k e) := by
  have hm : (e.method ++ List.replicate 5 0).take 5 = e.method := by rw [List.take_append_of_le_length (by rw [ho.method]), List.take_of_length_le (by rw [ho.method])]
  unfold Lha.rowText ownerText
  rw [if_pos (Or.inl P.ext), ownerOf_zero hn.1, ok_bind, ownerOf_zero hn.2, ok_bind, ok_bind]
  unfold permText nameText sizeText stampText styledOf
  rw [if_pos P.ext, P.mode, permChars_of ho, if_pos (nolink_of ho), P.uid, P.gid, P.packed, P.original, P.name, P.method, hm, P.hasCrc, P.crc, P.level]
  obtain ⟨v, f, q⟩ := k
  have h0 : str " [" ++ dec 0 ++ str "]" = [32, 91, 48, 93] := by decide
  cases v <;> cases f <;>
    simp only [Bool.false_eq_true, if_false, if_true, Bool.and_false, Bool.and_true, Bool.false_and, List.nil_append, List.append_assoc, List.append_nil,
      List.cons_append, and_self, and_false, false_and, h0]

theorem styledOf_line (k : Look) {e : Entry} (ho : e.Ok) : StyledLine k.full k.verbose e (styledOf k e) :=
  ⟨_, _, _, _, _, _, rfl, padl_num _ _, padr_num _ _, padl_num _ _, padl_num _ _, ratio_text (by have := ho.packed; omega) (by have := ho.content; omega),
    hex4_col ho.crc⟩

theorem listLoopT_styled (f : Fmt) (hg : f.generic = false) (tab : Arr) (k : Look) (t : List Nat) (es : List Entry) :
    ∀ (n : Nat) (h : Hdr) (err : Bool) (text : List Nat) (a b c : Nat), es.length < n → (∀ e ∈ es, e.Ok) → NoNames h → h.method.length = 5 →
      NonInc h.name.length es →
      ∃ m h', n = es.length + m ∧ listLoopT f tab Opts.default k n h err text a b c (archive es t) =
        listLoopT f tab Opts.default k m h' err (text ++ es.flatMap (styledOf k)) (a + es.length) (b + (es.map (·.packed.length)).sum)
          (c + (es.map (·.content.length)).sum) t := by
  induction es with
  | nil =>
    intro n h err text a b c hn _ hnn hm _
    exact ⟨n, h, by simp, by simp [archive]⟩
  | cons e es ih =>
    intro n h err text a b c hn hoks hnn hm hinc
    obtain ⟨n, rfl⟩ : ∃ k, n = k + 1 := ⟨n - 1, by simp at hn; omega⟩
    have ho := hoks e List.mem_cons_self
    obtain ⟨g, e1, P⟩ := entry_parse f hg tab e ho h hm hinc.1 (archive es t)
    obtain ⟨o1, o2⟩ := getHeader_owner e1
    have hnn' : NoNames g := ⟨by rw [o1]; exact hnn.1, by rw [o2]; exact hnn.2⟩
    obtain ⟨m, h', k3, k4⟩ := ih n g err (text ++ styledOf k e) (a + 1) (b + e.packed.length) (c + e.content.length)
      (by simp at hn; omega) (fun e' he' => hoks e' (List.mem_cons_of_mem e he')) hnn' (by rw [P.method]; exact ho.method)
      (by rw [P.name, List.length_append]; exact hinc.2)
    refine ⟨m, h', by simp; omega, ?_⟩
    conv_lhs => unfold listLoopT
    rw [archive_cons, e1, ok_bind]
    simp only []
    rw [if_pos (by simp [needFile, Opts.default]), P.styled ho hnn', ok_bind, P.packed, P.original, List.drop_left, k4]
    simp only [List.map_cons, List.sum_cons, List.length_cons, List.append_assoc, List.flatMap_cons, Nat.add_assoc, Nat.add_comm 1]

/-- What is printed for an archive of entries that ends with a zero byte. -/
theorem listing_styled (f : Fmt) (hg : f.generic = false) (tab : Arr) (k : Look) (es : List Entry) (hes : ∀ e ∈ es, e.Ok) (hinc : NonInc 1024 es) (r : List Nat) :
    commandListT f tab Opts.default k (some (archive es (0 :: r))) =
      .ok (false, (if k.quiet then [] else headText k) ++ es.flatMap (styledOf k) ++
        if k.quiet then [] else tailText k es.length (es.map (·.packed.length)).sum (es.map (·.content.length)).sum) := by
  have hl := archive_length es (0 :: r)
  obtain ⟨m, h', k3, k4⟩ := listLoopT_styled f hg tab k (0 :: r) es ((archive es (0 :: r)).length + 1) newHdr false
    (if k.quiet then [] else headText k) 0 0 0 (by omega) hes noNames_new newHdr_method (by rw [newHdr_name]; exact hinc)
  unfold commandListT
  simp only []
  rw [k4]
  obtain ⟨m, rfl⟩ : ∃ j, m = j + 1 := ⟨m - 1, by omega⟩
  unfold listLoopT
  rw [show getHeader f tab h' (0 :: r) = .ok .fin from rfl, ok_bind]
  simp only []
  rw [ok_bind]
  simp only [Nat.zero_add]

theorem bar_eq (k : Look) : barText k = (bar k.full k.verbose).toList.map Char.toNat := by
  obtain ⟨v, f, q⟩ := k
  cases v <;> cases f <;> cases q <;> decide +kernel

theorem headText_eq (k : Look) : headText k = (heading k.full k.verbose).toList.map Char.toNat ++ (bar k.full k.verbose).toList.map Char.toNat := by
  rw [← bar_eq]
  unfold headText
  congr 1
  obtain ⟨v, f, q⟩ := k
  cases v <;> cases f <;> cases q <;> decide +kernel

theorem tail_styled (k : Look) {n p o : Nat} (hp : p < 2 ^ 42) (ho : o < 2 ^ 53) :
    ∃ total, tailText k n p o = (bar k.full k.verbose).toList.map Char.toNat ++ total ∧ StyledTotal k.full k.verbose n p o total := by
  refine ⟨_, ?_, padl 9 (dec n), padl 7 (dec p), padl 7 (dec o), _, rfl, padl_num _ _, padl_num _ _, padl_num _ _, ratio_text hp ho⟩
  unfold tailText sizeText stampText
  rw [bar_eq, show str " Total " = " Total ".toList.map Char.toNat from rfl, show str " file" = " file".toList.map Char.toNat from rfl]
  generalize (bar k.full k.verbose).toList.map Char.toNat = b
  generalize " Total ".toList.map Char.toNat = x
  generalize " file".toList.map Char.toNat = y
  generalize (if o = 0 then str "******" else percentText (tenths p o)) = z
  obtain ⟨v, f, q⟩ := k
  cases v <;> cases f <;>
    simp only [Bool.false_eq_true, if_false, if_true, Bool.and_false, Bool.and_self, Bool.and_true, List.nil_append, List.append_assoc, List.append_nil,
      List.cons_append, and_self, and_false, false_and]

theorem sum_lt {es : List Entry} {f : Entry → Nat} {b : Nat} (h : ∀ e ∈ es, f e < b) : (es.map f).sum ≤ es.length * b := by
  induction es with
  | nil => simp
  | cons e es ih =>
    have h1 := h e List.mem_cons_self
    have h2 := ih fun e' he' => h e' (List.mem_cons_of_mem e he')
    simp only [List.map_cons, List.sum_cons, List.length_cons, Nat.add_mul, Nat.one_mul]
    omega

/-- **C96 (partial).** Full statement: for every archive and every choice of `Verbose`, `VerboseListing` and `Quiet` the listing consists of the heading
of that style, a bar, one line for each entry with all that the style shows, a bar and the totals; with `Quiet` of the lines of the entries only.
Proved for archives as in C60, of any sizes, with fewer than 1024 entries; missing: longer archives and headers of other
kinds, for one of which it is false (`C96_false`). -/
theorem C96_partial (f : Fmt) (hg : f.generic = false) (tab : Arr) (k : Look) (es : List Entry) (hes : ∀ e ∈ es, e.Ok) (hinc : NonInc 1024 es)
    (hn : es.length < 2 ^ 10) (r : List Nat) :
    ∃ text lines total, commandListT f tab Opts.default k (some (archive es (0 :: r))) = .ok (false, text) ∧
      List.Forall₂ (StyledLine k.full k.verbose) es lines ∧
      StyledTotal k.full k.verbose es.length (es.map (·.packed.length)).sum (es.map (·.content.length)).sum total ∧
      text = if k.quiet then lines.flatten else
        (heading k.full k.verbose).toList.map Char.toNat ++ (bar k.full k.verbose).toList.map Char.toNat ++ lines.flatten ++
          (bar k.full k.verbose).toList.map Char.toNat ++ total := by
  have h := listing_styled f hg tab k es hes hinc r
  have hp := sum_lt (es := es) (f := (·.packed.length)) (b := 2 ^ 32) fun e he => (hes e he).packed
  have ho := sum_lt (es := es) (f := (·.content.length)) (b := 2 ^ 32) fun e he => (hes e he).content
  have hb : es.length * 2 ^ 32 < 2 ^ 42 := by
    calc _ < 2 ^ 10 * 2 ^ 32 := Nat.mul_lt_mul_of_pos_right hn (by decide)
      _ = 2 ^ 42 := by rw [← Nat.pow_add]
  obtain ⟨total, t1, t2⟩ := tail_styled k (n := es.length) (Nat.lt_of_le_of_lt hp hb) (Nat.lt_of_le_of_lt ho (Nat.lt_trans hb (by decide)))
  rw [List.flatMap_def, t1, headText_eq] at h
  refine ⟨_, es.map (styledOf k), total, h, ?_, t2, ?_⟩
  · rw [List.forall₂_map_right_iff, List.forall₂_same]
    exact fun e he => styledOf_line k (hes e he)
  · cases k.quiet
    · simp only [Bool.false_eq_true, if_false, List.append_assoc]
    · simp only [if_true, List.nil_append, List.append_nil]

/-- An archive of one stored entry `a` of one byte, with a header of level 0 that ends with the letter of the system. -/
def systemArchive (os : Nat) : List Nat :=
  let b := [45, 108, 104, 48, 45] ++ le 4 1 ++ le 4 1 ++ le 4 0 ++ [0x20, 0, 1, 97] ++ le 2 0 ++ [os]
  (b.length :: b.sum % 256 :: b) ++ [65, 0]

/-- **C96 is false of OS-9/68K archives:** where other lines begin with eleven characters for the permissions or the system, there is nothing, so that all
else stands in wrong columns. -/
theorem C96_false : ∃ rest,
    commandListT ⟨false, false⟩ ⟨0, .leaf 0⟩ Opts.default ⟨false, false, true⟩ (some (systemArchive 0x4d)) =
      .ok (false, "[MS-DOS]   ".toList.map Char.toNat ++ List.replicate 12 32 ++ rest) ∧
    commandListT ⟨false, false⟩ ⟨0, .leaf 0⟩ Opts.default ⟨false, false, true⟩ (some (systemArchive 0x4b)) =
      .ok (false, "    0/0     ".toList.map Char.toNat ++ rest) := by
  refine ⟨"      1 100.0%              a\x00\n".toList.map Char.toNat, by decide +kernel, by decide +kernel⟩

/-- The hypotheses are met by a directory `d` and an entry `a`, and the line of the latter in the full style is what one expects. -/
example : let e : Entry := ⟨[45, 108, 104, 100, 45], [100], [], [], 0, 0, 0, 0o755, 0, 0, 0x20, 0o040000⟩
    let e' : Entry := ⟨[45, 108, 104, 53, 45], [97], [1, 2], [3], 0xbb3d, 0, 0, 0o644, 1000, 100, 0x20, 0o100000⟩
    (∀ x ∈ [e, e'], x.Ok) ∧ NonInc 1024 [e, e'] ∧
      styledOf ⟨false, true, false⟩ e' = "-rw-r--r--\x00  1000/100         1       2  50.0% -lh5-\x00 bb3d              a\x00\n".toList.map Char.toNat := by
  refine ⟨?_, ⟨by decide, by decide, trivial⟩, by decide +kernel⟩
  intro x hx
  simp only [List.mem_cons, List.not_mem_nil, or_false] at hx
  rcases hx with rfl | rfl
  · exact ⟨rfl, by decide, by decide, by decide, by decide, by decide, by decide, by decide, Or.inr rfl⟩
  · exact ⟨rfl, by decide, by decide, by decide, by decide, by decide, by decide, by decide, Or.inl rfl⟩

end Lha
