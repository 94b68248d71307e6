import Verif.Proof.Entry
import Verif.Proof.Frame
import Verif.Proof.Methods
import Verif.Props.C39
import Verif.Props.C41
import Verif.Props.C48
/-!
# Archives of several entries
-/

namespace Lha

open Spec

/-- `P` is content `D` packed by method number `m`: a stream of the formats lh1 (without copies of 60 bytes), lh5, lh6, lh7 (less than 64 KiB of
text) or lzs with less than a byte of padding, or nothing at all.  (The streams the library itself writes are among them: C49.) -/
inductive Packed : Nat → List Nat → List Nat → Prop
  | empty {m : Nat} (hm : m = 0 ∨ m = 10 ∨ m = 12) : Packed m [] []
  | lh1 {t t' : Tree} {ts : List (Nat × Nat)} {bs S : List Bool} {P : List Nat} (St : Start 314 t) (L : Lh1 t ts bs t')
      (h313 : ∀ u ∈ ts, u.1 ≠ 313) (hP : IsBytes P) (hb : bytesBits P = bs ++ S) (hS : S.length < 8) : Packed 1 P (expand 253 ts)
  | lzs {ts : List RTok} {S : List Bool} {P : List Nat} (hts : ∀ t ∈ ts, lzsTokOk t) (hP : IsBytes P) (hb : bytesBits P = lzsBits ts ++ S)
      (hS : S.length < 8) : Packed 8 P (Ring.run 2048 lzsRing ts).out
  | st1 {m : Nat} (hm : m = 5 ∨ m = 6 ∨ m = 7) {ts : List (Nat × Nat)} {bs S : List Bool} {P : List Nat}
      (hB : Blocks (classes m).1 (classes m).2 ts bs) (h7 : m = 7 → (expand 253 ts).length < 65536) (hP : IsBytes P)
      (hb : bytesBits P = bs ++ S) (hS : S.length < 8) : Packed m P (expand 253 ts)

theorem drop_all (B T : List Nat) : (B ++ T).drop B.length = T := by simp

theorem Packed.decodes {tab : Arr} (ht : makeCrcTable = .ok tab) {m : Nat} {P D : List Nat} (h : Packed m P D) (hf : Hf) (hok : GOk hf)
    (T : List Nat) : ∃ hf', GOk hf' ∧
      decodeLzhuf (others tab) tab m hf D.length P.length (P ++ T) = .ok ⟨D, crc16 0 D, P.length, T, hf'⟩ := by
  cases h with
  | empty hm =>
    refine ⟨hf, hok, ?_⟩
    unfold decodeLzhuf
    rw [if_pos hm]
    rfl
  | @lh1 t t' ts bs S _ St L h313 hP hb hS =>
    obtain ⟨n, h', y', a1, a2, a3, a4, a5⟩ := C41_partial tab ht St L h313 (T := T) hP hb hok.dyn hok.hf
    have := a3 hS
    subst this
    refine ⟨{ h' with dyn := y' }, ⟨⟨a4.1, a4.2, a4.3, a4.4, a4.5, a4.6, a4.7, a4.8, a4.9, a4.10, a4.11⟩, a5⟩, ?_⟩
    unfold decodeLzhuf others
    simp only [Nat.one_ne_zero, false_or, if_true, true_or, reduceIte, show ¬ ((1 : Nat) = 10 ∨ (1 : Nat) = 12) by omega,
      show ¬ (1 : Nat) = 4 by omega, show ¬ (1 : Nat) = 5 by omega, show ¬ (1 : Nat) = 6 by omega, show ¬ (1 : Nat) = 7 by omega]
    rw [a2, ok_bind]
    simp only [drop_all]
  | @lzs ts S _ hts hP hb hS =>
    obtain ⟨n, a1, a2, a3⟩ := C39_lzs tab ht hf ts hts P T hP S hb
    have := a3 hS
    subst this
    refine ⟨hf, hok, ?_⟩
    unfold decodeLzhuf others
    simp only [show ¬ ((8 : Nat) = 0 ∨ (8 : Nat) = 10 ∨ (8 : Nat) = 12) by omega, show ¬ (8 : Nat) = 4 by omega,
      show ¬ (8 : Nat) = 5 by omega, show ¬ (8 : Nat) = 6 by omega, show ¬ (8 : Nat) = 7 by omega,
      show ¬ ((8 : Nat) = 1 ∨ (8 : Nat) = 2 ∨ (8 : Nat) = 3) by omega, reduceIte]
    rw [a2]
    simp only [drop_all]
  | @st1 _ hm ts bs S _ hB h7 hP hb hS =>
    obtain ⟨n, hf', a1, hdec, a3, o1⟩ := C48_partial (others tab) tab ht m hm hB h7 (T := T) hP hb hok.hf
    have := a3 hS
    subst this
    rw [drop_all] at hdec
    refine ⟨hf', ⟨o1, ?_⟩, hdec⟩
    have : Kept hf hf' := by
      unfold decodeLzhuf at hdec
      rcases hm with rfl | rfl | rfl
      · exact decodeSt1_kept hdec
      · exact decodeSt1_kept hdec
      · exact decodeSt1_kept hdec
    rw [this.1]
    exact hok.dyn

/-- An entry of a known method whose packed data is right. -/
structure Sound (e : Entry) : Prop where
  ok : e.Ok
  kind : e.kind = 0o100000
  packed : ∃ m, methods.findIdx? (· = e.method) = some m ∧ Packed m e.packed e.content

theorem Packed.ndir {m : Nat} {P D : List Nat} (h : Packed m P D) : m ≠ 11 := by
  cases h with
  | empty h => omega
  | lh1 => omega
  | lzs => omega
  | st1 h => omega

theorem header_length (e : Entry) : 0 < e.bytes.length := by
  unfold Entry.bytes Entry.header
  simp

theorem archive_cons (e : Entry) (es : List Entry) (t : List Nat) : archive (e :: es) t = e.bytes ++ archive es t := by
  unfold archive
  rw [List.flatMap_cons, List.append_assoc]

theorem archive_length (es : List Entry) (t : List Nat) : es.length ≤ (archive es t).length := by
  induction es with
  | nil => simp
  | cons e es ih =>
    rw [archive_cons, List.length_append, List.length_cons]
    have := header_length e
    omega

/-- The names get shorter, or stay as long, towards the end of the archive; the first one is shorter than `n`. -/
def NonInc : Nat → List Entry → Prop
  | _, [] => True
  | n, e :: es => e.name.length < n ∧ NonInc (e.name.length + 1) es

/-- Extracting the entry `e` with these options creates `out`, if anything. -/
def Does (tab : Arr) (o : Opts) (fs : Fs) (need : List Nat → Bool) (e : Entry) (out : Option (List Nat × List Nat)) : Prop :=
  ∀ (g : Hdr) (hf : Hf) (T : List Nat), GOk hf → Parsed e g → (need g.name = false ∧ out = none) ∨ (need g.name = true ∧
    ∃ hf', GOk hf' ∧ extractOne (others tab) tab o fs hf g (e.packed ++ T) = .ok (some ⟨e.packed.length, T, hf', g.name, out⟩))

theorem skip_packed (P T : List Nat) : (skipTo P.length (P ++ T)).getD [] = T := by
  unfold skipTo readF
  by_cases h : P = []
  · subst h; simp
  · rw [if_neg (by simp [h])]; simp

/-- Extracting a list of entries. -/
theorem extractLoop_does (f : Fmt) (hg : f.generic = false) (tab : Arr) (o : Opts) (fs : Fs) (need : List Nat → Bool) {t : List Nat} (htl : Tail t)
    (es : List (Entry × Option (List Nat × List Nat))) :
    ∀ (n : Nat) (h : Hdr) (hf : Hf) (files : List (List Nat × List Nat)), es.length < n → (∀ x ∈ es, x.1.Ok ∧ Does tab o fs need x.1 x.2) → GOk hf →
      h.method.length = 5 → NonInc h.name.length (es.map Prod.fst) →
      ∃ hf', GOk hf' ∧ extractLoop f (others tab) tab o fs need n h hf files (archive (es.map Prod.fst) t) =
        .ok ⟨false, files ++ es.filterMap Prod.snd, hf'⟩ := by
  induction es with
  | nil =>
    intro n h hf files hn _ hok _ _
    obtain ⟨n, rfl⟩ : ∃ k, n = k + 1 := ⟨n - 1, by simp at hn; omega⟩
    refine ⟨hf, hok, ?_⟩
    unfold extractLoop
    show (getHeader f tab h t >>= _) = _
    rcases tail_end f tab h htl with e | e
    · rw [e, ok_bind]; simp
    · rw [e, ok_bind]; simp
  | cons x es ih =>
    intro n h hf files hn hgood hok hm hinc
    obtain ⟨n, rfl⟩ : ∃ k, n = k + 1 := ⟨n - 1, by simp at hn; omega⟩
    obtain ⟨ho, hdo⟩ := hgood x List.mem_cons_self
    obtain ⟨e, out⟩ := x
    simp only [] at ho hdo
    obtain ⟨g, e1, P⟩ := entry_parse f hg tab e ho h hm hinc.1 (archive (es.map Prod.fst) t)
    unfold extractLoop
    rw [List.map_cons, archive_cons, e1, ok_bind]
    simp only []
    rcases hdo g hf (archive (es.map Prod.fst) t) hok P with ⟨hno, rfl⟩ | ⟨hyes, hf1, ok1, hv⟩
    · rw [if_neg (by rw [hno]; simp), P.packed, skip_packed]
      obtain ⟨hf2, ok2, hr⟩ := ih n g hf files (by simp at hn; omega)
        (fun e' he' => hgood e' (List.mem_cons_of_mem _ he')) hok (by rw [P.method]; exact ho.method)
        (by rw [P.name, List.length_append]; exact hinc.2)
      exact ⟨hf2, ok2, by rw [hr]; simp⟩
    · obtain ⟨hf2, ok2, hr⟩ := ih n { g with name := g.name } hf1 (files ++ out.toList) (by simp at hn; omega)
        (fun e' he' => hgood e' (List.mem_cons_of_mem _ he')) ok1 (by rw [P.method]; exact ho.method)
        (by rw [P.name, List.length_append]; exact hinc.2)
      refine ⟨hf2, ok2, ?_⟩
      rw [if_pos hyes, hv, ok_bind]
      simp only []
      rw [if_neg (by rw [P.packed]; simp), hr]
      cases out <;> simp

/-- A sound entry is extracted under the name `entryName` gives. -/
theorem Sound.does {tab : Arr} (ht : makeCrcTable = .ok tab) {e : Entry} (h : Sound e) (o : Opts) (fs : Fs) (need : List Nat → Bool) (n : List Nat)
    (hcan : fs.can n = true) (hneed : need (e.name ++ [0]) = true) (hname : ∀ g, Parsed e g → entryName o g = .ok (some (n, g.name))) :
    Does tab o fs need e (some (n, e.content)) := by
  intro g hf T hok P
  obtain ⟨ho, hk, m, hidx, hp⟩ := h
  obtain ⟨hf1, ok1, hdec⟩ := hp.decodes ht hf hok T
  refine Or.inr ⟨by rw [P.name]; exact hneed, hf1, ok1, ?_⟩
  unfold extractOne
  rw [hname g P, ok_bind]
  simp only [P.method, hidx]
  rw [if_pos ⟨(P.fileType ho).trans hk, hp.ndir⟩, if_pos hcan, P.original, P.packed, hdec, ok_bind]

theorem extractLoop_good (f : Fmt) (hg : f.generic = false) {tab : Arr} (ht : makeCrcTable = .ok tab) (fs : Fs) (hcan : ∀ n, fs.can n = true)
    (need : List Nat → Bool) (hneed : ∀ n, need n = true) {t : List Nat} (htl : Tail t) (es : List Entry)
    (n : Nat) (h : Hdr) (hf : Hf) (files : List (List Nat × List Nat)) (hn : es.length < n) (hes : ∀ e ∈ es, Sound e) (hok : GOk hf)
    (hm : h.method.length = 5) (hinc : NonInc h.name.length es) :
      ∃ hf', GOk hf' ∧ extractLoop f (others tab) tab Opts.default fs need n h hf files (archive es t) =
        .ok ⟨false, files ++ es.map (fun e => (lastName e.name, e.content)), hf'⟩ := by
  have h1 : (es.map fun e => (e, some (lastName e.name, e.content))).map Prod.fst = es := by simp [Function.comp_def]
  have h2 : (es.map fun e => (e, some (lastName e.name, e.content))).filterMap Prod.snd = es.map (fun e => (lastName e.name, e.content)) := by
    simp [List.filterMap_map, Function.comp_def]
  obtain ⟨hf', ok', h3⟩ := extractLoop_does f hg tab Opts.default fs need htl (es.map fun e => (e, some (lastName e.name, e.content))) n h hf files
    (by simpa using hn) (by
      intro x hx
      obtain ⟨e, he, rfl⟩ := List.mem_map.mp hx
      exact ⟨(hes e he).ok, (hes e he).does ht Opts.default fs need _ (hcan _) (hneed _) (fun g P => P.entryName)⟩) hok hm (by rw [h1]; exact hinc)
  rw [h1, h2] at h3
  exact ⟨hf', ok', h3⟩

/-- Listing a list of entries whose checksums are right. -/
theorem headersLoop_good (f : Fmt) (hg : f.generic = false) {tab : Arr} (ht : makeCrcTable = .ok tab) {t : List Nat} (htl : Tail t) (es : List Entry) :
    ∀ (n : Nat) (hf : Hf) (acc : List Hdr), es.length < n → (∀ e ∈ es, Sound e ∧ e.crc = crc16 0 e.content) → GOk hf →
      ∃ hs hf', GOk hf' ∧ List.Forall₂ Parsed es hs ∧ headersLoop f (others tab) tab Opts.default n hf acc (archive es t) =
        .ok ⟨false, acc ++ hs, hf'⟩ := by
  induction es with
  | nil =>
    intro n hf acc hn _ hok
    obtain ⟨n, rfl⟩ : ∃ k, n = k + 1 := ⟨n - 1, by simp at hn; omega⟩
    refine ⟨[], hf, hok, .nil, ?_⟩
    unfold headersLoop
    show (getHeader f tab newHdr t >>= _) = _
    rcases tail_end f tab newHdr htl with e | e
    · rw [e, ok_bind]; simp
    · rw [e, ok_bind]; simp
  | cons e es ih =>
    intro n hf acc hn hgood hok
    obtain ⟨n, rfl⟩ : ∃ k, n = k + 1 := ⟨n - 1, by simp at hn; omega⟩
    obtain ⟨⟨ho, hk, m, hidx, hp⟩, hcrc⟩ := hgood e List.mem_cons_self
    obtain ⟨g, e1, P⟩ := entry_parse f hg tab e ho newHdr newHdr_method (by rw [newHdr_name]; have := ho.name; omega) (archive es t)
    obtain ⟨hf1, ok1, hdec⟩ := hp.decodes ht hf hok (archive es t)
    have hv : verifyOne (others tab) tab Opts.default hf g (e.packed ++ archive es t) =
        .ok (.ok ⟨e.packed.length, archive es t, hf1, g.name, none⟩) := by
      unfold verifyOne
      rw [P.entryName, ok_bind]
      simp only [P.method, hidx]
      rw [if_pos ⟨(P.fileType ho).trans hk, hp.ndir⟩, P.original, P.packed, hdec, ok_bind]
      simp only []
      rw [if_neg (by rw [P.crc, hcrc]; simp)]
    obtain ⟨hs, hf2, ok2, hall, hr⟩ := ih n hf1 (acc ++ [{ g with name := g.name }]) (by simp at hn; omega)
      (fun e' he' => hgood e' (List.mem_cons_of_mem _ he')) ok1
    refine ⟨{ g with name := g.name } :: hs, hf2, ok2, .cons P hall, ?_⟩
    unfold headersLoop
    rw [archive_cons, e1, ok_bind]
    simp only []
    rw [if_pos (by simp [needFile, Opts.default]), hv, ok_bind]
    simp only []
    rw [if_neg (by rw [P.packed]; simp), hr]
    simp

/-- The content of the last entry of that name; `d` if there is none. -/
def lastOf (want : List Nat) (d : List Nat) (es : List Entry) : List Nat :=
  es.foldl (fun d e => if e.name = want then e.content else d) d

/-- Reading an entry of a list of entries. -/
theorem extractBytesLoop_good (f : Fmt) (hg : f.generic = false) {tab : Arr} (ht : makeCrcTable = .ok tab) (want : List Nat) {t : List Nat}
    (htl : Tail t) (es : List Entry) :
    ∀ (n : Nat) (h : Hdr) (hf : Hf) (data : List Nat), es.length < n → (∀ e ∈ es, e.Ok ∧ (e.name = want → Sound e ∧ e.crc = crc16 0 e.content)) →
      GOk hf → h.method.length = 5 → NonInc h.name.length es →
      ∃ hf', GOk hf' ∧ extractBytesLoop f (others tab) tab (want ++ [0]) n h hf data (archive es t) = .ok ⟨false, lastOf want data es, hf'⟩ := by
  induction es with
  | nil =>
    intro n h hf data hn _ hok _ _
    obtain ⟨n, rfl⟩ : ∃ k, n = k + 1 := ⟨n - 1, by simp at hn; omega⟩
    refine ⟨hf, hok, ?_⟩
    unfold extractBytesLoop
    show (getHeader f tab h t >>= _) = _
    rcases tail_end f tab h htl with e | e
    · rw [e, ok_bind]; rfl
    · rw [e, ok_bind]; rfl
  | cons e es ih =>
    intro n h hf data hn hgood hok hm hinc
    obtain ⟨n, rfl⟩ : ∃ k, n = k + 1 := ⟨n - 1, by simp at hn; omega⟩
    obtain ⟨ho, hw⟩ := hgood e List.mem_cons_self
    obtain ⟨g, e1, P⟩ := entry_parse f hg tab e ho h hm hinc.1 (archive es t)
    have hgood' := fun e' he' => hgood e' (List.mem_cons_of_mem e he')
    have hn' : es.length < n := by simp at hn; omega
    have hinc' : NonInc g.name.length es := by rw [P.name, List.length_append]; exact hinc.2
    have hm' : g.method.length = 5 := by rw [P.method]; exact ho.method
    by_cases hwant : e.name = want
    · obtain ⟨⟨_, hk, m, hidx, hp⟩, hcrc⟩ := hw hwant
      obtain ⟨hf1, ok1, hdec⟩ := hp.decodes ht hf hok (archive es t)
      have hv : extractOneStream (others tab) tab hf g (e.packed ++ archive es t) =
          .ok (.ok ⟨e.content, crc16 0 e.content, e.packed.length, archive es t, hf1⟩) := by
        unfold extractOneStream
        simp only [P.method, hidx]
        rw [if_pos ⟨(P.fileType ho).trans hk, hp.ndir⟩, P.original, P.packed, hdec, ok_bind]
        simp only []
        rw [if_neg (by rw [P.crc, hcrc]; simp)]
      obtain ⟨hf2, ok2, hr⟩ := ih n g hf1 e.content hn' hgood' ok1 hm' hinc'
      refine ⟨hf2, ok2, ?_⟩
      unfold extractBytesLoop
      rw [archive_cons, e1, ok_bind]
      simp only []
      rw [if_pos (by rw [P.name, hwant]), hv, ok_bind]
      simp only []
      rw [if_neg (by rw [P.packed]; simp), hr]
      unfold lastOf
      rw [List.foldl_cons, if_pos hwant]
    · obtain ⟨hf2, ok2, hr⟩ := ih n g hf data hn' hgood' hok hm' hinc'
      refine ⟨hf2, ok2, ?_⟩
      unfold extractBytesLoop
      rw [archive_cons, e1, ok_bind]
      simp only []
      rw [if_neg (by rw [P.name]; intro hc; exact hwant (List.append_cancel_right hc))]
      have hskip : (skipTo g.packedSize (e.packed ++ archive es t)).getD [] = archive es t := by
        unfold skipTo readF
        rw [P.packed]
        by_cases hz : e.packed.length ≠ 0 ∧ e.packed ++ archive es t = []
        · exfalso
          have := congrArg List.length hz.2
          rw [List.length_append] at this
          simp at this
          exact hz.1 (by rw [this.1]; rfl)
        · rw [if_neg hz]
          simp
      rw [hskip, hr]
      unfold lastOf
      rw [List.foldl_cons, if_neg hwant]

end Lha
