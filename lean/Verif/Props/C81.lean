import Verif.Model.Threads
import Verif.Proof.Crc
import Verif.Props.C44
import Verif.Props.C45
/-!
# C81: archives can be processed at the same time

The property: calls made at the same time from several threads (goroutines), each with its own `Lha` value and archive, return what they return when they are
made one after the other.
-/

namespace Lha

open Spec

/-! ### Checksums -/

/-- The actions of a thread that makes these calls. -/
def crcCalls (calls : List (List Nat)) : List (Act Arr (Nat × List Nat)) := (calls.map crcCall).flatten

/-- Where a thread can be: `done` calls are finished, their checksums known; of the next call `i` cells are written, or the bytes `b1` are read. -/
inductive Place (tab : Arr) : List (List Nat) → Thread Arr (Nat × List Nat) → Prop
  | fin (done : List (List Nat)) (c : Nat) : Place tab done ⟨[], (c, done.map (crc16 0))⟩
  | make (done : List (List Nat)) (b : List Nat) (rest : List (List Nat)) (c i : Nat) (h : ∀ j, j < i → tab.get j = stpN 8 j) (hi : i ≤ 256) :
      Place tab (done ++ b :: rest)
        ⟨((List.range 256).drop i).map putAct ++ (startAct :: (b.map byteAct ++ endAct :: crcCalls rest)), (c, done.map (crc16 0))⟩
  | read (done : List (List Nat)) (b1 b2 : List Nat) (rest : List (List Nat)) (h : ∀ j, j < 256 → tab.get j = stpN 8 j) :
      Place tab (done ++ (b1 ++ b2) :: rest) ⟨b2.map byteAct ++ endAct :: crcCalls rest, (crc16 0 b1, done.map (crc16 0))⟩

/-- Right cells stay right. -/
def Keeps (tab tab' : Arr) : Prop := ∀ j, tab.get j = stpN 8 j → tab'.get j = stpN 8 j

theorem Place.keeps {tab tab' : Arr} {calls : List (List Nat)} {t : Thread Arr (Nat × List Nat)} (h : Place tab calls t) (hk : Keeps tab tab') :
    Place tab' calls t := by
  cases h with
  | fin done c => exact .fin _ c
  | make done b rest c i h hi => exact .make done b rest c i (fun j hj => hk j (h j hj)) hi
  | read done b1 b2 rest h => exact .read done b1 b2 rest (fun j hj => hk j (h j hj))

theorem crcCalls_cons (b : List Nat) (rest : List (List Nat)) :
    crcCalls (b :: rest) = makeActs ++ (startAct :: (b.map byteAct ++ endAct :: crcCalls rest)) := by
  simp [crcCalls, crcCall, List.append_assoc]

/-- A thread between two calls. -/
theorem Place.next (tab : Arr) (done rest : List (List Nat)) (c : Nat) : Place tab (done ++ rest) ⟨crcCalls rest, (c, done.map (crc16 0))⟩ := by
  cases rest with
  | nil => rw [List.append_nil]; exact .fin done c
  | cons b rest =>
    rw [crcCalls_cons]
    exact .make done b rest c 0 (fun j hj => absurd hj (Nat.not_lt_zero j)) (by omega)

theorem range_drop (i : Nat) (hi : i < 256) : (List.range 256).drop i = i :: (List.range 256).drop (i + 1) := by
  rw [List.drop_eq_getElem_cons (by simpa using hi)]
  simp

/-- The next action of a thread succeeds, whatever the other threads have done, and leads to such a place again. -/
theorem Place.act {tab : Arr} (hsz : tab.size = 256) {calls : List (List Nat)} (hb : ∀ b ∈ calls, IsBytes b) {a : Act Arr (Nat × List Nat)}
    {todo : List (Act Arr (Nat × List Nat))} {own : Nat × List Nat} (h : Place tab calls ⟨a :: todo, own⟩) :
    ∃ tab' own', a tab own = .ok (tab', own') ∧ tab'.size = 256 ∧ Keeps tab tab' ∧ Place tab' calls ⟨todo, own'⟩ := by
  generalize ht : (⟨a :: todo, own⟩ : Thread Arr (Nat × List Nat)) = t at h
  cases h with
  | fin done c => cases ht
  | make done b rest c i hw hi =>
    by_cases hlt : i < 256
    · rw [range_drop i hlt] at ht
      cases ht
      refine ⟨tab.upd i (stpN 8 i), (c, done.map (crc16 0)), ?_, ?_, ?_, ?_⟩
      · unfold putAct
        rw [wr_ok (by rw [hsz]; exact hlt), ok_bind, crcInner_eq]
      · simpa using hsz
      · intro j hj
        rw [Arr.get_upd]
        split
        · rename_i e; rw [e]
        · exact hj
      · refine .make done b rest c (i + 1) ?_ hlt
        intro j hj
        rw [Arr.get_upd]
        split
        · rename_i e; rw [e]
        · exact hw j (by omega)
    · have : i = 256 := by omega
      subst this
      rw [List.drop_eq_nil_of_le (by simp)] at ht
      cases ht
      exact ⟨tab, _, rfl, hsz, fun j hj => hj, .read done [] b rest hw⟩
  | read done b1 b2 rest hw =>
    cases b2 with
    | nil =>
      cases ht
      refine ⟨tab, _, rfl, hsz, fun j hj => hj, ?_⟩
      have := Place.next tab (done ++ [b1]) rest (crc16 0 b1)
      simpa using this
    | cons x b2 =>
      cases ht
      have hx : x < 256 := hb (b1 ++ x :: b2) (by simp) x (by simp)
      refine ⟨tab, (crc16 0 (b1 ++ [x]), done.map (crc16 0)), ?_, hsz, fun j hj => hj, ?_⟩
      · unfold byteAct
        rw [updateCrc_ok ⟨hsz, hw⟩ _ x hx, ok_bind, crc16_append]
        rfl
      · have := Place.read (tab := tab) done (b1 ++ [x]) b2 rest hw
        simpa using this

theorem places {tab0 : Arr} (hsz : tab0.size = 256) {ps : List (List (List Nat) × Nat)} (hb : ∀ p ∈ ps, ∀ b ∈ p.1, IsBytes b)
    {c : Arr × List (Thread Arr (Nat × List Nat))} (h : Runs (tab0, ps.map (fun p => ⟨crcCalls p.1, (p.2, [])⟩)) c) :
    c.1.size = 256 ∧ List.Forall₂ (fun p t => Place c.1 p.1 t) ps c.2 := by
  induction h with
  | refl =>
    refine ⟨hsz, ?_⟩
    simp only []
    clear hb
    induction ps with
    | nil => exact .nil
    | cons p ps ih => exact .cons (Place.next tab0 [] p.1 p.2) ih
  | step h h' ih =>
    obtain ⟨i1, i2⟩ := ih
    cases h' with
    | act s s' before after a todo own own' ha =>
      simp only [] at i1 i2 ⊢
      obtain ⟨p1, pr, q1, q2, rfl⟩ : ∃ p1 pr, List.Forall₂ (fun p t => Place s p.1 t) p1 before ∧
          List.Forall₂ (fun p t => Place s p.1 t) pr (⟨a :: todo, own⟩ :: after) ∧ ps = p1 ++ pr := by
        clear hb h
        induction before generalizing ps with
        | nil => exact ⟨[], ps, .nil, i2, rfl⟩
        | cons t before ihb =>
          cases i2 with
          | cons hx hr =>
            rename_i p ps
            obtain ⟨p1, pr, q1, q2, rfl⟩ := ihb hr
            exact ⟨p :: p1, pr, .cons hx q1, q2, rfl⟩
      cases q2 with
      | cons hx hr =>
        rename_i p pr
        obtain ⟨t', o', e1, e2, e3, e4⟩ := hx.act i1 (hb p (by simp))
        rw [ha] at e1
        cases e1
        refine ⟨e2, ?_⟩
        have mono : ∀ {l : List (List (List Nat) × Nat)} {ts : List (Thread Arr (Nat × List Nat))}, List.Forall₂ (fun p t => Place s p.1 t) l ts →
            List.Forall₂ (fun p t => Place s' p.1 t) l ts := by
          intro l ts h
          induction h with
          | nil => exact .nil
          | cons hx _ ih => exact .cons (hx.keeps e3) ih
        have app : ∀ {l l' : List (List (List Nat) × Nat)} {ts ts' : List (Thread Arr (Nat × List Nat))}, List.Forall₂ (fun p t => Place s' p.1 t) l ts →
            List.Forall₂ (fun p t => Place s' p.1 t) l' ts' → List.Forall₂ (fun p t => Place s' p.1 t) (l ++ l') (ts ++ ts') := by
          intro l l' ts ts' h h'
          induction h with
          | nil => exact h'
          | cons hx _ ih => exact .cons hx ih
        exact app (mono q1) (.cons e4 (mono hr))

/-- **C81, checksums.** However the actions of any number of threads are interleaved, and whatever was in the table before: no action fails, the checksums a thread has
computed so far are those of the data of its first calls, and when it has finished, of all its calls. -/
theorem C81_checksums_partial (tab0 : Arr) (hsz : tab0.size = 256) (ps : List (List (List Nat) × Nat)) (hb : ∀ p ∈ ps, ∀ b ∈ p.1, IsBytes b)
    (c : Arr × List (Thread Arr (Nat × List Nat))) (h : Runs (tab0, ps.map (fun p => ⟨crcCalls p.1, (p.2, [])⟩)) c) :
    List.Forall₂ (fun p t => (∃ done rest, p.1 = done ++ rest ∧ t.own.2 = done.map (crc16 0)) ∧ (t.todo = [] → t.own.2 = p.1.map (crc16 0)) ∧
      ∀ a todo, t.todo = a :: todo → ∃ r, a c.1 t.own = .ok r) ps c.2 := by
  obtain ⟨h1, h2⟩ := places hsz hb h
  generalize c.2 = ts at h2 ⊢
  generalize c.1 = tab at h1 h2 ⊢
  clear h hsz
  induction h2 with
  | nil => exact .nil
  | cons hx _ ih =>
    rename_i p t _ _ _
    refine .cons ⟨?_, ?_, ?_⟩ (ih fun q hq => hb q (List.mem_cons_of_mem _ hq))
    · generalize p.1 = calls at hx
      cases hx with
      | fin _ c => exact ⟨calls, [], by simp, rfl⟩
      | make done b rest c i hw hi => exact ⟨done, _, rfl, rfl⟩
      | read done b1 b2 rest hw => exact ⟨done, _, rfl, rfl⟩
    · intro ht
      generalize p.1 = calls at hx
      cases hx with
      | fin _ c => rfl
      | make done b rest c i hw hi => simp at ht
      | read done b1 b2 rest hw => simp at ht
    · intro a todo ht
      obtain ⟨td, own⟩ := t
      cases ht
      obtain ⟨_, _, e, _⟩ := hx.act h1 (hb p List.mem_cons_self)
      exact ⟨_, e⟩

/-- Running the actions of `MakeCrcTable` one after the other is `MakeCrcTable`. -/
theorem makeActs_run (own : Nat × List Nat) : makeActs.foldlM (fun (c : Arr × (Nat × List Nat)) a => a c.1 c.2) (Arr.mk' 256 0, own) =
    makeCrcTable >>= fun t => .ok (t, own) := by
  have key : ∀ n i (a : Arr), ((List.range' i n).map putAct).foldlM (fun (c : Arr × (Nat × List Nat)) a => a c.1 c.2) (a, own) =
      makeCrcTableLoop n i a >>= fun t => .ok (t, own) := by
    intro n
    induction n with
    | zero => intro i a; rfl
    | succ n ih =>
      intro i a
      rw [List.range'_succ, List.map_cons, List.foldlM_cons]
      unfold makeCrcTableLoop putAct
      simp only []
      cases wr a i (crcInner 8 i) with
      | error e => rfl
      | ok b => simp only [ok_bind]; exact ih (i + 1) b
  unfold makeActs makeCrcTable
  rw [List.range_eq_range']
  exact key 256 0 _

/-! ### `VerifyMode` -/

theorem decodeLzhufV_false (oth : Oth) (tab : Arr) (m : Nat) (h : Hf) (o p : Nat) (inp : List Nat) :
    decodeLzhufV false oth tab m h o p inp = decodeLzhuf oth tab m h o p inp := by
  unfold decodeLzhufV
  cases decodeLzhuf oth tab m h o p inp with
  | error e => rfl
  | ok d => rw [ok_bind, if_neg (by simp)]

theorem extractBytesLoopV_false (f : Fmt) (oth : Oth) (tab : Arr) (want : List Nat) (n : Nat) : ∀ h hf data inp,
    extractBytesLoopV false f oth tab want n h hf data inp = extractBytesLoop f oth tab want n h hf data inp := by
  induction n with
  | zero => intro h hf data inp; rfl
  | succ n ih =>
    intro h hf data inp
    have hs : ∀ hf h r, extractOneStreamV false oth tab hf h r = extractOneStream oth tab hf h r := by
      intro hf h r
      unfold extractOneStreamV extractOneStream
      simp only [decodeLzhufV_false]
      rfl
    unfold extractBytesLoopV extractBytesLoop
    simp only [ih, hs]
    rfl

/-- Without other threads this is `DecompresBytes`. -/
theorem decompresBytesV_false (f : Fmt) (oth : Oth) (tab : Arr) (want : List Nat) (hf : Hf) (a : List Nat) :
    decompresBytesV false f oth tab want hf a = decompresBytes f oth tab false want hf (some a) := by
  unfold decompresBytesV decompresBytes
  rw [extractBytesLoopV_false]
  rfl

theorem decompresBytesV_true (f : Fmt) (hg : f.generic = false) {tab : Arr} (ht : makeCrcTable = .ok tab) {e : Entry} (he : Sound e)
    (hcrc : e.crc = crc16 0 e.content) (hne : e.content ≠ []) {t : List Nat} (htl : Tail t) (hf : Hf) (hok : GOk hf) :
    ∃ hf', GOk hf' ∧ decompresBytesV true f (others tab) tab (e.name ++ [0]) hf (archive [e] t) = .ok ⟨false, [], hf'⟩ := by
  obtain ⟨ho, hk, m, hidx, hp⟩ := he
  obtain ⟨g, e1, P⟩ := entry_parse f hg tab e ho newHdr newHdr_method (by rw [newHdr_name]; have := ho.name; omega) t
  obtain ⟨hf1, ok1, hdec⟩ := hp.decodes ht hf hok t
  have hm : ¬ (m = 0 ∨ m = 10 ∨ m = 12) := by
    clear e1 P hdec hcrc
    generalize e.content = D at hp hne
    generalize e.packed = Q at hp
    cases hp with
    | empty h => exact absurd rfl hne
    | lh1 => omega
    | lzs => omega
    | st1 h => omega
  have hv : extractOneStreamV true (others tab) tab hf g (e.packed ++ t) = .ok (.ok ⟨[], crc16 0 e.content, e.packed.length, t, hf1⟩) := by
    unfold extractOneStreamV decodeLzhufV
    simp only [P.method, hidx]
    rw [if_pos ⟨(P.fileType ho).trans hk, hp.ndir⟩, P.original, P.packed, hdec, ok_bind, if_pos ⟨trivial, hm⟩, ok_bind]
    simp only []
    rw [if_neg (by rw [P.crc, hcrc]; simp)]
  refine ⟨hf1, ok1, ?_⟩
  have hl : 1 ≤ (archive [e] t).length := by have := archive_length [e] t; simpa using this
  obtain ⟨n, hn⟩ : ∃ n, (archive [e] t).length + 1 = (n + 1) + 1 := ⟨(archive [e] t).length - 1, by omega⟩
  have ha : archive [e] t = e.bytes ++ t := by simp [archive]
  unfold decompresBytesV
  rw [hn, ha]
  unfold extractBytesLoopV
  rw [e1, ok_bind]
  simp only []
  rw [if_pos P.name, hv, ok_bind]
  simp only []
  rw [if_neg (by rw [P.packed]; simp)]
  unfold extractBytesLoopV
  rcases tail_end f tab g htl with q | q
  · rw [q, ok_bind]
  · rw [q, ok_bind]

/-- **C81 is false**: while `Headers` reads one archive in one thread, `DecompresBytes` in another thread returns no data and no error, for every archive of one compressed
non-empty file; `Headers` goes on as if nothing had happened.  Called before or after, `DecompresBytes` returns the file. -/
theorem C81_false (f : Fmt) (hg : f.generic = false) (tab : Arr) (ht : makeCrcTable = .ok tab) (es : List Entry)
    (hes : ∀ e ∈ es, Sound e ∧ e.crc = crc16 0 e.content) (t : List Nat) (htl : Tail t) (e : Entry) (he : Sound e) (hcrc : e.crc = crc16 0 e.content)
    (hne : e.content ≠ []) (t' : List Nat) (htl' : Tail t') (hf : Hf) (hok : GOk hf) :
    let A : Thread Shared (Option (Bool × List Nat)) := ⟨headersActs f (others tab) tab (archive es t), none⟩
    let B : Thread Shared (Option (Bool × List Nat)) := ⟨decompresActs f (others tab) tab (e.name ++ [0]) (archive [e] t'), none⟩
    (∃ hf', Runs ((false, hf), [A, B]) ((false, hf'), [⟨[], none⟩, ⟨[], some (false, [])⟩])) ∧
    (∀ hf0, GOk hf0 → ∃ hf', GOk hf' ∧ ∀ a ∈ B.todo, a (false, hf0) none = .ok ((false, hf'), some (false, e.content))) ∧
    (∀ hf0, GOk hf0 → ∃ hf', GOk hf' ∧ Runs ((false, hf0), [A]) ((false, hf'), [⟨[], none⟩])) := by
  intro A B
  refine ⟨?_, ?_, ?_⟩
  · obtain ⟨hf1, ok1, h1⟩ := decompresBytesV_true f hg ht he hcrc hne htl' hf hok
    obtain ⟨hs, hf2, ok2, h2, _⟩ := C44_partial f hg tab ht es hes t htl hf1 ok1
    refine ⟨hf2, ?_⟩
    have s1 := Turn.act (false, hf) (true, hf) [] [B] (fun s own => .ok ((true, s.2), own)) none none rfl (todo := (headersActs f (others tab) tab (archive es t)).tail)
    have s2 := Turn.act (true, hf) (true, hf1) [⟨(headersActs f (others tab) tab (archive es t)).tail, none⟩] [] (todo := []) none (some (false, []))
      (a := fun s _ => do
        let r ← decompresBytesV s.1 f (others tab) tab (e.name ++ [0]) s.2 (archive [e] t')
        .ok ((s.1, r.hf), some (r.err, r.data))) (by simp only []; rw [h1]; rfl)
    have s3 := Turn.act (true, hf1) (true, hf2) [] [⟨[], some (false, [])⟩] (todo := [fun s own => .ok ((false, s.2), own)]) (none : Option (Bool × List Nat)) none
      (a := fun s own => do
        let r ← headers f (others tab) tab Opts.default s.2 (some (archive es t))
        .ok ((s.1, r.hf), own)) (by simp only []; rw [h2]; rfl)
    have s4 := Turn.act (true, hf2) (false, hf2) [] [⟨[], some (false, [])⟩] (fun s own => .ok ((false, s.2), own)) [] (none : Option (Bool × List Nat)) none rfl
    exact .step (.step (.step (.step (.refl _) s1) s2) s3) s4
  · intro hf0 ok0
    obtain ⟨hf1, ok1, h1⟩ := C45_partial f hg tab ht [] [] e (by intro x hx; simp at hx; subst hx; exact he.ok)
      (by intro x hx _; simp at hx; subst hx; exact ⟨he, hcrc⟩) (by simp) ⟨by have := he.ok.name; omega, trivial⟩ t' htl' hf0 ok0
    refine ⟨hf1, ok1, ?_⟩
    intro a ha
    simp only [B, decompresActs, List.mem_singleton] at ha
    subst ha
    simp only []
    rw [decompresBytesV_false]
    simp only [List.nil_append] at h1
    rw [h1]
    rfl
  · intro hf0 ok0
    obtain ⟨hs, hf2, ok2, h2, _⟩ := C44_partial f hg tab ht es hes t htl hf0 ok0
    refine ⟨hf2, ok2, ?_⟩
    have s1 := Turn.act (false, hf0) (true, hf0) [] [] (fun s own => .ok ((true, s.2), own)) (none : Option (Bool × List Nat)) none rfl (todo := (headersActs f (others tab) tab (archive es t)).tail)
    have s3 := Turn.act (true, hf0) (true, hf2) [] [] (todo := [fun s own => .ok ((false, s.2), own)]) (none : Option (Bool × List Nat)) none
      (a := fun s own => do
        let r ← headers f (others tab) tab Opts.default s.2 (some (archive es t))
        .ok ((s.1, r.hf), own)) (by simp only []; rw [h2]; rfl)
    have s4 := Turn.act (true, hf2) (false, hf2) [] [] (fun s own => .ok ((false, s.2), own)) [] (none : Option (Bool × List Nat)) none rfl
    exact .step (.step (.step (.refl _) s1) s3) s4

/-- The hypotheses of `C81_checksums_partial` are met: two threads, one with two calls, and a table in which nothing is right yet. -/
example : (Arr.mk' 256 77).size = 256 ∧ ∀ p ∈ [([[1, 2], [3]], 5), ([[255]], 9)], ∀ b ∈ p.1, IsBytes b := by
  refine ⟨rfl, ?_⟩
  simp [IsBytes]

/-- The hypotheses of `C81_false` are met. -/
example : Sound (sampleEntry [45, 108, 122, 115, 45] [98] [0xa0, 0x80] [65]) ∧
    (sampleEntry [45, 108, 122, 115, 45] [98] [0xa0, 0x80] [65]).crc = crc16 0 (sampleEntry [45, 108, 122, 115, 45] [98] [0xa0, 0x80] [65]).content ∧
    (sampleEntry [45, 108, 122, 115, 45] [98] [0xa0, 0x80] [65]).content ≠ [] ∧ Tail [0] ∧ GOk Hf.fresh :=
  ⟨sample_sound _ (by decide) (by decide) (by decide), rfl, by simp [sampleEntry], Or.inr ⟨[], rfl⟩, by constructor <;> rfl, by constructor <;> rfl⟩

end Lha
