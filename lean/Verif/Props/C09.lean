import Verif.Proof.Crc
/-!
# C09: the checksum does not depend on how data is chunked
-/

namespace Lha

/-- Feeding blocks one after the other, as `freadCrc` and `fwriteCrc` do. -/
def calcChunks (tab : Arr) : Nat → List (List Nat) → G Nat
  | crc, [] => .ok crc
  | crc, c :: cs => do
    let crc ← calcCrc tab c.length crc c
    calcChunks tab crc cs

/-- Any two partitions of the same bytes give the same checksum, and it is the checksum of the
whole. -/
theorem C09_chunking :
    ∃ tab, makeCrcTable = .ok tab ∧
      ∀ (crc : Nat) (cs ds : List (List Nat)), IsBytes cs.flatten → cs.flatten = ds.flatten →
        calcChunks tab crc cs = calcCrc tab cs.flatten.length crc cs.flatten ∧
        calcChunks tab crc cs = calcChunks tab crc ds := by
  obtain ⟨tab, h1, h2⟩ := makeCrcTable_ok
  have key : ∀ (cs : List (List Nat)) (crc : Nat), IsBytes cs.flatten →
      calcChunks tab crc cs = .ok (Spec.crc16 crc cs.flatten) := by
    intro cs
    induction cs with
    | nil => intro crc _; simp [calcChunks, crc16_nil]
    | cons c cs ih =>
      intro crc hb
      have hc : IsBytes c := fun x hx => hb x (by simp [hx])
      have hcs : IsBytes cs.flatten := fun x hx => hb x (by
        rw [List.flatten_cons]; exact List.mem_append_right _ hx)
      simp only [calcChunks]
      rw [calcCrc_all h2 c hc crc]
      simp only [ok_bind, List.flatten_cons, crc16_append]
      exact ih _ hcs
  refine ⟨tab, h1, fun crc cs ds hb he => ⟨?_, ?_⟩⟩
  · rw [key cs crc hb, calcCrc_all h2 _ hb]
  · rw [key cs crc hb, key ds crc (he ▸ hb), he]

example : IsBytes [[1, 2], [], [3]].flatten ∧ [[1, 2], [], [3]].flatten = [[1], [2, 3]].flatten := by
  constructor
  · unfold IsBytes; decide
  · decide

end Lha
