import Verif.Lemmas.Sizes
import Verif.Props.Positions
/-
Property C101 for positions of the type `size_t`.
-/
namespace Goost.Props
open Goost.Kuz Spec

/-- C101 in terms of `size_t`, an unsigned type of `w` bits: though `offset + 16` is computed modulo `2 ^ w`, a memory stream
read from any `size_t` offset has the blocks that it would have with unlimited numbers, and ends where it would. The
hypothesis about the length holds of every vector that fits into the address space with 16 bytes left over. -/
theorem C101_size_t (w : Nat) (hw : 5 ≤ w) (data : List W64) (hd : 8 * data.length + 16 ≤ 2 ^ w) (offset : BitVec w) :
    (StMemory.nextIterAt data offset = .ok none ↔ StMemory.nextIter data offset.toNat = .ok none) ∧
    (∀ n, blockAt (ItMemory.implAt w data) (StMemory.nextIterAt data offset) n =
      blockAt (ItMemory.impl data) (StMemory.nextIter data offset.toNat) n) ∧
    ∀ p, (∃ i, StMemory.nextIterAt data offset = .ok (some i) ∧ Shows (ItMemory.implAt w data) 16 i p) ↔
      ∃ i, StMemory.nextIter data offset.toNat = .ok (some i) ∧ Shows (ItMemory.impl data) 16 i p := by
  have h := nextIterAt_out (data := data) hw offset
  revert h
  generalize StMemory.nextIterAt data offset = a
  generalize StMemory.nextIter data offset.toNat = b
  intro h
  unfold AtOut at h
  split at h
  · exact ⟨Iff.rfl.trans (by simp), fun n => rfl, fun p => by simp⟩
  · rename_i i j
    refine ⟨by simp, fun n => ?_, fun p => ?_⟩
    · have ha := advance_at hw hd n h
      simp only [blockAt, Exec.ok_bind, deref]
      revert ha
      generalize advance (ItMemory.implAt w data) n i = a
      generalize advance (ItMemory.impl data) n j = b
      intro ha
      unfold AtOut at ha
      split at ha
      · rfl
      · simp only [Exec.ok_bind]
        exact congrArg Exec.ok ha.2.1
      · cases ha; rfl
      · exact ha.elim
    · have hs := shows_at hw hd 16 p h
      constructor
      · rintro ⟨k, e, hk⟩; cases e; exact ⟨_, rfl, hs.1 hk⟩
      · rintro ⟨k, e, hk⟩; cases e; exact ⟨_, rfl, hs.2 hk⟩
  · cases h
    exact ⟨by simp, fun n => rfl, fun p => by simp⟩
  · exact h.elim

/-- Without the hypothesis it would not hold: with positions of 5 bits a stream of 4 words never ends. -/
example : (ItMemory.implAt 5 [1, 2, 3, 4]).next (16, (3, 4)) = .ok (some (0, (1, 2))) ∧
    (ItMemory.impl [1, 2, 3, 4]).next ⟨16, (3, 4)⟩ = .ok none := by decide

example : 5 ≤ 64 ∧ 8 * ([1, 2, 3, 4] : List W64).length + 16 ≤ 2 ^ 64 ∧
    StMemory.nextIterAt [1, 2, 3, 4] (16 : BitVec 64) = .ok (some (16, (3, 4))) := by decide

end Goost.Props
