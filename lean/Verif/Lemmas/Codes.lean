import Verif.Spec.Codes
import Verif.Lemmas.Imit
/-
Authentication codes of messages with a common ending.
-/
namespace Goost
open Spec Spec.Magma Spec.Modes Goost.Magma

/-- The code of a message as a function of its parts. -/
theorem MagmaCode_exists {key : Key} {f} (h : Computes key f) (p : List W64) (tail : List Byte)
    (ht : tail ≠ []) (ht8 : tail.length ≤ 8) :
    ∃ v, MagmaCode key (unblocks64 p ++ tail) v ∧
      join32 v = omac (encF f) (if tail.length = 8 then macK1 (encF f) 0x1b
        else macK2 (encF f) 0x1b) p (block64 tail) := by
  have h0 : 0 < tail.length := List.length_pos_iff.2 ht
  obtain ⟨v, -, -, hv⟩ := Imit_value_x86 h (memRead (W := Unit)) _ () p tail ht ht8
    (memRead_supplies _ ()).blocks (p.length + 1) (by omega)
  refine ⟨v, ?_, hv⟩
  intro W σ rd s w fuel hs hf
  rw [List.length_append, unblocks64_length] at hf
  obtain ⟨v', w', e, hv'⟩ := Imit_value_x86 h rd s w p tail ht ht8 hs fuel (by omega)
  rw [e, join32_inj (hv.trans hv'.symm)]

/-- Codes of whole messages agree exactly if the codes with a common ending do, for any mask `K'` and
nonempty ending. -/
theorem omac_common_ending {n : Nat} {E : BitVec n → BitVec n} (hE : ∀ x y, E x = E y → x = y)
    (K K' : BitVec n) (p p' q : List (BitVec n)) (x x' y : BitVec n) :
    omac E K' (p ++ x :: q) y = omac E K' (p' ++ x' :: q) y ↔ omac E K p x = omac E K p' x' := by
  have inj : ∀ a b, E a = E b ↔ a = b := fun a b => ⟨hE a b, congrArg E⟩
  have cx : ∀ a b c : BitVec n, a ^^^ c = b ^^^ c ↔ a = b := fun a b c =>
    ⟨xor_right_cancel, fun h => by rw [h]⟩
  have cl : ∀ a b c : BitVec n, c ^^^ a = c ^^^ b ↔ a = b := fun a b c =>
    ⟨xor_left_cancel, fun h => by rw [h]⟩
  simp only [omac, chain_append, chain_cons]
  rw [inj, inj, cx, cx, cl]
  constructor
  · intro h; exact hE _ _ (chain_injective hE q h)
  · intro h; rw [h]

end Goost
