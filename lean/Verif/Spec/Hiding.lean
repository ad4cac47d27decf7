import Verif.Spec.Keys
import Verif.Spec.Magma
/-
Keys with any substitution, for counting.
-/
namespace Spec.Magma
open Goost.Magma

/-- The key with the words of `K` and the substitution `sbox`. -/
def keyWith (sbox : Sbox) (K : BitVec 256) : Key := LazyKey.ofNative ((List.finRange 8).map (keyWord K)) sbox

/-- The substitution answers, gives different words different images, and gives every word as an image. -/
def IsBijection (sbox : Sbox) : Prop :=
  (∀ x, ∃ y, sbox x = .ok y) ∧ (∀ x y, sbox x = sbox y → x = y) ∧ ∀ y, ∃ x, sbox x = .ok y

end Spec.Magma
