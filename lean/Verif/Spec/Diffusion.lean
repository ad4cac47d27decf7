import Verif.Spec.Kuznyechik
import Verif.Model.Kuznyechik
/-
In how many of their 16 bytes two blocks differ.
-/
namespace Spec.Kuz

/-- The number of places where the bytes of the blocks differ. -/
def differing (a b : Block) : Nat := (List.range 16).countP fun i => byte a i != byte b i

/-- What an encryption has made of a block after the first `n` of its nine rounds. -/
def afterRounds (key : Goost.Kuz.Key) (n : Nat) (b : Goost.Kuz.Blk) : Goost.Kuz.Blk :=
  ([key.k1, key.k2, key.k3, key.k4, key.k5, key.k6, key.k7, key.k8, key.k9].take n).foldl Goost.Kuz.Key.encryptStep b

end Spec.Kuz
