import Verif.Spec.Diffusion
/-
Parities of selected bits, and a key for each number of 256 bits.
-/
namespace Spec.Kuz

/-- Whether the number of ones among the bits of `a` that the mask selects is odd. -/
def parity {n : Nat} (mask a : BitVec n) : Bool :=
  (List.range n).countP (fun i => mask.getLsbD i && a.getLsbD i) % 2 == 1

/-- The `BlkRaw` with this value. -/
def rawBlock (a : Block) : Goost.Kuz.Blk := .raw (a.extractLsb' 0 64) (a.extractLsb' 64 64)

/-- The `Key` whose data are these 256 bits. -/
def rawKey (K : BitVec 256) : Goost.Kuz.Key :=
  Goost.Kuz.Key.ofBlocks (rawBlock (K.extractLsb' 128 128)) (rawBlock (K.extractLsb' 0 128))

end Spec.Kuz
