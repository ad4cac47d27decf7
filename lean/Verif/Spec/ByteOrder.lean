import Verif.Spec.Bytes
import Verif.Spec.Kuznyechik
/-
Specification: byte orders. Nothing here refers to the model.
-/
namespace Spec

/-- The order in which a machine stores the bytes of a number: the least significant byte first, or the
most significant byte first. -/
inductive ByteOrder where
  | little
  | big
  deriving DecidableEq, Repr

/-- The 64-bit number that a machine reads from the eight bytes `l`. -/
def blockIn : ByteOrder → List (BitVec 8) → BitVec 64
  | .little, l => block64 l
  | .big, l => block64 l.reverse

/-- The eight bytes that a machine stores for a 64-bit number. -/
def bytesIn : ByteOrder → BitVec 64 → List (BitVec 8)
  | .little, x => bytesOf64 x
  | .big, x => (bytesOf64 x).reverse

/-- The eight bytes of a number in the opposite order. -/
def swap64 (x : BitVec 64) : BitVec 64 := block64 (bytesOf64 x).reverse

/-- The number that a machine reads where a little-endian machine reads `x`. -/
def seen : ByteOrder → BitVec 64 → BitVec 64
  | .little, x => x
  | .big, x => swap64 x

/-- The bytes of every 32-bit word in the opposite order. -/
def swapWords (l : List (BitVec 8)) : List (BitVec 8) :=
  (l.take 4).reverse ++ (l.drop 4).reverse

/-- The 64-bit block that a machine reads from eight bytes as two 32-bit words, the less significant
word first. -/
def wordsIn : ByteOrder → List (BitVec 8) → BitVec 64
  | .little, l => block64 l
  | .big, l => block64 (swapWords l)

/-- The eight bytes that a machine stores for a 64-bit block kept as two 32-bit words, the less
significant word first. -/
def wordBytesIn : ByteOrder → BitVec 64 → List (BitVec 8)
  | .little, x => bytesOf64 x
  | .big, x => swapWords (bytesOf64 x)

namespace Kuz

/-- Both 64-bit halves of a block with their bytes in the opposite order. -/
def swapHalves (a : Block) : Block :=
  ofBytes fun i => if i < 8 then byte a (7 - i) else byte a (23 - i)

/-- The step of the linear transformation as a big-endian machine does it when the code takes byte `i`
in memory for byte `i` of the number. -/
def Rbig (a : Block) : Block := swapHalves (R (swapHalves a))

/-- The linear transformation with that step. -/
def Lbig (a : Block) : Block := Nat.repeat Rbig 16 a

/-- The round with that step. -/
def LSXbig (k a : Block) : Block := Lbig (S (X k a))

/-- The iteration constants with that step. -/
def Cbig (i : Nat) : Block := Lbig (BitVec.ofNat 128 i)

/-- The step of the key schedule with that step. -/
def Fbig (k : Block) (x : Block × Block) : Block × Block := (LSXbig k x.1 ^^^ x.2, x.1)

/-- The pairs of round keys with that step. -/
def keyPairBig (K : BitVec 256) : Nat → Block × Block
  | 0 => (K.extractLsb' 128 128, K.extractLsb' 0 128)
  | i + 1 => (List.range 8).foldl (fun x j => Fbig (Cbig (8 * i + j + 1)) x) (keyPairBig K i)

/-- The round keys with that step. -/
def roundKeysBig (K : BitVec 256) : List Block :=
  (List.range 5).flatMap fun i => [(keyPairBig K i).1, (keyPairBig K i).2]

/-- The encryption with that step and given round keys. -/
def encWithBig (ks : List Block) (a : Block) : Block :=
  match ks with
  | [] => a
  | [k] => X k a
  | k :: ks => encWithBig ks (LSXbig k a)

/-- The encryption with that step. -/
def encBig (K : BitVec 256) (a : Block) : Block := encWithBig (roundKeysBig K) a

end Kuz
end Spec
