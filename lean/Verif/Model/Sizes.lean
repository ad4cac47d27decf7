import Verif.Model.KuzStream
/-
Numbers with the ranges of their types: positions in a memory stream as `size_t`, an unsigned type of `w` bits, and the
numbers of iteration constants as `int`, a signed type of `w` bits. Elsewhere they are natural numbers and integers.
-/
namespace Goost.Kuz

/-- `StMemory::next_iter` with its argument as it is in the program (goost/kuznyechik/StMemory.cpp:76-86). -/
def StMemory.nextIterAt {w : Nat} (data : List W64) (offset : BitVec w) : Exec (Option (BitVec w × (W64 × W64))) :=
  if data.length ≤ (offset / 8).toNat then .ok none
  else do
    let low ← vget data (offset / 8).toNat
    let high ← vget data ((offset / 8).toNat + 1)
    return some (offset, (low, high))

/-- The methods of `ItMemory` with `offset` as a `size_t` (goost/kuznyechik/StMemory.cpp:45-64): `offset + Block::size` is
computed modulo `2 ^ w`. The stream is assumed to exist. -/
def ItMemory.implAt (w : Nat) (data : List W64) : IterImpl (BitVec w × (W64 × W64)) where
  value i := .ok i.2
  last i := do
    let n ← StMemory.nextIterAt data (i.1 + 16)
    return n.isNone
  size _ := .ok 16
  next i := StMemory.nextIterAt data (i.1 + 16)

/-- `BlkIterKey::generate` with `int`s of `w` bits (goost/kuznyechik/BlkIterKey.cpp:28-47): `i + 1` is undefined for the
largest one. The blocks of the recursion are built before any of them is evaluated. -/
def BlkIterKey.generateInt (w : Nat) (c2 : Int) (a b : Blk) (i : Int) : Exec Blk :=
  if i > c2 then .ok b
  else if i + 1 ≥ 2 ^ (w - 1) then .ub .overflow
  else
    let cn := BlkL (BlkRaw.ofU64 (BitVec.ofInt 64 i))
    BlkIterKey.generateInt w c2 b (.xored a (BlkL (.blkS (.xored b cn)))) (i + 1)
termination_by (c2 + 1 - i).toNat
decreasing_by omega

/-- `BlkIterKey::value` with `int`s of `w` bits (goost/kuznyechik/BlkIterKey.cpp:23-26). -/
def BlkIterKey.valueInt (m : Machine) (w : Nat) (ka kb : Blk) (c1 c2 : Int) : Exec (W64 × W64) := do
  let b ← BlkIterKey.generateInt w c2 kb ka c1
  b.value m

end Goost.Kuz
