import Verif.Model.KuzStream
import Verif.Model.MagmaModes
/-
How much work an evaluation is: the number of `value()` calls on block objects.
-/
namespace Goost

/-- The number of `value()` calls on the objects of the block, itself included, when `value()` is called
with the caches `c`. It follows `Blk.valueS`: an operand is not evaluated if an earlier one fails, a
loaded cache does not evaluate its block (goost/kuznyechik/BlkCached.cpp:18-25), and
`BlkXoredIfHighBit` evaluates its first operand twice (goost/kuznyechik/Imit.cpp:28-36). Objects that
exist only within one such call (the `BlkShifted` and `BlkXored` of goost/kuznyechik/Imit.cpp:31-35, and
`BlkL`, `BlkIterKey`, `BlkEncrypted`, which only evaluate what they build) are not counted. -/
def Kuz.Blk.calls (m : Machine) : Kuz.Blk → Kuz.Caches → Nat
  | .raw _ _, _ => 1
  | .str _, _ => 1
  | .xored a b, c =>
    1 + a.calls m c +
      match a.valueS m c with
      | (.ok _, c) => b.calls m c
      | _ => 0
  | .blkS b, c => 1 + b.calls m c
  | .blkR b, c => 1 + b.calls m c
  | .incremented b, c => 1 + b.calls m c
  | .shifted b _, c => 1 + b.calls m c
  | .xoredIfHighBit a b, c =>
    1 + a.calls m c +
      match a.valueS m c with
      | (.ok va, c) =>
        a.calls m c +
          match a.valueS m c with
          | (.ok _, c) => if va.2 &&& 0x8000000000000000 = 0 then 0 else b.calls m c
          | _ => 0
      | _ => 0
  | .cached id b, c =>
    match c id with
    | some _ => 1
    | none => 1 + b.calls m c
  | .user _, _ => 1

/-- The number of `value()` calls on the objects of a Magma block, if no operand fails.
`BlkImitShifted` evaluates its block twice (goost/magma/Imit.cpp:46-53). -/
def Magma.Blk.calls : Magma.Blk → Nat
  | .raw _ _ => 1
  | .str _ => 1
  | .swapped b => 1 + b.calls
  | .xored a b => 1 + a.calls + b.calls
  | .shifted b _ => 1 + b.calls
  | .forwarded b _ => 1 + b.calls
  | .backwarded b _ => 1 + b.calls
  | .imitShifted b => 1 + 2 * b.calls
  | .user _ => 1

end Goost
