import Verif.Model.MagmaBlock
import Verif.Model.Kuznyechik
/-
What another program that shares the processor can observe of an encryption: which entries of the
substitution tables are accessed, and which way the branches go that depend on the data.
-/
namespace Goost

/-- An observable step: an access to entry `index` of table number `table`, or a branch. The tables are
those of goost/magma/SboxByte64Tab.cpp, goost/magma/SboxR3412.cpp, goost/kuznyechik/BlkS.cpp,
goost/kuznyechik/BlkR.cpp. -/
inductive Access where
  | table (table index : Nat)
  | branch (taken : Bool)
  deriving DecidableEq, Repr

/-- Whether the step is an access to a table. As `Access`; e.g. goost/kuznyechik/BlkS.cpp. -/
def Access.isTable : Access → Bool
  | .table _ _ => true
  | .branch _ => false

/-- Calls that leave a log of accesses. Notation for calls of e.g. goost/magma/SboxByte.cpp with what they
access. -/
abbrev Logged := Io (List Access)

/-- `v[i]` where `v` is table number `t`. E.g. goost/magma/SboxByte64Tab.cpp. -/
def vgetL {α : Type} (t : Nat) (v : List α) (i : Nat) : Logged α := fun w =>
  (vget v i, w ++ [.table t i])

namespace Magma

/-- A substitution with its accesses. `Sbox::transform` (goost/magma/Sbox.h). -/
abbrev SboxL := W32 → Logged W32

/-- `SboxNibble::transformN` (goost/magma/SboxNibble.cpp:30-34) with its access; table number `nidx`. -/
def SboxNibble.transformNL (value : W32) (p : List Int) (nidx : Nat) : Logged W32 := do
  let i := (value >>> (nidx * 4)) &&& 0xf
  let x ← vgetL nidx p i.toNat
  return (BitVec.ofInt 32 x) <<< (nidx * 4)

/-- `SboxNibble::transform` (goost/magma/SboxNibble.cpp:11-28) with its accesses. (The order in which
the operands of `|` are evaluated is unspecified; from left to right here.) -/
def SboxNibbleL (p : Fin 8 → List Int) : SboxL := fun value => do
  let t0 ← SboxNibble.transformNL value (p 0) 0
  let t1 ← SboxNibble.transformNL value (p 1) 1
  let t2 ← SboxNibble.transformNL value (p 2) 2
  let t3 ← SboxNibble.transformNL value (p 3) 3
  let t4 ← SboxNibble.transformNL value (p 4) 4
  let t5 ← SboxNibble.transformNL value (p 5) 5
  let t6 ← SboxNibble.transformNL value (p 6) 6
  let t7 ← SboxNibble.transformNL value (p 7) 7
  return t0 ||| t1 ||| t2 ||| t3 ||| t4 ||| t5 ||| t6 ||| t7

/-- `SboxTwisted::transform` (goost/magma/SboxTwisted.cpp:16-20) with its accesses. -/
def SboxTwistedL (sbox : SboxL) : SboxL := fun value => do
  let tmp ← sbox value
  return (tmp <<< 11) ||| ((tmp >>> 21) &&& 0x7ff)

/-- `SboxR3412` (goost/magma/SboxR3412.cpp:14-35) with its accesses. -/
def SboxR3412L : SboxL := fun value => SboxTwistedL (SboxNibbleL SboxR3412.tables) value

/-- `SboxByte64Tab::translate` (goost/magma/SboxByte64Tab.cpp:11-20) with its accesses. All four share
one table. -/
def SboxByte64TabL (uz : List Byte) (offset : Nat) : BitVec 32 → Logged W32 := fun index => do
  let hi ← vgetL 0 uz (((index.sshiftRight 4) &&& 0xf).toNat * 4 + offset)
  let lo ← vgetL 0 uz ((index &&& 0xf).toNat * 4 + offset)
  return ((hi &&& 0xf0).setWidth 32) + ((lo &&& 0x0f).setWidth 32)

/-- `SboxByte::transform` (goost/magma/SboxByte.cpp:12-38) with its accesses. -/
def SboxByteL (uz : List Byte) : SboxL := fun v => do
  let t1 ← SboxByte64TabL uz 0 v
  let t2 ← SboxByte64TabL uz 1 (v >>> 8)
  let t3 ← SboxByte64TabL uz 2 (v >>> 16)
  let t4 ← SboxByte64TabL uz 3 (v >>> 24)
  return t1 ||| (t2 <<< 8) ||| (t3 <<< 16) ||| (t4 <<< 24)

/-- `LazyKey::transform` (goost/magma/LazyKey.cpp:40-43) with its accesses. The words of the key are
accessed by the number of the round, which is not recorded; how a text is converted is not either. -/
def LazyKeyL (key_data : KeyData) (sbox : SboxL) : W32 → Int → Logged W32 := fun v index => do
  let k ← Io.lift (key_data index)
  sbox (k + v)

/-- `BlkForwarded::value` after the inner value is known (goost/magma/BlkForwarded.cpp:21-33), with its
accesses. -/
def forwardRoundsL (key : W32 → Int → Logged W32) (v : W32 × W32) : Logged (W32 × W32) := do
  let (a, b) := v
  let b := b ^^^ (← key a 0)
  let a := a ^^^ (← key b 1)
  let b := b ^^^ (← key a 2)
  let a := a ^^^ (← key b 3)
  let b := b ^^^ (← key a 4)
  let a := a ^^^ (← key b 5)
  let b := b ^^^ (← key a 6)
  let a := a ^^^ (← key b 7)
  return (a, b)

/-- `BlkBackwarded::value` after the inner value is known (goost/magma/BlkBackwarded.cpp:20-32), with
its accesses. -/
def backwardRoundsL (key : W32 → Int → Logged W32) (v : W32 × W32) : Logged (W32 × W32) := do
  let (a, b) := v
  let b := b ^^^ (← key a 7)
  let a := a ^^^ (← key b 6)
  let b := b ^^^ (← key a 5)
  let a := a ^^^ (← key b 4)
  let b := b ^^^ (← key a 3)
  let a := a ^^^ (← key b 2)
  let b := b ^^^ (← key a 1)
  let a := a ^^^ (← key b 0)
  return (a, b)

/-- `BlkEncrypted::value` (goost/magma/BlkEncrypted.cpp:14-38) of a block with a known value, with its
accesses. -/
def BlkEncryptedL (key : W32 → Int → Logged W32) (v : W32 × W32) : Logged (W32 × W32) := do
  let v ← forwardRoundsL key v
  let v ← forwardRoundsL key v
  let v ← forwardRoundsL key v
  let v ← backwardRoundsL key v
  return (v.2, v.1)

/-- `BlkDecrypted::value` (goost/magma/BlkDecrypted.cpp:14-38) of a block with a known value, with its
accesses. -/
def BlkDecryptedL (key : W32 → Int → Logged W32) (v : W32 × W32) : Logged (W32 × W32) := do
  let v ← forwardRoundsL key v
  let v ← backwardRoundsL key v
  let v ← backwardRoundsL key v
  let v ← backwardRoundsL key v
  return (v.2, v.1)

end Magma

namespace Kuz

/-- The accesses of the loop of `BlkS::value` (goost/kuznyechik/BlkS.cpp:40-42). -/
def sLog (v : W64 × W64) : List Access :=
  (bytes64 v.1 ++ bytes64 v.2).map fun b => .table 0 b.toNat

/-- The branches of the loop of `BlkR::gmul` (goost/kuznyechik/BlkR.cpp:24-36), `n` iterations. -/
def gmulLog : Nat → Byte → Byte → List Access
  | 0, _, _ => []
  | n + 1, a, b =>
    let hi_bit_set := a &&& 0x80
    .branch (b &&& 1 = 1) :: .branch (hi_bit_set = 0x80) ::
      gmulLog n (if hi_bit_set = 0x80 then (a <<< 1) ^^^ 0xc3 else a <<< 1) (b >>> 1)

/-- The branches of the loop of `BlkR::value` (goost/kuznyechik/BlkR.cpp:51-53). -/
def rLog (v : W64 × W64) : List Access :=
  (List.zipWith (gmulLog 8) (bytes64 v.1 ++ bytes64 v.2) BlkR.k).flatten

/-- `BlkS::value` after the inner value is known (goost/kuznyechik/BlkS.cpp:38-43), with its accesses. -/
def sValueL (v : W64 × W64) : Logged (W64 × W64) := do
  let data ← (bytes64 v.1 ++ bytes64 v.2).mapM (fun b => vgetL 0 BlkS.sbox b.toNat)
  let first ← Io.lift (load64 data 0)
  let second ← Io.lift (load64 data 8)
  return (first, second)

/-- A branch on a condition. E.g. goost/kuznyechik/BlkIncremented.cpp:20. -/
def branchL (c : Bool) : Logged Bool := fun w => (.ok c, w ++ [.branch c])

/-- The loop of `BlkR::gmul` (goost/kuznyechik/BlkR.cpp:24-36), `n` iterations, with its branches. -/
def gmulLoopL : Nat → Byte → Byte → Byte → Logged Byte
  | 0, p, _, _ => return p
  | n + 1, p, a, b => do
    let p := if ← branchL (b &&& 1 = 1) then p ^^^ a else p
    let hi_bit_set := a &&& 0x80
    let a := a <<< 1
    let a := if ← branchL (hi_bit_set = 0x80) then a ^^^ 0xc3 else a
    gmulLoopL n p a (b >>> 1)

/-- The loop over the bytes in `BlkR::value` (goost/kuznyechik/BlkR.cpp:51-53), with its branches. -/
def rSumL : List Byte → List Byte → Byte → Logged Byte
  | a :: as, k :: ks, sum => do
    let p ← gmulLoopL 8 0 a k
    rSumL as ks (sum ^^^ p)
  | _, _, sum => return sum

/-- `BlkR::value` after the inner value is known (goost/kuznyechik/BlkR.cpp:46-55), with its branches. -/
def rValueL (m : Machine) (v : W64 × W64) : Logged (W64 × W64) := do
  let data := bytes64 v.1 ++ bytes64 v.2
  let sum ← rSumL data BlkR.k 0
  let data := data ++ [sum]
  if m.unalignedLoad then do
    let low ← Io.lift (load64 data 1)
    let high ← Io.lift (load64 data 9)
    return (low, high)
  else Io.lift (.ub .misaligned)

/-- The observable steps of `Block::value()` with the caches `c`. It follows `Blk.valueS`: an operand is
not evaluated if an earlier one fails. The test of a cache for being loaded and the conversion of a text
are not recorded. The branches are those of goost/kuznyechik/BlkIncremented.cpp:20 and
goost/kuznyechik/Imit.cpp:32 and those of `gmul`. -/
def Blk.log (m : Machine) : Blk → Caches → List Access
  | .raw _ _, _ => []
  | .str _, _ => []
  | .xored a b, c =>
    a.log m c ++
      match a.valueS m c with
      | (.ok _, c) => b.log m c
      | _ => []
  | .blkS b, c =>
    b.log m c ++
      match (b.valueS m c).1 with
      | .ok v => sLog v
      | _ => []
  | .blkR b, c =>
    b.log m c ++
      match (b.valueS m c).1 with
      | .ok v => rLog v
      | _ => []
  | .incremented b, c =>
    b.log m c ++
      match (b.valueS m c).1 with
      | .ok v => [.branch (v.1 = BitVec.allOnes 64)]
      | _ => []
  | .shifted b _, c => b.log m c
  | .xoredIfHighBit a b, c =>
    a.log m c ++
      match a.valueS m c with
      | (.ok va, c) =>
        .branch (va.2 &&& 0x8000000000000000 = 0) :: a.log m c ++
          match a.valueS m c with
          | (.ok _, c) => if va.2 &&& 0x8000000000000000 = 0 then [] else b.log m c
          | _ => []
      | _ => []
  | .cached id b, c =>
    match c id with
    | some _ => []
    | none => b.log m c
  | .user _, _ => []

end Kuz
end Goost
