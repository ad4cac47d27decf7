import Verif.Model.Leak
import Verif.Model.Work
/-
The evaluation of blocks with a recorder: how often `value()` is called on the objects of a block, how
deeply these calls are nested, and the observable steps. The functions here are the evaluation itself
(`Blk.valueS`, `Blk.value`) with the recorder added; as there, `BlkL`, `BlkIterKey` and `BlkEncrypted`
stand for what they build, and objects that exist only within one call are not counted.
-/
namespace Goost

namespace Kuz

/-- The state of the recorder, and the caches. The classes observed are those of goost/kuznyechik/Block.h
and goost/magma/Block.h. -/
structure Rec where
  caches : Caches
  log : List Access
  calls : Nat
  deepest : Nat

/-- A call of `value()` begins inside of `level` others. E.g. goost/kuznyechik/BlkXored.cpp,
goost/magma/BlkXored.cpp. -/
def enter (level : Nat) : Io Rec Unit := fun r =>
  (.ok (), { r with calls := r.calls + 1, deepest := max r.deepest (level + 1) })

/-- Adds the observable steps of `x` to the record. E.g. of goost/kuznyechik/BlkS.cpp. -/
def record {α : Type} (x : Logged α) : Io Rec α := fun r =>
  match x r.log with
  | (a, log) => (a, { r with log := log })

/-- `cache.loaded`, `cache.state` of the cache `id` (goost/kuznyechik/BlkCached.cpp:20, 24). -/
def getCache (id : Nat) : Io Rec (Option (W64 × W64)) := fun r => (.ok (r.caches id), r)

/-- `state = block->value(); loaded = true;` (goost/kuznyechik/BlkCached.cpp:21-22), the value known. -/
def setCache (id : Nat) (v : W64 × W64) : Io Rec Unit := fun r =>
  (.ok (), { r with caches := fun i => if i = id then some v else r.caches i })

/-- `Block::value()` for every class, with the recorder. The lines of /repo are those of `Blk.value`.
(goost/kuznyechik/Block.h, goost/magma/Block.h.) -/
def Blk.run (m : Machine) : Blk → Nat → Io Rec (W64 × W64)
  | .raw low high, n => do
    enter n
    return (low, high)
  | .str txt, n => do
    enter n
    Io.lift ((Blk.str txt).value m)
  | .xored a b, n => do
    enter n
    let va ← a.run m (n + 1)
    let vb ← b.run m (n + 1)
    return (va.1 ^^^ vb.1, va.2 ^^^ vb.2)
  | .blkS b, n => do
    enter n
    let v ← b.run m (n + 1)
    record (sValueL v)
  | .blkR b, n => do
    enter n
    let v ← b.run m (n + 1)
    record (rValueL m v)
  | .incremented b, n => do
    enter n
    let v ← b.run m (n + 1)
    if ← record (branchL (v.1 = BitVec.allOnes 64)) then return (0, v.2 + 1) else return (v.1 + 1, v.2)
  | .shifted b k, n => do
    enter n
    let v ← b.run m (n + 1)
    Io.lift (shiftValue v k)
  | .xoredIfHighBit a b, n => do
    enter n
    let va ← a.run m (n + 1)
    if ← record (branchL (va.2 &&& 0x8000000000000000 = 0)) then do
      let va' ← a.run m (n + 1)
      Io.lift (shiftValue va' 1)
    else do
      let va' ← a.run m (n + 1)
      let s ← Io.lift (shiftValue va' 1)
      let vb ← b.run m (n + 1)
      return (s.1 ^^^ vb.1, s.2 ^^^ vb.2)
  | .cached id b, n => do
    enter n
    match ← getCache id with
    | some v => return v
    | none => do
      let v ← b.run m (n + 1)
      setCache id v
      return v
  | .user v, n => do
    enter n
    Io.lift v

/-- The record of one call of `value()` with the caches `c`. (goost/kuznyechik/Block.h,
goost/magma/Block.h.) -/
def Blk.recorded (m : Machine) (b : Blk) (c : Caches) : Rec := (b.run m 0 ⟨c, [], 0, 0⟩).2

end Kuz

namespace Magma

/-- The state of the recorder. The classes observed are those of goost/kuznyechik/Block.h and
goost/magma/Block.h. -/
structure Rec where
  calls : Nat
  deepest : Nat

/-- A call of `value()` begins inside of `level` others. E.g. goost/kuznyechik/BlkXored.cpp,
goost/magma/BlkXored.cpp. -/
def enter (level : Nat) : Io Rec Unit := fun r => (.ok (), ⟨r.calls + 1, max r.deepest (level + 1)⟩)

/-- `Block::value()` for every class, with the recorder. The lines of /repo are those of `Blk.value`.
(goost/kuznyechik/Block.h, goost/magma/Block.h.) -/
def Blk.run (m : Machine) : Blk → Nat → Io Rec (W32 × W32)
  | .raw low high, n => do
    enter n
    return (low, high)
  | .str s, n => do
    enter n
    Io.lift ((Blk.str s).value m)
  | .swapped b, n => do
    enter n
    let v ← b.run m (n + 1)
    return (v.2, v.1)
  | .xored a b, n => do
    enter n
    let va ← a.run m (n + 1)
    let vb ← b.run m (n + 1)
    return (va.1 ^^^ vb.1, va.2 ^^^ vb.2)
  | .shifted b k, n => do
    enter n
    let v ← b.run m (n + 1)
    Io.lift (shiftValue m v k)
  | .forwarded b key, n => do
    enter n
    let v ← b.run m (n + 1)
    Io.lift (forwardRounds key v)
  | .backwarded b key, n => do
    enter n
    let v ← b.run m (n + 1)
    Io.lift (backwardRounds key v)
  | .imitShifted b, n => do
    enter n
    let v ← b.run m (n + 1)
    if v.2 &&& 0x80000000 = 0 then do
      let v' ← b.run m (n + 1)
      Io.lift (shiftValue m v' 1)
    else do
      let v' ← b.run m (n + 1)
      let s ← Io.lift (shiftValue m v' 1)
      return (s.1 ^^^ 0x1b, s.2 ^^^ 0)
  | .user v, n => do
    enter n
    Io.lift v

/-- The record of one call of `value()`. (goost/kuznyechik/Block.h, goost/magma/Block.h.) -/
def Blk.recorded (m : Machine) (b : Blk) : Rec := (b.run m 0 ⟨0, 0⟩).2

end Magma
end Goost
