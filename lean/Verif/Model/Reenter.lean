import Verif.Model.Kuznyechik
import Verif.Model.Live
/-
Keys that are used again while they are being asked for. `Block`, `Key::Data` and `KeyData` are abstract classes
(goost/kuznyechik/Block.h:13-19, goost/kuznyechik/Key.h:17-22, goost/magma/KeyData.h:12-16): what the user derives from
them may take its time, show a dialog, run the event loop of the program, and something that the event loop
calls may use the same key. The library asks in the middle of goost/kuznyechik/BlkCached.cpp:20-23 and
goost/magma/KeyCachedData.cpp:18-23, and these functions are then entered a second time, by the same thread.
-/
namespace Goost.Reenter
open Goost.Kuz (Caches sValue rValue incValue shiftValue)
open Goost.Magma (CachedData)

variable {W S Q A R : Type}

/-- What an object of the user does while it is asked: it looks at the outside world and changes it, it makes calls `q`
to the library and goes on with what they return or throw, and at last it returns or throws. Notation; the
objects are those behind goost/kuznyechik/BlkCached.cpp:21 and goost/magma/KeyCachedData.cpp:20. -/
inductive Code (W Q A R : Type) where
  | done (r : Exec R)
  | world (act : W → W) (next : W → Code W Q A R)
  | call (q : Q) (next : Except Exn A → Code W Q A R)

/-- Runs it; `lib` is the library, whose objects are in `S`. A call that does not return, or that is undefined, ends
everything. Objects of the user behind goost/kuznyechik/BlkCached.cpp:21 and goost/magma/KeyCachedData.cpp:20. -/
def Code.run (lib : Q → Io (S × W) A) : Code W Q A R → Io (S × W) R
  | .done r => Io.lift r
  | .world act next => fun s => (next s.2).run lib (s.1, act s.2)
  | .call q next => fun s =>
    match lib q s with
    | (.ok a, s) => (next (.ok a)).run lib s
    | (.throw e, s) => (next (.error e)).run lib s
    | (.ub u, s) => (.ub u, s)
    | (.diverge, s) => (.diverge, s)

/-! ### The 128-bit cipher -/

/-- Block objects (goost/kuznyechik/Block.h:13-19 and the classes deriving from it), as `Kuz.Blk`. -/
inductive Blk where
  /-- `BlkRaw` (goost/kuznyechik/BlkRaw.h:14-27) -/
  | raw (low high : W64)
  /-- `BlkString` (goost/kuznyechik/BlkString.h:13-19) -/
  | str (s : List Char)
  /-- `BlkXored` with two operands (goost/kuznyechik/BlkXored.h:13-31) -/
  | xored (a b : Blk)
  /-- `BlkS` (goost/kuznyechik/BlkS.h:13-19) -/
  | blkS (b : Blk)
  /-- `BlkR` (goost/kuznyechik/BlkR.h:13-20) -/
  | blkR (b : Blk)
  /-- `BlkIncremented` (goost/kuznyechik/BlkIncremented.h:13-19) -/
  | incremented (b : Blk)
  /-- `BlkShifted` (goost/kuznyechik/BlkShifted.h:13-20) -/
  | shifted (b : Blk) (n : Int)
  /-- `BlkXoredIfHighBit` (goost/kuznyechik/Imit.cpp:21-41) -/
  | xoredIfHighBit (a b : Blk)
  /-- `BlkCached` (goost/kuznyechik/BlkCached.h:13-21); `id` identifies the cache object -/
  | cached (id : Nat) (b : Blk)
  /-- the object number `n` of a class defined by the user -/
  | user (n : Nat)

/-- `Block::value()` for every class; the lines are those of `Kuz.Blk.value` (e.g.
goost/kuznyechik/BlkXored.cpp:16-21). `user` is `value()` of the objects of the user. When the block of a
`BlkCached` returns, its value is stored and the cache becomes loaded (goost/kuznyechik/BlkCached.cpp:18-25), also if
it has become loaded in the meantime. -/
def Blk.valueWith (m : Machine) (user : Nat → Io (Caches × W) (W64 × W64)) : Blk → Io (Caches × W) (W64 × W64)
  | .raw low high => pure (low, high)
  | .str txt => Io.lift ((Kuz.Blk.str txt).value m)
  | .xored a b => do
    let va ← a.valueWith m user
    let vb ← b.valueWith m user
    return (va.1 ^^^ vb.1, va.2 ^^^ vb.2)
  | .blkS b => do
    let v ← b.valueWith m user
    Io.lift (sValue v)
  | .blkR b => do
    let v ← b.valueWith m user
    Io.lift (rValue m v)
  | .incremented b => do
    let v ← b.valueWith m user
    return incValue v
  | .shifted b n => do
    let v ← b.valueWith m user
    Io.lift (shiftValue v n)
  | .xoredIfHighBit a b => do
    let va ← a.valueWith m user
    if va.2 &&& 0x8000000000000000 = 0 then do
      let va' ← a.valueWith m user
      Io.lift (shiftValue va' 1)
    else do
      let va' ← a.valueWith m user
      let s ← Io.lift (shiftValue va' 1)
      let vb ← b.valueWith m user
      return (s.1 ^^^ vb.1, s.2 ^^^ vb.2)
  | .cached id b => fun s =>
    match s.1 id with
    | some v => (.ok v, s)
    | none =>
      match b.valueWith m user s with
      | (.ok v, s) => (.ok v, (fun i => if i = id then some v else s.1 i, s.2))
      | r => r
  | .user n => user n

/-- `Block::value()`, if what the objects of the user do is `env`. There is stack for `depth` calls of the user's
objects within each other; `diverge` stands for the overflow of the stack. Calls e.g. at
goost/kuznyechik/BlkCached.cpp:21. -/
def Blk.value (m : Machine) (env : Nat → Code W Blk (W64 × W64) (W64 × W64)) : Nat → Blk → Io (Caches × W) (W64 × W64)
  | 0 => fun b => b.valueWith m fun _ => Io.lift .diverge
  | depth + 1 => fun b => b.valueWith m fun n => (env n).run (Blk.value m env depth)

/-- `BlkRaw(uint64_t)` (goost/kuznyechik/BlkRaw.cpp:34-37). -/
def BlkRaw.ofU64 (low : W64) : Blk := .raw low 0

/-- `BlkRaw(const pair &)` (goost/kuznyechik/BlkRaw.cpp:16-19). -/
def BlkRaw.ofPair (v : W64 × W64) : Blk := .raw v.1 v.2

/-- `BlkL::transform` (goost/kuznyechik/BlkL.cpp:22-29). -/
def BlkL.transform (b : Blk) : Nat → Blk
  | 0 => b
  | n + 1 => BlkL.transform (.blkR b) n

/-- `BlkL` (goost/kuznyechik/BlkL.cpp:17-20): the block that `value()` evaluates. -/
def BlkL (block : Blk) : Blk := BlkL.transform block 16

/-- `BlkIterKey::generate` (goost/kuznyechik/BlkIterKey.cpp:28-47), with the simplification of
`Kuz.BlkIterKey.generate`. -/
def BlkIterKey.generate (c2 : Int) (a b : Blk) (i : Int) : Blk :=
  if i > c2 then b
  else
    let cn := BlkL (BlkRaw.ofU64 (BitVec.ofInt 64 i))
    BlkIterKey.generate c2 b (.xored a (BlkL (.blkS (.xored b cn)))) (i + 1)
termination_by (c2 + 1 - i).toNat
decreasing_by omega

/-- `BlkIterKey` (goost/kuznyechik/BlkIterKey.cpp:15-26): the block that `value()` evaluates. -/
def BlkIterKey (ka kb : Blk) (c1 c2 : Int) : Blk := BlkIterKey.generate c2 kb ka c1

/-- `Key` (goost/kuznyechik/Key.h:30-39): the ten cached round keys. -/
structure Key where
  k1 : Blk
  k2 : Blk
  k3 : Blk
  k4 : Blk
  k5 : Blk
  k6 : Blk
  k7 : Blk
  k8 : Blk
  k9 : Blk
  k10 : Blk

/-- The members of `Key(shared_ptr<const Data>)` (goost/kuznyechik/Key.cpp:24-33) from the blocks returned by
`high()` and `low()`. The caches of one key get ten distinct identities starting at `base`. -/
def Key.ofBlocks (high low : Blk) (base : Nat := 0) : Key :=
  let k1 := Blk.cached (base + 1) high
  let k2 := Blk.cached (base + 2) low
  let k3 := Blk.cached (base + 3) (BlkIterKey k1 k2 1 8)
  let k4 := Blk.cached (base + 4) (BlkIterKey k1 k2 1 7)
  let k5 := Blk.cached (base + 5) (BlkIterKey k3 k4 9 16)
  let k6 := Blk.cached (base + 6) (BlkIterKey k3 k4 9 15)
  let k7 := Blk.cached (base + 7) (BlkIterKey k5 k6 17 24)
  let k8 := Blk.cached (base + 8) (BlkIterKey k5 k6 17 23)
  let k9 := Blk.cached (base + 9) (BlkIterKey k7 k8 25 32)
  let k10 := Blk.cached (base + 10) (BlkIterKey k7 k8 25 31)
  ⟨k1, k2, k3, k4, k5, k6, k7, k8, k9, k10⟩

/-- `Key::encryptStep` (goost/kuznyechik/Key.cpp:51-57). -/
def Key.encryptStep (block kn : Blk) : Blk := BlkL (.blkS (.xored block kn))

/-- `Key::encrypt` (goost/kuznyechik/Key.cpp:37-49). -/
def Key.encrypt (key : Key) (block : Blk) : Blk :=
  let t1 := Key.encryptStep block key.k1
  let t2 := Key.encryptStep t1 key.k2
  let t3 := Key.encryptStep t2 key.k3
  let t4 := Key.encryptStep t3 key.k4
  let t5 := Key.encryptStep t4 key.k5
  let t6 := Key.encryptStep t5 key.k6
  let t7 := Key.encryptStep t6 key.k7
  let t8 := Key.encryptStep t7 key.k8
  let t9 := Key.encryptStep t8 key.k9
  .xored t9 key.k10

/-- `BlkEncrypted` (goost/kuznyechik/BlkEncrypted.cpp:12-20): the block that `value()` evaluates. -/
def BlkEncrypted (block : Blk) (key : Key) : Blk := key.encrypt block

/-! ### The 64-bit cipher -/

/-- `KeyCachedData::key` (goost/magma/KeyCachedData.cpp:16-25) over a `KeyData` that does `env index` when it is asked
for the word `index`; its calls to the library are calls of this same function (every use of a key is a
sequence of them: goost/magma/LazyKey.cpp:40-43). There is stack for `depth` calls within each other. -/
def cachedKey (env : Int → Code W Int W32 W32) : Nat → Int → Io (CachedData × W) W32
  | 0 => fun _ => Io.lift .diverge
  | depth + 1 => Live.KeyCachedData (·.1) (fun c s => (c, s.2)) fun index => (env index).run (cachedKey env depth)

end Goost.Reenter
