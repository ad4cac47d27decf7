import Verif.Model.KuzLive
/-
goost/kuznyechik: blocks, keys, counter mode and `Imit` once more, with key data and blocks of the user that act
on the outside world when they are called: a token, a password prompt, a key server. `Block` and `Key::Data`
are abstract classes (goost/kuznyechik/Block.h:13-19, goost/kuznyechik/Key.h:17-22). The caches of the
`BlkCached` objects are a part of the state. The definitions of Model/Kuznyechik and Model/KuzStream are those
for user blocks whose answers never change. The cited lines are the same.
-/
namespace Goost.KuzToken
open Goost.Kuz (Caches sValue rValue incValue shiftValue)
open Goost.KuzLive (IterImpl)

variable {W ι α : Type}

/-- Block objects (goost/kuznyechik/Block.h:13-19 and the classes deriving from it), as `Kuz.Blk`. -/
inductive Blk (W : Type) where
  /-- `BlkRaw` (goost/kuznyechik/BlkRaw.h:14-27) -/
  | raw (low high : W64)
  /-- `BlkString` (goost/kuznyechik/BlkString.h:13-19) -/
  | str (s : List Char)
  /-- `BlkXored` with two operands (goost/kuznyechik/BlkXored.h:13-31) -/
  | xored (a b : Blk W)
  /-- `BlkS` (goost/kuznyechik/BlkS.h:13-19) -/
  | blkS (b : Blk W)
  /-- `BlkR` (goost/kuznyechik/BlkR.h:13-20) -/
  | blkR (b : Blk W)
  /-- `BlkIncremented` (goost/kuznyechik/BlkIncremented.h:13-19) -/
  | incremented (b : Blk W)
  /-- `BlkShifted` (goost/kuznyechik/BlkShifted.h:13-20) -/
  | shifted (b : Blk W) (n : Int)
  /-- `BlkXoredIfHighBit` (goost/kuznyechik/Imit.cpp:21-41) -/
  | xoredIfHighBit (a b : Blk W)
  /-- `BlkCached` (goost/kuznyechik/BlkCached.h:13-21); `id` identifies the cache object -/
  | cached (id : Nat) (b : Blk W)
  /-- a block class defined by the user; `value()` acts on the outside world -/
  | user (value : Io W (W64 × W64))

/-- A call of something defined by the user (e.g. goost/kuznyechik/Imit.cpp:56-60): it does not change the
caches. -/
def outside (x : Io W α) : Io (Caches × W) α := fun s =>
  match x s.2 with
  | (r, w) => (r, (s.1, w))

/-- `Block::value()` for every class; the lines are those of `Kuz.Blk.value` (e.g.
goost/kuznyechik/BlkXored.cpp:16-21, goost/kuznyechik/BlkCached.cpp:18-25). A loaded cache answers without
evaluating its block; a cache whose block returns normally becomes loaded. -/
def Blk.value (m : Machine) : Blk W → Io (Caches × W) (W64 × W64)
  | .raw low high => pure (low, high)
  | .str txt => Io.lift ((Kuz.Blk.str txt).value m)
  | .xored a b => do
    let va ← a.value m
    let vb ← b.value m
    return (va.1 ^^^ vb.1, va.2 ^^^ vb.2)
  | .blkS b => do
    let v ← b.value m
    Io.lift (sValue v)
  | .blkR b => do
    let v ← b.value m
    Io.lift (rValue m v)
  | .incremented b => do
    let v ← b.value m
    return incValue v
  | .shifted b n => do
    let v ← b.value m
    Io.lift (shiftValue v n)
  | .xoredIfHighBit a b => do
    let va ← a.value m
    if va.2 &&& 0x8000000000000000 = 0 then do
      let va' ← a.value m
      Io.lift (shiftValue va' 1)
    else do
      let va' ← a.value m
      let s ← Io.lift (shiftValue va' 1)
      let vb ← b.value m
      return (s.1 ^^^ vb.1, s.2 ^^^ vb.2)
  | .cached id b => fun s =>
    match s.1 id with
    | some v => (.ok v, s)
    | none =>
      match b.value m s with
      | (.ok v, s) => (.ok v, (fun i => if i = id then some v else s.1 i, s.2))
      | r => r
  | .user value => outside value

/-- `BlkRaw(uint64_t)` (goost/kuznyechik/BlkRaw.cpp:34-37). -/
def BlkRaw.ofU64 (low : W64) : Blk W := .raw low 0

/-- `BlkRaw()` (goost/kuznyechik/BlkRaw.cpp:39-42). -/
def BlkRaw.zero : Blk W := BlkRaw.ofU64 0

/-- `BlkRaw(const pair &)` (goost/kuznyechik/BlkRaw.cpp:16-19). -/
def BlkRaw.ofPair (v : W64 × W64) : Blk W := .raw v.1 v.2

/-- `BlkL::transform` (goost/kuznyechik/BlkL.cpp:22-29). -/
def BlkL.transform (b : Blk W) : Nat → Blk W
  | 0 => b
  | n + 1 => BlkL.transform (.blkR b) n

/-- `BlkL` (goost/kuznyechik/BlkL.cpp:17-20): the block that `value()` evaluates. -/
def BlkL (block : Blk W) : Blk W := BlkL.transform block 16

/-- `BlkIterKey::generate` (goost/kuznyechik/BlkIterKey.cpp:28-47), with the simplification of
`Kuz.BlkIterKey.generate`. -/
def BlkIterKey.generate (c2 : Int) (a b : Blk W) (i : Int) : Blk W :=
  if i > c2 then b
  else
    let cn := BlkL (BlkRaw.ofU64 (BitVec.ofInt 64 i))
    BlkIterKey.generate c2 b (.xored a (BlkL (.blkS (.xored b cn)))) (i + 1)
termination_by (c2 + 1 - i).toNat
decreasing_by omega

/-- `BlkIterKey` (goost/kuznyechik/BlkIterKey.cpp:15-26): the block that `value()` evaluates. -/
def BlkIterKey (ka kb : Blk W) (c1 c2 : Int) : Blk W := BlkIterKey.generate c2 kb ka c1

/-- `Key` (goost/kuznyechik/Key.h:30-39): the ten cached round keys. -/
structure Key (W : Type) where
  k1 : Blk W
  k2 : Blk W
  k3 : Blk W
  k4 : Blk W
  k5 : Blk W
  k6 : Blk W
  k7 : Blk W
  k8 : Blk W
  k9 : Blk W
  k10 : Blk W

/-- The members of `Key(shared_ptr<const Data>)` (goost/kuznyechik/Key.cpp:24-33) from the blocks returned by
`high()` and `low()`. The caches of one key get ten distinct identities starting at `base`. -/
def Key.ofBlocks (high low : Blk W) (base : Nat := 0) : Key W :=
  let k1 := Blk.cached (base + 1) high
  let k2 := Blk.cached (base + 2) low
  let k3 := Blk.cached (base + 3) (BlkIterKey k1 k2 1 8)
  let k4 := Blk.cached (base + 4) (BlkIterKey k1 k2 1 7)
  let k5 := Blk.cached (base + 5) (BlkIterKey k3 k4 9 16)
  let k6 := Blk.cached (base + 6) (BlkIterKey k3 k4 9 15)
  let k7 := Blk.cached (base + 7) (BlkIterKey k5 k6 17 24)
  let k8 := Blk.cached (base + 8) (BlkIterKey k5 k6 17 23)
  let k9 := Blk.cached (base + 9) (BlkIterKey k7 k8 25 32)
  let k10 := Blk.cached (base + 10) (BlkIterKey k7 k8 25 31)
  ⟨k1, k2, k3, k4, k5, k6, k7, k8, k9, k10⟩

/-- `Key(shared_ptr<const Data>)` (goost/kuznyechik/Key.cpp:23-35): `high()` and `low()` are called, the blocks
that they return are not evaluated. -/
def Key.ofData (high low : Io W (Blk W)) (base : Nat := 0) : Io (Caches × W) (Key W) := do
  let h ← outside high
  let l ← outside low
  return Key.ofBlocks h l base

/-- `Key(string)` (goost/kuznyechik/Key.cpp:18-21, goost/kuznyechik/KeyDataString.cpp:18-26): the halves are
cut in the constructor, the digits are read when the key is used. -/
def Key.ofString (key_data : List Char) (base : Nat := 0) : Exec (Key W) := do
  let high ← substr key_data 0 32
  let low ← substr key_data 32 32
  return Key.ofBlocks (.str high) (.str low) base

/-- `Key::encryptStep` (goost/kuznyechik/Key.cpp:51-57). -/
def Key.encryptStep (block kn : Blk W) : Blk W := BlkL (.blkS (.xored block kn))

/-- `Key::encrypt` (goost/kuznyechik/Key.cpp:37-49). -/
def Key.encrypt (key : Key W) (block : Blk W) : Blk W :=
  let t1 := Key.encryptStep block key.k1
  let t2 := Key.encryptStep t1 key.k2
  let t3 := Key.encryptStep t2 key.k3
  let t4 := Key.encryptStep t3 key.k4
  let t5 := Key.encryptStep t4 key.k5
  let t6 := Key.encryptStep t5 key.k6
  let t7 := Key.encryptStep t6 key.k7
  let t8 := Key.encryptStep t7 key.k8
  let t9 := Key.encryptStep t8 key.k9
  .xored t9 key.k10

/-- `BlkEncrypted` (goost/kuznyechik/BlkEncrypted.cpp:12-20): the block that `value()` evaluates. -/
def BlkEncrypted (block : Blk W) (key : Key W) : Blk W := key.encrypt block

/-- A member call through a possibly null `shared_ptr<const Iterator>`. Used for goost/kuznyechik/Imit.cpp
and goost/kuznyechik/StCTREncrypted.cpp. -/
def deref (p : Option ι) (f : ι → Io W α) : Io (Caches × W) α :=
  match p with
  | some i => outside (f i)
  | none => Io.lift (.ub .nullDeref)

/-- `ItCTREncrypted` (goost/kuznyechik/StCTREncrypted.cpp:16-33). -/
structure ItCTR (W ι : Type) where
  iter : Option ι
  key : Key W
  ctr : Blk W

/-- `ItCTREncrypted::value` (goost/kuznyechik/StCTREncrypted.cpp:43-46). -/
def ItCTR.value (m : Machine) (it : IterImpl W ι) (i : ItCTR W ι) : Io (Caches × W) (W64 × W64) := do
  let p ← deref i.iter it.value
  let g ← (BlkEncrypted i.ctr i.key).value m
  return (p.1 ^^^ g.1, p.2 ^^^ g.2)

/-- `ItCTREncrypted::last` (goost/kuznyechik/StCTREncrypted.cpp:48-51). -/
def ItCTR.last (it : IterImpl W ι) (i : ItCTR W ι) : Io (Caches × W) Bool := deref i.iter it.last

/-- `ItCTREncrypted::size` (goost/kuznyechik/StCTREncrypted.cpp:53-56). -/
def ItCTR.size (it : IterImpl W ι) (i : ItCTR W ι) : Io (Caches × W) Nat := deref i.iter it.size

/-- `ItCTREncrypted::next` (goost/kuznyechik/StCTREncrypted.cpp:58-61). -/
def ItCTR.next (it : IterImpl W ι) (i : ItCTR W ι) : Io (Caches × W) (ItCTR W ι) := do
  let n ← deref i.iter it.next
  return ⟨n, i.key, .incremented i.ctr⟩

/-- `StCTREncrypted::iter` (goost/kuznyechik/StCTREncrypted.cpp:71-74), given `iter()` of the wrapped
stream. -/
def StCTREncrypted.iter (streamIter : Io W (Option ι)) (key : Key W) (iv : W64) :
    Io (Caches × W) (ItCTR W ι) := do
  let i ← outside streamIter
  return ⟨i, key, .raw 0 iv⟩

/-- The loop of `Imit::value` (goost/kuznyechik/Imit.cpp:56-62) with a budget of iterations; returns `block`
and `iter`. -/
def Imit.loop (it : IterImpl W ι) (key : Key W) : Nat → Option ι → Blk W → Io (Caches × W) (Blk W × Option ι)
  | 0, _, _ => Io.lift .diverge
  | fuel + 1, iter, block => do
    let l ← deref iter it.last
    if !l then do
      let v ← deref iter it.value
      let block := BlkEncrypted (.xored block (BlkRaw.ofPair v)) key
      let iter ← deref iter it.next
      Imit.loop it key fuel iter block
    else
      return (block, iter)

/-- `Imit::value` (goost/kuznyechik/Imit.cpp:51-79). -/
def Imit.value (m : Machine) (it : IterImpl W ι) (streamIter : Io W (Option ι)) (fuel : Nat) (key : Key W) :
    Io (Caches × W) (W64 × W64) := do
  let iter ← outside streamIter
  let (block, iter) ← Imit.loop it key fuel iter BlkRaw.zero
  let B := BlkRaw.ofU64 0x87
  let K1 := Blk.xoredIfHighBit (BlkEncrypted BlkRaw.zero key) B
  let v ← deref iter it.value
  let xblock := Blk.xored block (BlkRaw.ofPair v)
  let size ← deref iter it.size
  if size = 16 then
    (BlkEncrypted (.xored xblock K1) key).value m
  else
    (BlkEncrypted (.xored xblock (.xoredIfHighBit K1 B)) key).value m

end Goost.KuzToken
