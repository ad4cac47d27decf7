import Verif.Model.KuzToken
import Verif.Model.Scarce
/-
goost/kuznyechik once more, on a machine that may run out of memory. Blocks are made with `make_shared` and
`make_unique` all the time, also while others are evaluated; the definitions here have `alloc` before each
block is evaluated and wherever else memory may be needed between two actions that can be observed. (In
the code some of these requests are made a little earlier, without anything in between, and some places
never need memory.) The definitions of Model/KuzToken are those for unlimited memory; theorem C110 relates the
two. The cited lines are the same.
-/
namespace Goost.ScarceKuz
open Goost.Kuz (Caches sValue rValue incValue shiftValue)
open Goost.KuzLive (IterImpl)
open Goost.KuzToken (Blk Key ItCTR BlkRaw.zero BlkRaw.ofU64 BlkRaw.ofPair BlkEncrypted outside Key.ofBlocks)
open Goost.Scarce (alloc below)

variable {W ι α : Type}

/-- `Block::value()` for every class; the lines are those of `KuzToken.Blk.value` (e.g.
goost/kuznyechik/BlkL.cpp:17-29, goost/kuznyechik/BlkIterKey.cpp:23-47, goost/kuznyechik/Key.cpp:37-57,
goost/kuznyechik/BlkCached.cpp:18-25, goost/kuznyechik/Imit.cpp:29-37). -/
def Blk.value (m : Machine) : Blk W → Io (Nat × (Caches × W)) (W64 × W64)
  | .raw low high => do
    alloc
    return (low, high)
  | .str txt => do
    alloc
    Io.lift ((Kuz.Blk.str txt).value m)
  | .xored a b => do
    alloc
    let va ← Blk.value m a
    let vb ← Blk.value m b
    return (va.1 ^^^ vb.1, va.2 ^^^ vb.2)
  | .blkS b => do
    alloc
    let v ← Blk.value m b
    Io.lift (sValue v)
  | .blkR b => do
    alloc
    let v ← Blk.value m b
    Io.lift (rValue m v)
  | .incremented b => do
    alloc
    let v ← Blk.value m b
    return incValue v
  | .shifted b n => do
    alloc
    let v ← Blk.value m b
    Io.lift (shiftValue v n)
  | .xoredIfHighBit a b => do
    alloc
    let va ← Blk.value m a
    alloc
    if va.2 &&& 0x8000000000000000 = 0 then do
      let va' ← Blk.value m a
      Io.lift (shiftValue va' 1)
    else do
      let va' ← Blk.value m a
      let s ← Io.lift (shiftValue va' 1)
      let vb ← Blk.value m b
      return (s.1 ^^^ vb.1, s.2 ^^^ vb.2)
  | .cached id b => fun s =>
    match s.2.1 id with
    | some v => (.ok v, s)
    | none =>
      match Blk.value m b s with
      | (.ok v, s) => (.ok v, (s.1, (fun i => if i = id then some v else s.2.1 i, s.2.2)))
      | r => r
  | .user value => do
    alloc
    below (outside value)

/-- `Key(shared_ptr<const Data>)` (goost/kuznyechik/Key.cpp:23-35): memory for the ten round keys. -/
def Key.ofData (high low : Io W (Blk W)) (base : Nat := 0) : Io (Nat × (Caches × W)) (Key W) := do
  alloc
  let h ← below (outside high)
  alloc
  let l ← below (outside low)
  alloc
  return Key.ofBlocks h l base

/-- A member call through a possibly null `shared_ptr<const Iterator>`. Used for goost/kuznyechik/Imit.cpp
and goost/kuznyechik/StCTREncrypted.cpp. -/
def deref (p : Option ι) (f : ι → Io W α) : Io (Nat × (Caches × W)) α := below (KuzToken.deref p f)

/-- `ItCTREncrypted::value` (goost/kuznyechik/StCTREncrypted.cpp:43-46): memory for the `BlkEncrypted`. -/
def ItCTR.value (m : Machine) (it : IterImpl W ι) (i : ItCTR W ι) :
    Io (Nat × (Caches × W)) (W64 × W64) := do
  alloc
  let p ← deref i.iter it.value
  let g ← Blk.value m (BlkEncrypted i.ctr i.key)
  return (p.1 ^^^ g.1, p.2 ^^^ g.2)

/-- `ItCTREncrypted::next` (goost/kuznyechik/StCTREncrypted.cpp:58-61): memory for the incremented counter and
for the new iterator. The order in which the arguments are evaluated is not specified, so that memory may
run out before and after the call. -/
def ItCTR.next (it : IterImpl W ι) (i : ItCTR W ι) : Io (Nat × (Caches × W)) (ItCTR W ι) := do
  alloc
  let n ← deref i.iter it.next
  alloc
  return ⟨n, i.key, .incremented i.ctr⟩

/-- `StCTREncrypted::iter` (goost/kuznyechik/StCTREncrypted.cpp:71-74), given `iter()` of the wrapped
stream: memory for the first counter and for the iterator. -/
def StCTREncrypted.iter (streamIter : Io W (Option ι)) (key : Key W) (iv : W64) :
    Io (Nat × (Caches × W)) (ItCTR W ι) := do
  alloc
  let i ← below (outside streamIter)
  alloc
  return ⟨i, key, .raw 0 iv⟩

/-- The loop of `Imit::value` (goost/kuznyechik/Imit.cpp:56-62) with a budget of iterations; returns `block`
and `iter`: memory for the blocks. -/
def Imit.loop (it : IterImpl W ι) (key : Key W) :
    Nat → Option ι → Blk W → Io (Nat × (Caches × W)) (Blk W × Option ι)
  | 0, _, _ => Io.lift .diverge
  | fuel + 1, iter, block => do
    let l ← deref iter it.last
    if !l then do
      let v ← deref iter it.value
      alloc
      let block := BlkEncrypted (.xored block (BlkRaw.ofPair v)) key
      let iter ← deref iter it.next
      Imit.loop it key fuel iter block
    else
      return (block, iter)

/-- `Imit::value` (goost/kuznyechik/Imit.cpp:51-79): memory for the blocks. -/
def Imit.value (m : Machine) (it : IterImpl W ι) (streamIter : Io W (Option ι)) (fuel : Nat) (key : Key W) :
    Io (Nat × (Caches × W)) (W64 × W64) := do
  let iter ← below (outside streamIter)
  alloc
  let (block, iter) ← Imit.loop it key fuel iter BlkRaw.zero
  alloc
  let B := BlkRaw.ofU64 0x87
  let K1 := Blk.xoredIfHighBit (BlkEncrypted BlkRaw.zero key) B
  let v ← deref iter it.value
  alloc
  let xblock := Blk.xored block (BlkRaw.ofPair v)
  let size ← deref iter it.size
  alloc
  if size = 16 then
    Blk.value m (BlkEncrypted (.xored xblock K1) key)
  else
    Blk.value m (BlkEncrypted (.xored xblock (.xoredIfHighBit K1 B)) key)

end Goost.ScarceKuz
