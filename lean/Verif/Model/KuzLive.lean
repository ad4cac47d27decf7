import Verif.Model.KuzStream
/-
goost/kuznyechik: the streams once more, over iterators of the user that act on the outside world when they
are called: a file, a pipe, a device that can be read once. `Stream` and `Iterator` are abstract classes
(goost/kuznyechik/Stream.h:14-19, Iterator.h:14-21). The definitions of Model/KuzStream are those for
iterators whose answers never change; theorem C107 relates the two. The cited lines are the same.
-/
namespace Goost.KuzLive
open Goost.Kuz

variable {W ι α : Type}

/-- An `Iterator` class (goost/kuznyechik/Iterator.h:14-21) over a state type `ι`. `next` returns a possibly
null pointer. -/
structure IterImpl (W ι : Type) where
  value : ι → Io W (W64 × W64)
  last : ι → Io W Bool
  size : ι → Io W Nat
  next : ι → Io W (Option ι)

/-- A member call through a possibly null `shared_ptr<const Iterator>`. Used for goost/kuznyechik/Imit.cpp
and goost/kuznyechik/StCTREncrypted.cpp. -/
def deref (p : Option ι) (f : ι → Io W α) : Io W α :=
  match p with
  | some i => f i
  | none => Io.lift (.ub .nullDeref)

/-- The methods of `ItCTREncrypted` (goost/kuznyechik/StCTREncrypted.cpp:43-61). -/
def ItCTR.impl (m : Machine) (it : IterImpl W ι) : IterImpl W (ItCTR ι) where
  value i := do
    let p ← deref i.iter it.value
    let g ← Io.lift ((BlkEncrypted i.ctr i.key).value m)
    return (p.1 ^^^ g.1, p.2 ^^^ g.2)
  last i := deref i.iter it.last
  size i := deref i.iter it.size
  next i := do
    let n ← deref i.iter it.next
    return some ⟨n, i.key, .incremented i.ctr⟩

/-- `StCTREncrypted::iter` (goost/kuznyechik/StCTREncrypted.cpp:71-74), given `iter()` of the wrapped
stream. -/
def StCTREncrypted.iter (streamIter : Io W (Option ι)) (key : Key) (iv : W64) :
    Io W (Option (ItCTR ι)) := do
  let i ← streamIter
  return some ⟨i, key, .raw 0 iv⟩

/-- The loop of `Imit::value` (goost/kuznyechik/Imit.cpp:56-62) with a budget of iterations; returns `block`
and `iter`. -/
def Imit.loop (it : IterImpl W ι) (key : Key) : Nat → Option ι → Blk → Io W (Blk × Option ι)
  | 0, _, _ => Io.lift .diverge
  | fuel + 1, iter, block => do
    let l ← deref iter it.last
    if !l then do
      let v ← deref iter it.value
      let block := BlkEncrypted (.xored block (BlkRaw.ofPair v)) key
      let iter ← deref iter it.next
      Imit.loop it key fuel iter block
    else
      return (block, iter)

/-- `Imit::value` (goost/kuznyechik/Imit.cpp:51-79). -/
def Imit.value (m : Machine) (it : IterImpl W ι) (streamIter : Io W (Option ι)) (fuel : Nat) (key : Key) :
    Io W (W64 × W64) := do
  let iter ← streamIter
  let (block, iter) ← Imit.loop it key fuel iter BlkRaw.zero
  let B := BlkRaw.ofU64 0x87
  let K1 := Blk.xoredIfHighBit (BlkEncrypted BlkRaw.zero key) B
  let v ← deref iter it.value
  let xblock := Blk.xored block (BlkRaw.ofPair v)
  let size ← deref iter it.size
  if size = 16 then
    Io.lift ((BlkEncrypted (.xored xblock K1) key).value m)
  else
    Io.lift ((BlkEncrypted (.xored xblock (.xoredIfHighBit K1 B)) key).value m)

end Goost.KuzLive
