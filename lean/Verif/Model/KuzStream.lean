import Verif.Model.Kuznyechik
/-
goost/kuznyechik: streams, iterators, CTR, Imit.
-/
namespace Goost.Kuz

/-- An `Iterator` class (goost/kuznyechik/Iterator.h:14-21) over a state type `ι`. `next` returns a
possibly null pointer. -/
structure IterImpl (ι : Type) where
  value : ι → Exec (W64 × W64)
  last : ι → Exec Bool
  size : ι → Exec Nat
  next : ι → Exec (Option ι)

/-- A member call through a possibly null `shared_ptr<const Iterator>`. Used for goost/kuznyechik/Imit.cpp
and goost/kuznyechik/StCTREncrypted.cpp. -/
def deref {ι α : Type} (p : Option ι) (f : ι → Exec α) : Exec α :=
  match p with
  | some i => f i
  | none => .ub .nullDeref

/-- `ItMemory` (goost/kuznyechik/StMemory.cpp:16-32): the position and the block loaded when the
iterator was made. -/
structure ItMemory where
  offset : Nat
  data : W64 × W64
  deriving DecidableEq, Repr

/-- `StMemory::next_iter` (goost/kuznyechik/StMemory.cpp:76-86); `data` are the words of the
stream. (`shared_from_this` needs the stream to be owned by a `shared_ptr`, which is assumed here; see Model/Bare.) -/
def StMemory.nextIter (data : List W64) (offset : Nat) : Exec (Option ItMemory) :=
  if data.length ≤ offset / 8 then .ok none
  else do
    let low ← vget data (offset / 8)
    let high ← vget data (offset / 8 + 1)
    return some ⟨offset, (low, high)⟩

/-- `StMemory::iter` (goost/kuznyechik/StMemory.cpp:71-74). -/
def StMemory.iter (data : List W64) : Exec (Option ItMemory) := StMemory.nextIter data 0

/-- `ItMemory::next` (goost/kuznyechik/StMemory.cpp:60-64). `alive` says whether the stream still
exists at the time of the call: otherwise `stream.lock()` is null and is dereferenced. -/
def ItMemory.next (data : List W64) (alive : Bool) (i : ItMemory) : Exec (Option ItMemory) :=
  if alive then StMemory.nextIter data (i.offset + 16) else .ub .nullDeref

/-- The methods of `ItMemory` (goost/kuznyechik/StMemory.cpp:45-64). -/
def ItMemory.impl (data : List W64) (alive : Bool := true) : IterImpl ItMemory where
  value i := .ok i.data
  last i := do
    let n ← ItMemory.next data alive i
    return n.isNone
  size _ := .ok 16
  next i := ItMemory.next data alive i

/-- What a program holds of one `StMemory` object: the number of `shared_ptr`s to the stream (its own
ones and those inside `StCTREncrypted` and `Imit` objects, goost/kuznyechik/StCTREncrypted.h:28,
goost/kuznyechik/Imit.h:21) and the iterators it has got so far. Iterators hold only a `weak_ptr` to
the stream (goost/kuznyechik/StMemory.cpp:29). -/
structure Session where
  owners : Nat
  iters : List ItMemory

/-- What a program can do with them. Iterators are numbered in the order in which they were got. The calls
are those of goost/kuznyechik/StMemory.cpp:45-80. -/
inductive SessionOp where
  /-- copy a `shared_ptr` to the stream -/
  | copy
  /-- destroy a `shared_ptr` to the stream -/
  | drop
  /-- call `iter()` on the stream -/
  | iter
  /-- call `next()` on an iterator -/
  | next (k : Nat)
  /-- call `last()` on an iterator -/
  | last (k : Nat)
  /-- call `value()` on an iterator -/
  | value (k : Nat)
  deriving DecidableEq, Repr

/-- One operation. The stream exists as long as there is a `shared_ptr` to it. Operations on things that
the program does not have do nothing. (goost/kuznyechik/StMemory.cpp:45-86.) -/
def Session.step (data : List W64) (s : Session) : SessionOp → Exec Session
  | .copy => .ok (if s.owners = 0 then s else { s with owners := s.owners + 1 })
  | .drop => .ok { s with owners := s.owners - 1 }
  | .iter =>
    if s.owners = 0 then .ok s
    else do
      let i ← StMemory.iter data
      return { s with iters := s.iters ++ i.toList }
  | .next k =>
    match s.iters[k]? with
    | none => .ok s
    | some i => do
      let n ← (ItMemory.impl data (s.owners != 0)).next i
      return { s with iters := s.iters ++ n.toList }
  | .last k =>
    match s.iters[k]? with
    | none => .ok s
    | some i => do
      let _ ← (ItMemory.impl data (s.owners != 0)).last i
      return s
  | .value k =>
    match s.iters[k]? with
    | none => .ok s
    | some i => do
      let _ ← (ItMemory.impl data (s.owners != 0)).value i
      return s

/-- A history of operations. The program is the user's; the calls are those of
goost/kuznyechik/StMemory.cpp:45-80. -/
def Session.run (data : List W64) : Session → List SessionOp → Exec Session
  | s, [] => .ok s
  | s, op :: ops => do
    let s ← s.step data op
    Session.run data s ops

/-- `ItCTREncrypted` (goost/kuznyechik/StCTREncrypted.cpp:16-33). The wrapped pointer may be
null. -/
structure ItCTR (ι : Type) where
  iter : Option ι
  key : Key
  ctr : Blk

/-- The methods of `ItCTREncrypted` (goost/kuznyechik/StCTREncrypted.cpp:43-61). -/
def ItCTR.impl {ι : Type} (m : Machine) (it : IterImpl ι) : IterImpl (ItCTR ι) where
  value i := do
    let p ← deref i.iter it.value
    let g ← (BlkEncrypted i.ctr i.key).value m
    return (p.1 ^^^ g.1, p.2 ^^^ g.2)
  last i := deref i.iter it.last
  size i := deref i.iter it.size
  next i := do
    let n ← deref i.iter it.next
    return some ⟨n, i.key, .incremented i.ctr⟩

/-- `StCTREncrypted::iter` (goost/kuznyechik/StCTREncrypted.cpp:71-74), given the outcome of
`iter()` of the wrapped stream. -/
def StCTREncrypted.iter {ι : Type} (streamIter : Exec (Option ι)) (key : Key) (iv : W64) :
    Exec (Option (ItCTR ι)) := do
  let i ← streamIter
  return some ⟨i, key, .raw 0 iv⟩

/-- The loop of `Imit::value` (goost/kuznyechik/Imit.cpp:56-62) with a budget of iterations;
returns `block` and `iter`. -/
def Imit.loop {ι : Type} (it : IterImpl ι) (key : Key) :
    Nat → Option ι → Blk → Exec (Blk × Option ι)
  | 0, _, _ => .diverge
  | fuel + 1, iter, block => do
    let l ← deref iter it.last
    if !l then do
      let v ← deref iter it.value
      let block := BlkEncrypted (.xored block (BlkRaw.ofPair v)) key
      let iter ← deref iter it.next
      Imit.loop it key fuel iter block
    else
      return (block, iter)

/-- The block that `Imit::value` finally evaluates (goost/kuznyechik/Imit.cpp:53-78). -/
def Imit.build {ι : Type} (it : IterImpl ι) (streamIter : Exec (Option ι)) (fuel : Nat)
    (key : Key) : Exec Blk := do
  let iter ← streamIter
  let (block, iter) ← Imit.loop it key fuel iter BlkRaw.zero
  let B := BlkRaw.ofU64 0x87
  let K1 := Blk.xoredIfHighBit (BlkEncrypted BlkRaw.zero key) B
  let v ← deref iter it.value
  let xblock := Blk.xored block (BlkRaw.ofPair v)
  let size ← deref iter it.size
  if size = 16 then
    return BlkEncrypted (.xored xblock K1) key
  else
    return BlkEncrypted (.xored xblock (.xoredIfHighBit K1 B)) key

/-- `Imit::value` (goost/kuznyechik/Imit.cpp:51-79). -/
def Imit.value {ι : Type} (m : Machine) (it : IterImpl ι) (streamIter : Exec (Option ι))
    (fuel : Nat) (key : Key) : Exec (W64 × W64) := do
  let b ← Imit.build it streamIter fuel key
  b.value m

end Goost.Kuz
