import Verif.Model.Concurrent
/-
Threads that share a key on a machine that may run out of memory: the accesses to shared memory of Model/Concurrent,
and the requests for memory of Model/ScarceKuz and Model/ScarceLive. The first request that is refused ends the call,
so that a call is given the number of requests that are granted.
-/
namespace Goost.Conc

variable {Loc Val α β : Type}

/-- A program over shared memory that is given a number of requests for memory and returns what is left. Notation for
goost/kuznyechik/BlkCached.cpp:18-25 and goost/magma/KeyCachedData.cpp:16-25. -/
abbrev ScarceProg (Loc Val α : Type) := Nat → MemProg Loc Val (Exec (α × Nat))

namespace ScarceProg

/-- `return`. Notation, as `ScarceProg` (goost/kuznyechik/BlkCached.cpp:18-25). -/
def result (r : Exec α) : ScarceProg Loc Val α := fun n => .ret (r >>= fun a => .ok (a, n))

/-- `;` and exceptions. Notation, as `ScarceProg` (goost/kuznyechik/BlkCached.cpp:18-25). -/
def andThen (p : ScarceProg Loc Val α) (f : α → ScarceProg Loc Val β) : ScarceProg Loc Val β :=
  fun n => (p n).bindE fun r => f r.1 r.2

/-- A request for memory: `make_shared`, `make_unique`, `string(...)`; without memory `bad_alloc` is thrown. E.g.
goost/kuznyechik/BlkL.cpp:17-29, goost/magma/KeyDataString.cpp:28. -/
def request (p : ScarceProg Loc Val α) : ScarceProg Loc Val α
  | 0 => .ret (.throw .badAlloc)
  | n + 1 => p n

/-- An access to shared memory. The accesses of goost/kuznyechik/BlkCached.cpp:20-24 and
goost/magma/KeyCachedData.cpp:16-25. -/
def access (o : MemOp Loc Val) (k : Val → ScarceProg Loc Val α) : ScarceProg Loc Val α :=
  fun n => .op o fun x => k x n

/-- A program that needs no memory. Notation, as `ScarceProg` (goost/kuznyechik/BlkCached.cpp:24). -/
def plain (p : MemProg Loc Val (Exec α)) : ScarceProg Loc Val α := fun n => p.bindE fun a => .ret (.ok (a, n))

end ScarceProg
open ScarceProg

/-- `Block::value()`: the accesses are those of `evalBlk`, the requests for memory those of `ScarceKuz.Blk.value`
(e.g. goost/kuznyechik/BlkL.cpp:17-29, goost/kuznyechik/BlkIterKey.cpp:23-47, goost/kuznyechik/Key.cpp:37-57,
goost/kuznyechik/BlkCached.cpp:18-25, goost/kuznyechik/Imit.cpp:29-37). -/
def evalBlkScarce (m : Machine) : Kuz.Blk → ScarceProg CacheLoc W64 (W64 × W64)
  | .raw low high => request (result (.ok (low, high)))
  | .str s => request (result ((Kuz.Blk.str s).value m))
  | .xored a b => request <| (evalBlkScarce m a).andThen fun va => (evalBlkScarce m b).andThen fun vb =>
      result (.ok (va.1 ^^^ vb.1, va.2 ^^^ vb.2))
  | .blkS b => request <| (evalBlkScarce m b).andThen fun v => result (Kuz.sValue v)
  | .blkR b => request <| (evalBlkScarce m b).andThen fun v => result (Kuz.rValue m v)
  | .incremented b => request <| (evalBlkScarce m b).andThen fun v => result (.ok (Kuz.incValue v))
  | .shifted b n => request <| (evalBlkScarce m b).andThen fun v => result (Kuz.shiftValue v n)
  | .xoredIfHighBit a b => request <| (evalBlkScarce m a).andThen fun va => request <|
      if va.2 &&& 0x8000000000000000 = 0 then
        (evalBlkScarce m a).andThen fun va' => result (Kuz.shiftValue va' 1)
      else
        (evalBlkScarce m a).andThen fun va' =>
          (result (Kuz.shiftValue va' 1)).andThen fun s =>
            (evalBlkScarce m b).andThen fun vb => result (.ok (s.1 ^^^ vb.1, s.2 ^^^ vb.2))
  | .cached id b =>
    access (.load (.loaded id)) fun loaded =>
      if loaded ≠ 0 then plain (readState id)
      else
        (evalBlkScarce m b).andThen fun v =>
          access (.store (.low id) v.1) fun _ =>
            access (.store (.high id) v.2) fun _ =>
              access (.store (.loaded id) 1) fun _ => plain (readState id)
  | .user v => request (result v)

/-- A call of `value()` with memory for `n` requests (goost/kuznyechik/Block.h); what is left is of no interest. -/
def valueWith (m : Machine) (r : Nat × Kuz.Blk) : MemProg CacheLoc W64 (Exec (W64 × W64)) :=
  (evalBlkScarce m r.2 r.1).bindE fun v => .ret (.ok v.1)

/-- The loop of `KeyCachedData::key` (goost/magma/KeyCachedData.cpp:19-21) with `n` iterations left, at index `i`:
`KeyDataString::key` needs memory (goost/magma/KeyDataString.cpp:18-31). -/
def fillKeyScarce (kd : Magma.KeyData) : Nat → Nat → ScarceProg KeyLoc W32 Unit
  | 0, _ => result (.ok ())
  | n + 1, i => request <| (result (kd i)).andThen fun k =>
      access (.store (.key i) k) fun _ => fillKeyScarce kd n (i + 1)

/-- `KeyCachedData::key` (goost/magma/KeyCachedData.cpp:16-25). -/
def evalKeyScarce (kd : Magma.KeyData) (index : Int) : ScarceProg KeyLoc W32 W32 :=
  access (.load .cached) fun cached =>
    if cached ≠ 0 then plain (readKey index)
    else (fillKeyScarce kd 8 0).andThen fun _ => access (.store .cached 1) fun _ => plain (readKey index)

/-- A call of `key()` with memory for `n` requests (goost/magma/KeyData.h). -/
def keyWith (kd : Magma.KeyData) (r : Nat × Int) : MemProg KeyLoc W32 (Exec W32) :=
  (evalKeyScarce kd r.2 r.1).bindE fun v => .ret (.ok v.1)

/-- A computation that asks a key for words, on a machine that may run out of memory: before question number `i` memory
for a block is refused (`memory i = none`; goost/magma/BlkEncrypted.cpp:14-38 makes blocks), or the key is asked while
it has memory for a number of requests. -/
def givenMemory (memory : Nat → Option Nat) : Nat → KeyProg α → Prog (Nat × Int) (Exec W32) (Exec α)
  | _, .ret a => .ret a
  | i, .op o k =>
    match memory i with
    | none => .ret (.throw .badAlloc)
    | some n => .op (n, o) fun r => givenMemory memory (i + 1) (k r)

end Goost.Conc
