import Verif.Model.MagmaBlock
import Verif.Model.Kuznyechik
/-
Threads that run whole programs over shared keys: each thread is a program that makes one load or
store of shared memory at a time, the threads are interleaved in any order (sequentially consistent
memory).
-/
namespace Goost.Conc

/-- A program that makes requests `Op`, gets answers `Res` and returns an `α`. What it does next may
depend on all answers. This models the C++ control flow, not a file of /repo. Notation, no code of /repo:
the calls of goost/kuznyechik/BlkCached.cpp:18-25 and goost/magma/KeyCachedData.cpp:16-25 are written with
it below. -/
inductive Prog (Op Res α : Type) where
  | ret (a : α)
  | op (o : Op) (k : Res → Prog Op Res α)

namespace Prog
variable {Op Res Op' Res' α β : Type}

/-- Sequence of two programs. Notation: `;` of C++ in goost/kuznyechik/BlkCached.cpp:18-25. -/
def bind : Prog Op Res α → (α → Prog Op Res β) → Prog Op Res β
  | ret a, f => f a
  | op o k, f => op o fun r => (k r).bind f

/-- Sequence of two programs, the first of which may fail: a failure ends the whole. Notation: `;` of C++
and exceptions in goost/kuznyechik/BlkCached.cpp:18-25. -/
def bindE (p : Prog Op Res (Exec α)) (f : α → Prog Op Res (Exec β)) : Prog Op Res (Exec β) :=
  p.bind fun r =>
    match r with
    | .ok a => f a
    | .throw e => ret (.throw e)
    | .ub u => ret (.ub u)
    | .diverge => ret .diverge

/-- Carries out every request by a program over other requests. Notation: a virtual call, `block->value()`
in goost/kuznyechik/BlkCached.cpp:21. -/
def handle (h : Op → Prog Op' Res' Res) : Prog Op Res α → Prog Op' Res' α
  | ret a => ret a
  | op o k => (h o).bind fun r => (k r).handle h

end Prog

/-- Accesses to shared memory. The fields are those of goost/kuznyechik/BlkCached.cpp:27-28 and of
goost/magma/KeyCachedData.cpp:16-25. -/
inductive MemOp (Loc Val : Type) where
  | load (l : Loc)
  | store (l : Loc) (v : Val)

/-- A program over shared memory. The answer to a load is the value, the answer to a store is not
used. Used for goost/kuznyechik/BlkCached.cpp:18-25. -/
abbrev MemProg (Loc Val α : Type) := Prog (MemOp Loc Val) Val α

/-- Any number of threads and the shared memory. The user's threads; /repo has no code for them
(goost/kuznyechik/BlkCached.cpp:18-25 is what they run). -/
structure Sys (Loc Val α : Type) where
  threads : Nat → MemProg Loc Val α
  mem : Loc → Val

namespace Sys
variable {Loc Val α : Type} [DecidableEq Loc]

/-- Thread `t` makes its next access; a thread that has returned does nothing. An access of
goost/kuznyechik/BlkCached.cpp:20-24 or of goost/magma/KeyCachedData.cpp:16-25. -/
def step (s : Sys Loc Val α) (t : Nat) : Sys Loc Val α :=
  match s.threads t with
  | .ret _ => s
  | .op (.load l) k => ⟨fun u => if u = t then k (s.mem l) else s.threads u, s.mem⟩
  | .op (.store l v) k =>
    ⟨fun u => if u = t then k v else s.threads u, fun l' => if l' = l then v else s.mem l'⟩

/-- The threads make accesses in the order of the schedule. The user's threads, as `Sys`
(goost/kuznyechik/BlkCached.cpp:18-25). -/
def run (s : Sys Loc Val α) (schedule : List Nat) : Sys Loc Val α := schedule.foldl step s

/-- The location of the next access of a thread, and whether it is a store. An access of
goost/kuznyechik/BlkCached.cpp:20-24 or of goost/magma/KeyCachedData.cpp:16-25. -/
def next (p : MemProg Loc Val α) : Option (Loc × Bool) :=
  match p with
  | .ret _ => none
  | .op (.load l) _ => some (l, false)
  | .op (.store l _) _ => some (l, true)

/-- Two different threads are about to access the same location, and one of them stores to it. What ISO
C++ calls a data race, on the fields of goost/kuznyechik/BlkCached.cpp:27-28. -/
def Race (s : Sys Loc Val α) : Prop :=
  ∃ t u l w1 w2, t ≠ u ∧ next (s.threads t) = some (l, w1) ∧ next (s.threads u) = some (l, w2) ∧
    (w1 = true ∨ w2 = true)

end Sys

/-! ### kuznyechik -/

/-- The fields of `BlkCached::BlockCache` (goost/kuznyechik/BlkCached.cpp:27-28), by identity of the
cache object. A `bool` is stored as 0 or 1. -/
inductive CacheLoc where
  | loaded (id : Nat)
  | low (id : Nat)
  | high (id : Nat)
  deriving DecidableEq, Repr

/-- `return state;` (goost/kuznyechik/BlkCached.cpp:24). -/
def readState (id : Nat) : MemProg CacheLoc W64 (Exec (W64 × W64)) :=
  .op (.load (.low id)) fun low => .op (.load (.high id)) fun high => .ret (.ok (low, high))

/-- `Block::value()` (see `Kuz.Blk.value` and `Kuz.Blk.valueS` for the files and lines), with every
access to a field of a cache as a step of its own. The accesses are those of
goost/kuznyechik/BlkCached.cpp:20-24. -/
def evalBlk (m : Machine) : Kuz.Blk → MemProg CacheLoc W64 (Exec (W64 × W64))
  | .raw low high => .ret (.ok (low, high))
  | .str s => .ret ((Kuz.Blk.str s).value m)
  | .xored a b => (evalBlk m a).bindE fun va => (evalBlk m b).bindE fun vb =>
      .ret (.ok (va.1 ^^^ vb.1, va.2 ^^^ vb.2))
  | .blkS b => (evalBlk m b).bindE fun v => .ret (Kuz.sValue v)
  | .blkR b => (evalBlk m b).bindE fun v => .ret (Kuz.rValue m v)
  | .incremented b => (evalBlk m b).bindE fun v => .ret (.ok (Kuz.incValue v))
  | .shifted b n => (evalBlk m b).bindE fun v => .ret (Kuz.shiftValue v n)
  | .xoredIfHighBit a b => (evalBlk m a).bindE fun va =>
      if va.2 &&& 0x8000000000000000 = 0 then
        (evalBlk m a).bindE fun va' => .ret (Kuz.shiftValue va' 1)
      else
        (evalBlk m a).bindE fun va' =>
          (Prog.ret (Kuz.shiftValue va' 1)).bindE fun s =>
            (evalBlk m b).bindE fun vb => .ret (.ok (s.1 ^^^ vb.1, s.2 ^^^ vb.2))
  | .cached id b =>
    .op (.load (.loaded id)) fun loaded =>
      if loaded ≠ 0 then readState id
      else
        (evalBlk m b).bindE fun v =>
          .op (.store (.low id) v.1) fun _ =>
            .op (.store (.high id) v.2) fun _ =>
              .op (.store (.loaded id) 1) fun _ => readState id
  | .user v => .ret v

/-! ### magma -/

/-- The fields of `CachedData` (goost/magma/KeyCachedData.h:18-21). A `bool` is stored as 0 or 1. -/
inductive KeyLoc where
  | cached
  | key (i : Nat)
  deriving DecidableEq, Repr

/-- `return cache->key[index];` (goost/magma/KeyCachedData.cpp:24). -/
def readKey (index : Int) : MemProg KeyLoc W32 (Exec W32) :=
  if 0 ≤ index ∧ index < 8 then .op (.load (.key index.toNat)) fun k => .ret (.ok k)
  else .ret (.ub .oobRead)

/-- The loop of `KeyCachedData::key` (goost/magma/KeyCachedData.cpp:19-21) with `n` iterations left,
at index `i`. -/
def fillKey (kd : Magma.KeyData) : Nat → Nat → MemProg KeyLoc W32 (Exec Unit)
  | 0, _ => .ret (.ok ())
  | n + 1, i =>
    match kd i with
    | .ok k => .op (.store (.key i) k) fun _ => fillKey kd n (i + 1)
    | .throw e => .ret (.throw e)
    | .ub u => .ret (.ub u)
    | .diverge => .ret .diverge

/-- `KeyCachedData::key` (goost/magma/KeyCachedData.cpp:16-25) over a wrapped `KeyData` that always
gives the same answers (such as `KeyDataString`, which has no mutable state). -/
def evalKey (kd : Magma.KeyData) (index : Int) : MemProg KeyLoc W32 (Exec W32) :=
  .op (.load .cached) fun cached =>
    if cached ≠ 0 then readKey index
    else (fillKey kd 8 0).bindE fun _ => .op (.store .cached 1) fun _ => readKey index

/-- A program that asks a `KeyData` for words. `KeyData::key` (goost/magma/KeyData.h). -/
abbrev KeyProg (α : Type) := Prog Int (Exec W32) (Exec α)

/-- `LazyKey::transform` (goost/magma/LazyKey.cpp:40-43) as a program that asks for its key word. -/
def askTransform (sbox : Magma.Sbox) (v : W32) (index : Int) : KeyProg W32 :=
  .op index fun k => .ret (k >>= fun k => sbox (k + v))

/-- `BlkForwarded::value` and `BlkBackwarded::value` (goost/magma/BlkForwarded.cpp:21-33,
goost/magma/BlkBackwarded.cpp:20-32): the eight rounds use the subkeys in the given order; after each
one the roles of the halves are exchanged. -/
def askRounds (sbox : Magma.Sbox) : List Int → W32 × W32 → KeyProg (W32 × W32)
  | [], v => .ret (.ok v)
  | i :: is, (a, b) => (askTransform sbox a i).bindE fun t => askRounds sbox is (b ^^^ t, a)

/-- `BlkEncrypted::value` over a `BlkRaw` (goost/magma/BlkEncrypted.cpp:14-38). -/
def askEncrypt (sbox : Magma.Sbox) (v : W32 × W32) : KeyProg (W32 × W32) :=
  (askRounds sbox [0, 1, 2, 3, 4, 5, 6, 7] v).bindE fun v =>
    (askRounds sbox [0, 1, 2, 3, 4, 5, 6, 7] v).bindE fun v =>
      (askRounds sbox [0, 1, 2, 3, 4, 5, 6, 7] v).bindE fun v =>
        (askRounds sbox [7, 6, 5, 4, 3, 2, 1, 0] v).bindE fun v => .ret (.ok (v.2, v.1))

/-- `BlkDecrypted::value` over a `BlkRaw` (goost/magma/BlkDecrypted.cpp:14-38). -/
def askDecrypt (sbox : Magma.Sbox) (v : W32 × W32) : KeyProg (W32 × W32) :=
  (askRounds sbox [0, 1, 2, 3, 4, 5, 6, 7] v).bindE fun v =>
    (askRounds sbox [7, 6, 5, 4, 3, 2, 1, 0] v).bindE fun v =>
      (askRounds sbox [7, 6, 5, 4, 3, 2, 1, 0] v).bindE fun v =>
        (askRounds sbox [7, 6, 5, 4, 3, 2, 1, 0] v).bindE fun v => .ret (.ok (v.2, v.1))

end Goost.Conc
