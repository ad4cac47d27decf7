import Verif.Model.KuzStream
/-
Streams of words that no `shared_ptr` owns: variables, members of other objects, objects of a `unique_ptr`. And those
that a `shared_ptr` has taken over from a `unique_ptr` to the base class.
-/
namespace Goost.Bare
open Goost.Kuz

/-- How an `StMemory` object is kept: no `shared_ptr` has ever owned it, `others + 1` `shared_ptr`s own it, or it has been
destroyed. The base class `enable_shared_from_this` (goost/kuznyechik/StMemory.h:18) remembers the `shared_ptr`s if the
first was made by `make_shared` or from a pointer to `StMemory` (`shared`). It is not told of a `shared_ptr` that was made
from a pointer to the base class `Stream`, which does not have `enable_shared_from_this`
(goost/kuznyechik/Stream.h:15-20; `hidden`). -/
inductive Keeper where
  | bare
  | hidden (others : Nat)
  | shared (others : Nat)
  | gone
  deriving DecidableEq, Repr

/-- The `StMemory` objects that a program has made (goost/kuznyechik/StMemory.h:16-28), how they are kept, and the
iterators that it has got, each with the number of its stream. Simplification: iterators are not destroyed. -/
structure State where
  streams : List (List W64 × Keeper)
  iters : List (Nat × ItMemory)
  deriving DecidableEq, Repr

/-- What a program can do. Numbers are those of streams or of iterators. The calls are those of
goost/kuznyechik/StMemory.cpp:45-86. -/
inductive Op where
  /-- make a variable, or an object of a `unique_ptr` -/
  | bare (data : List W64)
  /-- `make_shared` -/
  | makeShared (data : List W64)
  /-- copy the object into a new variable -/
  | duplicate (k : Nat)
  /-- make a `shared_ptr` that takes over an object that had none -/
  | adopt (k : Nat)
  /-- make a `shared_ptr` from a pointer to `Stream`, for example from a `unique_ptr<const Stream>`, to an object that had
  none -/
  | hide (k : Nat)
  /-- copy a `shared_ptr` -/
  | copy (k : Nat)
  /-- destroy a `shared_ptr`, or the variable -/
  | drop (k : Nat)
  /-- `next_iter(offset)`; `iter()` is `next_iter(0)` -/
  | nextIter (k offset : Nat)
  /-- `next()` of an iterator -/
  | next (i : Nat)
  deriving DecidableEq, Repr

/-- `shared_from_this()` (C++ library), called in goost/kuznyechik/StMemory.cpp:82. -/
def sharedFromThis : Keeper → Exec Unit
  | .bare => .throw .badWeakPtr
  | .hidden _ => .throw .badWeakPtr
  | .shared _ => .ok ()
  | .gone => .ub .useAfterFree

/-- `StMemory::next_iter` (goost/kuznyechik/StMemory.cpp:76-86). The order in which the arguments of `make_shared` are
evaluated is not specified: `thisFirst` says whether `shared_from_this()` comes before the block. -/
def nextIter (thisFirst : Bool) (data : List W64) (keeper : Keeper) (offset : Nat) : Exec (Option ItMemory) :=
  if keeper = .gone then .ub .useAfterFree
  else if data.length ≤ offset / 8 then .ok none
  else if thisFirst then do
    sharedFromThis keeper
    StMemory.nextIter data offset
  else do
    let r ← StMemory.nextIter data offset
    sharedFromThis keeper
    return r

/-- One operation. Operations on what does not exist do nothing, and so do those that would not compile or make no
sense: a `shared_ptr` for an object that has one already, or a copy of a `shared_ptr` to an object that has none. A
copied object is not owned by the `shared_ptr`s of the original (`enable_shared_from_this`, C++ library). The calls are
those of goost/kuznyechik/StMemory.cpp:60-86. -/
def State.step (thisFirst : Bool) (s : State) : Op → Exec State
  | .bare data => .ok { s with streams := s.streams ++ [(data, .bare)] }
  | .makeShared data => .ok { s with streams := s.streams ++ [(data, .shared 0)] }
  | .duplicate k =>
    match s.streams[k]? with
    | none => .ok s
    | some (_, .gone) => .ub .useAfterFree
    | some (data, _) => .ok { s with streams := s.streams ++ [(data, .bare)] }
  | .adopt k =>
    match s.streams[k]? with
    | some (data, .bare) => .ok { s with streams := s.streams.set k (data, .shared 0) }
    | _ => .ok s
  | .hide k =>
    match s.streams[k]? with
    | some (data, .bare) => .ok { s with streams := s.streams.set k (data, .hidden 0) }
    | _ => .ok s
  | .copy k =>
    match s.streams[k]? with
    | some (data, .hidden n) => .ok { s with streams := s.streams.set k (data, .hidden (n + 1)) }
    | some (data, .shared n) => .ok { s with streams := s.streams.set k (data, .shared (n + 1)) }
    | _ => .ok s
  | .drop k =>
    match s.streams[k]? with
    | some (data, .bare) => .ok { s with streams := s.streams.set k (data, .gone) }
    | some (data, .hidden 0) => .ok { s with streams := s.streams.set k (data, .gone) }
    | some (data, .hidden (n + 1)) => .ok { s with streams := s.streams.set k (data, .hidden n) }
    | some (data, .shared 0) => .ok { s with streams := s.streams.set k (data, .gone) }
    | some (data, .shared (n + 1)) => .ok { s with streams := s.streams.set k (data, .shared n) }
    | _ => .ok s
  | .nextIter k offset =>
    match s.streams[k]? with
    | none => .ok s
    | some (data, keeper) => do
      let r ← Bare.nextIter thisFirst data keeper offset
      return { s with iters := s.iters ++ (r.map fun i => (k, i)).toList }
  | .next i =>
    match s.iters[i]? with
    | none => .ok s
    | some (k, it) =>
      match s.streams[k]? with
      | some (data, .shared n) => do
        let r ← Bare.nextIter thisFirst data (.shared n) (it.offset + 16)
        return { s with iters := s.iters ++ (r.map fun i => (k, i)).toList }
      | _ => .ub .nullDeref

/-- A history of operations. The program catches exceptions: an operation that throws changes nothing. Returns the
exceptions as well. The user's program; the calls are those of goost/kuznyechik/StMemory.cpp:60-86. -/
def State.run (thisFirst : Bool) : State → List Op → Exec (State × List (Op × Exn))
  | s, [] => .ok (s, [])
  | s, op :: ops =>
    match s.step thisFirst op with
    | .ok s => State.run thisFirst s ops
    | .throw e => do
      let (t, es) ← State.run thisFirst s ops
      return (t, (op, e) :: es)
    | .ub u => .ub u
    | .diverge => .diverge

/-- Nothing made yet. The user's program, as `State.run` (goost/kuznyechik/StMemory.cpp:66-69). -/
def State.empty : State := ⟨[], []⟩

end Goost.Bare
