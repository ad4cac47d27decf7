import Verif.Model.Memory
/-
Several threads that share objects: each of them copies, passes on and destroys pointers, in steps as small as the
operations on the reference counts, which are atomic.
-/
namespace Goost.Share
open Goost.Mem

/-- A thread: its pointer variables, and the pointers that it is about to destroy: members of objects whose
destructors it is running. The user's program; destructors: e.g. of the members goost/kuznyechik/StMemory.cpp:29-31. -/
structure Thread where
  held : List Nat
  pending : List Nat
  deriving DecidableEq, Repr

/-- The objects with their reference counts and the threads. The user's program; the objects are those of
goost/magma, goost/gost89 and goost/kuznyechik, e.g. goost/kuznyechik/StMemory.cpp:60-86. -/
structure Sys where
  heap : Heap
  threads : List Thread
  deriving DecidableEq, Repr

/-- What a thread can do in one step. Numbers are numbers of its variables. Functions of goost are sequences of
these; e.g. `ItMemory::next` (goost/kuznyechik/StMemory.cpp:60-64) is `lock`, then `make`, `iterator` for
`next_iter` (goost/kuznyechik/StMemory.cpp:76-86), then `drop` of the local pointer. -/
inductive Act where
  /-- make an object (a block, key, sink, …) with the last `n` variables as members; they have been copied for it -/
  | make (n : Nat)
  /-- make a stream of words -/
  | stream (data : List W64)
  /-- make an iterator of the stream that variable `k` points to, with the last variable, a block, as member -/
  | iterator (k offset : Nat)
  /-- copy a variable -/
  | copy (k : Nat)
  /-- copy member `j` of the object that variable `k` points to -/
  | member (k j : Nat)
  /-- pass a variable on to thread `u` -/
  | give (k u : Nat)
  /-- destroy a variable -/
  | drop (k : Nat)
  /-- `weak_ptr::lock` of the stream in the iterator that variable `k` points to, and use of the result -/
  | lock (k : Nat)
  /-- use the object that variable `k` points to -/
  | use (k : Nat)
  deriving DecidableEq, Repr

/-- Copying a `shared_ptr` (C++ library): the count goes up by one, atomically. Undefined if the object has been
destroyed. E.g. in the constructor goost/kuznyechik/StMemory.cpp:37-43. -/
def acquire (h : Heap) (p : Nat) : Exec Heap :=
  if h.count p = 0 then .ub .useAfterFree else .ok (h.incr p)

/-- Destroying a `shared_ptr` (C++ library): the count goes down by one, atomically. The thread that takes it to 0
runs the destructor: the members of the object are what it has to destroy next. Undefined if the object has been
destroyed before. E.g. the members goost/kuznyechik/StMemory.cpp:29-31. -/
def destroy (h : Heap) (p : Nat) : Exec (Heap × List Nat) :=
  match h[p]? with
  | none => .ub .useAfterFree
  | some c =>
    if c.count = 0 then .ub .useAfterFree
    else .ok (h.modify p fun c => { c with count := c.count - 1 }, if c.count = 1 then c.obj.members else [])

/-- One step of thread `t`. A thread that is running destructors goes on with them; otherwise it does `a`. Steps
that make no sense (of a thread or variable that does not exist, on an object of the wrong class) do nothing. `lock`
dereferences null if the stream has been destroyed (goost/kuznyechik/StMemory.cpp:62-63). -/
def Sys.step (s : Sys) (t : Nat) (a : Act) : Exec Sys :=
  match s.threads[t]? with
  | none => .ok s
  | some th =>
    match th.pending with
    | p :: ps => do
      let (h, ms) ← destroy s.heap p
      return ⟨h, s.threads.set t { th with pending := ms ++ ps }⟩
    | [] =>
      match a with
      | .make n =>
        let i := th.held.length - n
        .ok ⟨s.heap ++ [⟨.other (th.held.drop i), 1⟩],
          s.threads.set t { th with held := th.held.take i ++ [s.heap.length] }⟩
      | .stream data =>
        .ok ⟨s.heap ++ [⟨.stMemory data, 1⟩], s.threads.set t { th with held := th.held ++ [s.heap.length] }⟩
      | .iterator k offset =>
        match th.held.dropLast[k]?, th.held.getLast? with
        | some p, some d => do
          match ← s.heap.load p with
          | .stMemory _ =>
            return ⟨s.heap ++ [⟨.itMemory p offset d, 1⟩],
              s.threads.set t { th with held := th.held.dropLast ++ [s.heap.length] }⟩
          | _ => return s
        | _, _ => .ok s
      | .copy k =>
        match th.held[k]? with
        | none => .ok s
        | some p => do
          let h ← acquire s.heap p
          return ⟨h, s.threads.set t { th with held := th.held ++ [p] }⟩
      | .member k j =>
        match th.held[k]? with
        | none => .ok s
        | some p => do
          let o ← s.heap.load p
          match o.members[j]? with
          | none => return s
          | some q => do
            let h ← acquire s.heap q
            return ⟨h, s.threads.set t { th with held := th.held ++ [q] }⟩
      | .give k u =>
        match th.held[k]?, s.threads[u]? with
        | some p, some uh =>
          if u = t then .ok s
          else .ok ⟨s.heap, (s.threads.set t { th with held := th.held.eraseIdx k }).set u
            { uh with held := uh.held ++ [p] }⟩
        | _, _ => .ok s
      | .drop k =>
        match th.held[k]? with
        | none => .ok s
        | some p => .ok ⟨s.heap, s.threads.set t ⟨th.held.eraseIdx k, [p]⟩⟩
      | .lock k =>
        match th.held[k]? with
        | none => .ok s
        | some p => do
          match ← s.heap.load p with
          | .itMemory q _ _ =>
            if s.heap.count q = 0 then .ub .nullDeref
            else return ⟨s.heap.incr q, s.threads.set t { th with held := th.held ++ [q] }⟩
          | _ => return s
      | .use k =>
        match th.held[k]? with
        | none => .ok s
        | some p => do
          let _ ← s.heap.load p
          return s

/-- A schedule: which thread takes the next step, and what it does if it is not running destructors. The user's
program (see `Act`; goost/kuznyechik/StMemory.cpp:60-86). -/
def Sys.run : Sys → List (Nat × Act) → Exec Sys
  | s, [] => .ok s
  | s, (t, a) :: l => do
    let s ← s.step t a
    Sys.run s l

/-- `n` threads, no objects. The user's program (goost/kuznyechik/StMemory.cpp:66-69). -/
def Sys.start (n : Nat) : Sys := ⟨[], List.replicate n ⟨[], []⟩⟩

end Goost.Share
