import Verif.Model.Concurrent
/-
Threads on a machine with store buffers: a store becomes visible to the other threads some time after it was
made. The programs are those of Model/Concurrent.
-/
namespace Goost.Conc

/-- Any number of threads, each with a buffer of stores that the others do not see yet (oldest first), and the
shared memory. The user's threads; /repo has no code for them (goost/kuznyechik/BlkCached.cpp:18-25 and
goost/magma/KeyCachedData.cpp:16-25 are what they run). -/
structure Buffered (Loc Val α : Type) where
  threads : Nat → MemProg Loc Val α
  buffers : Nat → List (Loc × Val)
  mem : Loc → Val

/-- What happens next: thread `t` makes its next access, or store number `i` of its buffer becomes visible. Of the
machine that runs goost/kuznyechik/BlkCached.cpp:18-25; no code of /repo. -/
inductive Event where
  | turn (t : Nat)
  | leave (t i : Nat)
  deriving DecidableEq, Repr

namespace Buffered
variable {Loc Val α : Type} [DecidableEq Loc]

/-- The memory after one store. A store of goost/kuznyechik/BlkCached.cpp:21-22 or of
goost/magma/KeyCachedData.cpp:20-22. -/
def put (mem : Loc → Val) (e : Loc × Val) : Loc → Val := fun l => if l = e.1 then e.2 else mem l

/-- What a thread sees: its own stores over the shared memory. Read in goost/kuznyechik/BlkCached.cpp:20, 24 and
goost/magma/KeyCachedData.cpp:18, 24. -/
def seen (mem : Loc → Val) : List (Loc × Val) → Loc → Val
  | [] => mem
  | e :: es => seen (put mem e) es

/-- One event. A thread loads what it sees; a store goes to the end of its buffer. A store can become visible before
older ones of the same thread, but not before older ones to the same location. The accesses are those of
goost/kuznyechik/BlkCached.cpp:20-24 and of goost/magma/KeyCachedData.cpp:16-25. -/
def step (s : Buffered Loc Val α) : Event → Buffered Loc Val α
  | .turn t =>
    match s.threads t with
    | .ret _ => s
    | .op (.load l) k =>
      { s with threads := fun u => if u = t then k (seen s.mem (s.buffers t) l) else s.threads u }
    | .op (.store l v) k =>
      { s with
        threads := fun u => if u = t then k v else s.threads u
        buffers := fun u => if u = t then s.buffers t ++ [(l, v)] else s.buffers u }
  | .leave t i =>
    match (s.buffers t)[i]? with
    | none => s
    | some e =>
      if ((s.buffers t).take i).any (fun e' => e'.1 = e.1) then s
      else
        { s with
          buffers := fun u => if u = t then (s.buffers t).eraseIdx i else s.buffers u
          mem := put s.mem e }

/-- The events, one after the other. As `step` (goost/kuznyechik/BlkCached.cpp:20-24). -/
def run (s : Buffered Loc Val α) (events : List Event) : Buffered Loc Val α := events.foldl step s

/-- The start: nothing is in the buffers and the memory is zero. Fresh caches: goost/kuznyechik/BlkCached.cpp:13-14,
goost/magma/KeyCachedData.cpp:12. -/
def start [OfNat Val 0] (threads : Nat → MemProg Loc Val α) : Buffered Loc Val α := ⟨threads, fun _ => [], fun _ => 0⟩

end Buffered
end Goost.Conc
