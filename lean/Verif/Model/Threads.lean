import Verif.Model.MagmaKey
import Verif.Model.Kuznyechik
/-
Threads calling a cached key at the same time: the individual loads and stores of the caches,
interleaved in any order (sequentially consistent memory).
-/
namespace Goost.Threads

/-- A program run by threads over a shared memory `M`: the local state of a thread is `L`, one step is
one access to the shared memory, `access` is that access (its location and whether it is a store).
A thread without an access is finished. Notation; the programs are goost/magma/KeyCachedData.cpp:16-25 and
goost/kuznyechik/BlkCached.cpp:18-25. -/
structure Program (L M Loc : Type) where
  step : L → M → L × M
  access : L → M → Option (Loc × Bool)

/-- The local states of all threads (any number of them) and the memory. The user's threads over
goost/kuznyechik/BlkCached.cpp:27-28. -/
structure State (L M : Type) where
  locals : Nat → L
  mem : M

variable {L M Loc : Type}

/-- Thread `t` makes one step. An access of goost/kuznyechik/BlkCached.cpp:20-24 or of
goost/magma/KeyCachedData.cpp:16-25. -/
def Program.run1 (P : Program L M Loc) (s : State L M) (t : Nat) : State L M :=
  let (l, m) := P.step (s.locals t) s.mem
  ⟨fun u => if u = t then l else s.locals u, m⟩

/-- The threads make steps in the order of the schedule. The user's threads in
goost/kuznyechik/BlkCached.cpp:18-25 or goost/magma/KeyCachedData.cpp:16-25. -/
def Program.run (P : Program L M Loc) (s : State L M) (schedule : List Nat) : State L M :=
  schedule.foldl P.run1 s

/-- Two different threads are about to access the same location, and one of them stores to it. What ISO
C++ calls a data race, on the fields of goost/kuznyechik/BlkCached.cpp:27-28. -/
def Program.Race (P : Program L M Loc) (s : State L M) : Prop :=
  ∃ t u loc w1 w2, t ≠ u ∧ P.access (s.locals t) s.mem = some (loc, w1) ∧
    P.access (s.locals u) s.mem = some (loc, w2) ∧ (w1 = true ∨ w2 = true)

/-! ### KeyCachedData -/

/-- Where a thread is in `KeyCachedData::key(index)` (goost/magma/KeyCachedData.cpp:16-25). -/
inductive KeyPc where
  /-- about to read `cache->cached` (line 18) -/
  | test
  /-- in the loop with this `i` (line 19), about to store `cache->key[i]` (line 20) or, when the loop
  is over, `cache->cached` (line 22) -/
  | fill (i : Nat)
  /-- about to read `cache->key[index]` (line 24) -/
  | load
  /-- returned or failed -/
  | done (r : Exec W32)
  deriving DecidableEq, Repr

/-- A thread calling `key(index)`. `KeyCachedData::key` (goost/magma/KeyCachedData.cpp:16-25). -/
structure KeyThread where
  index : Int
  pc : KeyPc
  deriving DecidableEq, Repr

/-- The fields of `CachedData` (goost/magma/KeyCachedData.h:18-21) as memory locations. -/
inductive KeyLoc where
  | cached
  | key (i : Int)
  deriving DecidableEq, Repr

/-- The steps of `KeyCachedData::key` (goost/magma/KeyCachedData.cpp:16-25) over a wrapped
`KeyData` that always gives the same answers (such as `KeyDataString`, which has no mutable state). -/
def keyProgram (kd : Magma.KeyData) : Program KeyThread Magma.CachedData KeyLoc where
  step l m :=
    match l.pc with
    | .test => (⟨l.index, if m.cached then .load else .fill 0⟩, m)
    | .fill i =>
      if i < m.key.length then
        match kd i with
        | .ok k => (⟨l.index, .fill (i + 1)⟩, { m with key := m.key.set i k })
        | .throw e => (⟨l.index, .done (.throw e)⟩, m)
        | .ub u => (⟨l.index, .done (.ub u)⟩, m)
        | .diverge => (⟨l.index, .done .diverge⟩, m)
      else (⟨l.index, .load⟩, { m with cached := true })
    | .load => (⟨l.index, .done (vgetI m.key l.index)⟩, m)
    | .done _ => (l, m)
  access l m :=
    match l.pc with
    | .test => some (.cached, false)
    | .fill i =>
      if i < m.key.length then
        match kd i with
        | .ok _ => some (.key i, true)
        | _ => none
      else some (.cached, true)
    | .load => some (.key l.index, false)
    | .done _ => none

/-- Threads about to call `key(index t)` on a fresh `KeyCachedData`.
(goost/magma/KeyCachedData.cpp:16-25.) -/
def keyStart (index : Nat → Int) : State KeyThread Magma.CachedData :=
  ⟨fun t => ⟨index t, .test⟩, {}⟩

/-! ### BlkCached -/

/-- Where a thread is in `BlkCached::BlockCache::value()` (goost/kuznyechik/BlkCached.cpp:18-25). -/
inductive BlkPc where
  /-- about to read `loaded` (line 20) -/
  | test
  /-- about to store `state.first` (line 21) -/
  | store1
  /-- about to store `state.second` (line 21) -/
  | store2
  /-- about to store `loaded` (line 22) -/
  | mark
  /-- about to read `state.first` (line 24) -/
  | load1
  /-- about to read `state.second` (line 24), having read `state.first` -/
  | load2 (low : W64)
  /-- returned or failed -/
  | done (r : Exec (W64 × W64))
  deriving DecidableEq, Repr

/-- The fields of `BlockCache` (goost/kuznyechik/BlkCached.cpp:27-28). -/
structure BlkMem where
  loaded : Bool := false
  low : W64 := 0
  high : W64 := 0
  deriving DecidableEq, Repr

/-- The same fields as memory locations. goost/kuznyechik/BlkCached.cpp:27-28. -/
inductive BlkLoc where
  | loaded | low | high
  deriving DecidableEq, Repr

/-- The steps of `BlkCached::value` (goost/kuznyechik/BlkCached.cpp:18-25, 37-40) over a block whose
evaluation has the outcome `v` (accesses to the caches inside that block are not modelled). -/
def blkProgram (v : Exec (W64 × W64)) : Program BlkPc BlkMem BlkLoc where
  step l m :=
    match l with
    | .test => (if m.loaded then .load1 else
        match v with
        | .ok _ => .store1
        | r => .done r, m)
    | .store1 =>
      match v with
      | .ok v => (.store2, { m with low := v.1 })
      | r => (.done r, m)
    | .store2 =>
      match v with
      | .ok v => (.mark, { m with high := v.2 })
      | r => (.done r, m)
    | .mark => (.load1, { m with loaded := true })
    | .load1 => (.load2 m.low, m)
    | .load2 low => (.done (.ok (low, m.high)), m)
    | .done r => (.done r, m)
  access l _ :=
    match l with
    | .test => some (.loaded, false)
    | .store1 => some (.low, true)
    | .store2 => some (.high, true)
    | .mark => some (.loaded, true)
    | .load1 => some (.low, false)
    | .load2 _ => some (.high, false)
    | .done _ => none

/-- Threads about to call `value()` on a fresh `BlkCached`. (goost/kuznyechik/BlkCached.cpp:32-35.) -/
def blkStart : State BlkPc BlkMem := ⟨fun _ => .test, {}⟩

end Goost.Threads
