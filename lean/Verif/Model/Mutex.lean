import Verif.Model.Concurrent
/-
Threads on a processor that may answer a load with an old value, with and without a mutex around every use of a
shared key. The programs are those of Model/Concurrent.

Simplification: a thread makes its accesses in the order of the program, and no load is answered with a value that is
stored later.
-/
namespace Goost.Conc

/-- Shared memory that remembers the past: the values that every location has had (number 0 is the first one, number
`count l` the last), and for every thread the number of the oldest value that it can still be given. The memory of the
machine that runs goost/kuznyechik/BlkCached.cpp:18-25 and goost/magma/KeyCachedData.cpp:16-25; no code of /repo. -/
structure History (Loc Val : Type) where
  value : Loc → Nat → Val
  count : Loc → Nat
  view : Nat → Loc → Nat

namespace History
variable {Loc Val : Type} [DecidableEq Loc]

/-- The number of the value that a load of thread `t` gets: any from the oldest that it can still be given to the
last, by `choice`. A load of goost/kuznyechik/BlkCached.cpp:20, 24 or of goost/magma/KeyCachedData.cpp:18, 24. -/
def pick (h : History Loc Val) (t : Nat) (l : Loc) (choice : Nat) : Nat := max (h.view t l) (min choice (h.count l))

/-- Thread `t` has got value number `i` of `l`, and will not get an older one. As `pick`
(goost/kuznyechik/BlkCached.cpp:20, 24). -/
def look (h : History Loc Val) (t : Nat) (l : Loc) (i : Nat) : History Loc Val :=
  { h with view := fun u l' => if u = t ∧ l' = l then i else h.view u l' }

/-- Thread `t` stores a new last value. A store of goost/kuznyechik/BlkCached.cpp:21-22 or of
goost/magma/KeyCachedData.cpp:20-22. -/
def store (h : History Loc Val) (t : Nat) (l : Loc) (v : Val) : History Loc Val where
  value := fun l' i => if l' = l ∧ i = h.count l + 1 then v else h.value l' i
  count := fun l' => if l' = l then h.count l + 1 else h.count l'
  view := fun u l' => if u = t ∧ l' = l then h.count l + 1 else h.view u l'

/-- Every location has had one value, zero. Fresh caches: goost/kuznyechik/BlkCached.cpp:13-14,
goost/magma/KeyCachedData.cpp:12. -/
def zero [OfNat Val 0] : History Loc Val := ⟨fun _ _ => 0, fun _ => 0, fun _ _ => 0⟩

end History

/-! ### Without a mutex -/

/-- Any number of threads that use the shared memory freely. The user's threads; /repo has no code for them
(goost/kuznyechik/BlkCached.cpp:18-25 and goost/magma/KeyCachedData.cpp:16-25 are what they run). -/
structure Free (Loc Val α : Type) where
  threads : Nat → MemProg Loc Val α
  hist : History Loc Val

namespace Free
variable {Loc Val α : Type} [DecidableEq Loc]

/-- Thread `e.1` makes its next access; if it is a load, `e.2` chooses the value. An access of
goost/kuznyechik/BlkCached.cpp:20-24 or of goost/magma/KeyCachedData.cpp:16-25. -/
def step (s : Free Loc Val α) (e : Nat × Nat) : Free Loc Val α :=
  match s.threads e.1 with
  | .ret _ => s
  | .op (.load l) k =>
    ⟨fun u => if u = e.1 then k (s.hist.value l (s.hist.pick e.1 l e.2)) else s.threads u,
      s.hist.look e.1 l (s.hist.pick e.1 l e.2)⟩
  | .op (.store l v) k => ⟨fun u => if u = e.1 then k v else s.threads u, s.hist.store e.1 l v⟩

/-- The accesses, one after the other. As `step` (goost/kuznyechik/BlkCached.cpp:20-24). -/
def run (s : Free Loc Val α) (events : List (Nat × Nat)) : Free Loc Val α := events.foldl step s

/-- The start. Fresh caches: goost/kuznyechik/BlkCached.cpp:13-14, goost/magma/KeyCachedData.cpp:12. -/
def start [OfNat Val 0] (threads : Nat → MemProg Loc Val α) : Free Loc Val α := ⟨threads, .zero⟩

end Free

/-! ### With a mutex -/

/-- A thread that locks the mutex before every request and unlocks it after: between requests, or inside one. The
user's thread (`std::lock_guard` around a call of goost/kuznyechik/BlkCached.cpp:18-25 or
goost/magma/KeyCachedData.cpp:16-25); no code of /repo. -/
inductive Guarded (Loc Val Req Ans α : Type) where
  | outside (p : Prog Req Ans α)
  | inside (q : MemProg Loc Val Ans) (k : Ans → Prog Req Ans α)

/-- Any number of such threads, who owns the mutex, the shared memory, and what the last unlocking thread had seen.
The user's threads, as `Guarded` (goost/kuznyechik/BlkCached.cpp:18-25). -/
structure Locked (Loc Val Req Ans α : Type) where
  threads : Nat → Guarded Loc Val Req Ans α
  owner : Option Nat
  hist : History Loc Val
  passed : Loc → Nat

namespace Locked
variable {Loc Val Req Ans α : Type} [DecidableEq Loc]

/-- The next step of thread `e.1`. Outside a request: it locks the mutex, if that is free, and can then not be given
older values than the thread that unlocked it; else it waits. Inside: it makes an access, or unlocks the mutex when
the request has an answer (also if that is an exception). The accesses are those of
goost/kuznyechik/BlkCached.cpp:20-24 and of goost/magma/KeyCachedData.cpp:16-25. -/
def step (handler : Req → MemProg Loc Val Ans) (s : Locked Loc Val Req Ans α) (e : Nat × Nat) :
    Locked Loc Val Req Ans α :=
  let set (g : Guarded Loc Val Req Ans α) := fun u => if u = e.1 then g else s.threads u
  match s.threads e.1 with
  | .outside (.ret _) => s
  | .outside (.op o k) =>
    match s.owner with
    | some _ => s
    | none =>
      { s with
        threads := set (.inside (handler o) k)
        owner := some e.1
        hist := { s.hist with
          view := fun u l => if u = e.1 then max (s.hist.view u l) (s.passed l) else s.hist.view u l } }
  | .inside (.ret a) k =>
    { s with threads := set (.outside (k a)), owner := none, passed := s.hist.view e.1 }
  | .inside (.op (.load l) q) k =>
    { s with
      threads := set (.inside (q (s.hist.value l (s.hist.pick e.1 l e.2))) k)
      hist := s.hist.look e.1 l (s.hist.pick e.1 l e.2) }
  | .inside (.op (.store l v) q) k =>
    { s with threads := set (.inside (q v) k), hist := s.hist.store e.1 l v }

/-- The steps, one after the other. As `step` (goost/kuznyechik/BlkCached.cpp:20-24). -/
def run (handler : Req → MemProg Loc Val Ans) (s : Locked Loc Val Req Ans α) (events : List (Nat × Nat)) :
    Locked Loc Val Req Ans α := events.foldl (step handler) s

/-- The start: the mutex is free. Fresh caches: goost/kuznyechik/BlkCached.cpp:13-14,
goost/magma/KeyCachedData.cpp:12. -/
def start [OfNat Val 0] (programs : Nat → Prog Req Ans α) : Locked Loc Val Req Ans α :=
  ⟨fun t => .outside (programs t), none, .zero, fun _ => 0⟩

end Locked
end Goost.Conc
