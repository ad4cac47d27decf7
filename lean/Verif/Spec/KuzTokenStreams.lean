import Verif.Spec.KuzToken
/-
Specification: a program that holds any number of iterators of counter-mode streams, over streams that act on the
outside world, all encrypted with one key whose halves act on the outside world too.
-/
namespace Spec
open Goost Spec.Modes
variable {W ι S P : Type}

/-- What such a program does in one step. The iterators that it has got are numbered in the order in which it got
them. -/
inductive StreamStep (W ι : Type) where
  /-- `iter()` of a counter-mode stream; `start` is `iter()` of the stream below -/
  | iter (start : Io W (Option ι)) (iv : BitVec 64)
  | last (number : Nat)
  | value (number : Nat)
  | size (number : Nat)
  | next (number : Nat)
  /-- another use of the same key -/
  | use (u : KeyUse W)

/-- What it gets. -/
inductive StreamAnswer where
  | block (v : BitVec 64 × BitVec 64)
  | flag (b : Bool)
  | number (n : Nat)
  /-- one more iterator -/
  | iterator
  /-- there is no iterator of this number -/
  | nothing
  deriving DecidableEq, Repr

/-- The operations that the program calls; `P` are iterators, `S` is the state on which the operations act. -/
structure StreamOps (W ι S P : Type) where
  iter : Io W (Option ι) → BitVec 64 → Io S P
  last : P → Io S Bool
  value : P → Io S (BitVec 64 × BitVec 64)
  size : P → Io S Nat
  next : P → Io S P
  use : KeyUse W → Io S (BitVec 64 × BitVec 64)

/-- A call that gives an answer. -/
def answered {α : Type} (f : α → StreamAnswer) (x : Io S α) : List P × S → Exec StreamAnswer × (List P × S) := fun s =>
  match x s.2 with
  | (.ok a, t) => (.ok (f a), (s.1, t))
  | (.throw e, t) => (.throw e, (s.1, t))
  | (.ub u, t) => (.ub u, (s.1, t))
  | (.diverge, t) => (.diverge, (s.1, t))

/-- A call that gives one more iterator. -/
def gained (x : Io S P) : List P × S → Exec StreamAnswer × (List P × S) := fun s =>
  match x s.2 with
  | (.ok p, t) => (.ok .iterator, (s.1 ++ [p], t))
  | (.throw e, t) => (.throw e, (s.1, t))
  | (.ub u, t) => (.ub u, (s.1, t))
  | (.diverge, t) => (.diverge, (s.1, t))

/-- The iterator of this number, if there is one. -/
def held (k : Nat) (f : P → List P × S → Exec StreamAnswer × (List P × S)) :
    List P × S → Exec StreamAnswer × (List P × S) := fun s =>
  match s.1[k]? with
  | some p => f p s
  | none => (.ok .nothing, s)

/-- One step. -/
def streamStep (o : StreamOps W ι S P) : StreamStep W ι → List P × S → Exec StreamAnswer × (List P × S)
  | .iter start iv => gained (o.iter start iv)
  | .last k => held k fun p => answered .flag (o.last p)
  | .value k => held k fun p => answered .block (o.value p)
  | .size k => held k fun p => answered .number (o.size p)
  | .next k => held k fun p => gained (o.next p)
  | .use u => answered .block (o.use u)

/-- The library. -/
def libraryOps (m : Machine) (it : KuzLive.IterImpl W ι) (key : KuzToken.Key W) :
    StreamOps W ι (Kuz.Caches × W) (KuzToken.ItCTR W ι) where
  iter start iv := KuzToken.StCTREncrypted.iter start key iv
  last := KuzToken.ItCTR.last it
  value := KuzToken.ItCTR.value m it
  size := KuzToken.ItCTR.size it
  next := KuzToken.ItCTR.next it
  use := perform m key

/-- A call through a pointer, which may be null. -/
def through {α : Type} (p : Option ι) (f : ι → Io W α) : Io W α :=
  match p with
  | some i => f i
  | none => Io.lift (.ub .nullDeref)

/-- What the library should do. An iterator is a pointer to an iterator of the stream below, the initialization
vector and the number of the block. Every call makes the same call below, once, and no other; `value()` asks for
the key afterwards, as far as it is not known, and encrypts as the standard says. -/
def idealOps (it : KuzLive.IterImpl W ι) (high low : Io W (BitVec 64 × BitVec 64)) :
    StreamOps W ι (KeyMemory W) (Option ι × BitVec 64 × Nat) where
  iter start iv := do
    let i ← besides start
    return (i, iv, 0)
  last p := besides (through p.1 it.last)
  value p := do
    let v ← besides (through p.1 it.value)
    let K ← askKey high low
    return pair64 (join64 v ^^^ Spec.Kuz.enc K (counter p.2.1 p.2.2))
  size p := besides (through p.1 it.size)
  next p := do
    let i ← besides (through p.1 it.next)
    return (i, p.2.1, p.2.2 + 1)
  use := ideal high low

end Spec
