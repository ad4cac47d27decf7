import Verif.Spec.Streams
import Verif.Spec.Bytes
/-
Specification: sources and sinks that fail, and sources that grow.
-/
namespace Spec
open Goost
variable {W σ τ : Type}

/-- In the world `w` successive `read(8)` calls on the source `s` return exactly the blocks `c`; they
lead to the source `s'` in the world `w'`. Nothing is said about what happens after that. -/
def ReadsBlocks (rd : σ → Nat → Io W (List Byte × σ)) : σ → W → List (BitVec 64) → σ → W → Prop
  | s, w, [], s', w' => s' = s ∧ w' = w
  | s, w, x :: c, s', w' =>
    ∃ s1 w1, rd s 8 w = (.ok (bytesOf64 x, s1), w1) ∧ ReadsBlocks rd s1 w1 c s' w'

/-- A file that sometimes fails: its content, and for each of the next operations whether it fails. A
failing operation throws and leaves the content as it is. -/
structure Flaky where
  content : List Byte
  faults : List Bool
  deriving DecidableEq, Repr

/-- Runs `op` on the content unless the next operation is to fail. -/
def Flaky.run {α : Type} (op : List Byte → α × List Byte) : Io Flaky α := fun f =>
  match f.faults with
  | true :: fs => (.throw (.user 1), ⟨f.content, fs⟩)
  | fs => let (a, c) := op f.content; (.ok a, ⟨c, fs.drop 1⟩)

/-- A sink that appends to the file. -/
def flakyWrite (_ : Unit) (x : List Byte) : Io Flaky Unit := Flaky.run fun c => ((), c ++ x)

/-- A source that takes bytes from the front of the file (as from a socket: what has been read is
gone). -/
def flakyRead (_ : Unit) (n : Nat) : Io Flaky (List Byte × Unit) :=
  Flaky.run fun c => ((c.take n, ()), c.drop n)

/-- A source that reads the file from a position that is kept in the source. -/
def flakyReadAt (pos n : Nat) : Io Flaky (List Byte × Nat) :=
  Flaky.run fun c => (((c.drop pos).take n, pos + ((c.drop pos).take n).length), c)

/-- A source that takes bytes from the front of the world: what has been read is gone. -/
def pipeRead (_ : Unit) (n : Nat) : Io (List Byte) (List Byte × Unit) := fun c =>
  (.ok (c.take n, ()), c.drop n)

/-- Calls `op`; if it throws, calls it again, on the same object and in the world that the first call
has left. -/
def retry {α : Type} (op : Io W α) : Io W α := fun w =>
  match op w with
  | (.throw _, w') => op w'
  | r => r

/-- What happens to a file that is read while it grows: blocks are appended, or the reader asks for a
number of bytes. -/
inductive GrowEvent where
  | grow (blocks : List (BitVec 64))
  | read (size : Nat)
  deriving DecidableEq, Repr

/-- The reader `rd` (acting on a file) goes through the events. Returns the pieces it has read. -/
def runGrowing (rd : σ → Nat → Io (List Byte) (List Byte × σ)) :
    σ → List GrowEvent → Io (List Byte) (List (List Byte) × σ)
  | s, [] => pure ([], s)
  | s, .grow c :: evs => fun file => runGrowing rd s evs (file ++ unblocks64 c)
  | s, .read n :: evs => do
    let (x, s) ← rd s n
    let (xs, s) ← runGrowing rd s evs
    pure (x :: xs, s)

/-- All blocks that arrive in the events. -/
def arrived : List GrowEvent → List (BitVec 64)
  | [] => []
  | .grow c :: evs => c ++ arrived evs
  | .read _ :: evs => arrived evs

/-- How many bytes an ideal reader gets in each read if `avail` bytes are waiting: as many as it asks
for, or all that have arrived and not been read yet. -/
def idealSizes : Nat → List GrowEvent → List Nat
  | _, [] => []
  | avail, .grow c :: evs => idealSizes (avail + 8 * c.length) evs
  | avail, .read n :: evs => min n avail :: idealSizes (avail - min n avail) evs

end Spec
