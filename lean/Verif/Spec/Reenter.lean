import Verif.Model.Reenter
import Verif.Spec.Caches
import Verif.Spec.Keys
import Verif.Spec.Kuznyechik
import Verif.Spec.Magma
import Verif.Spec.Bytes
/-
Specification: keys that are used again while they are being asked for.
-/
namespace Spec
open Goost Goost.Reenter
variable {W Q A R : Type}

/-- Whatever the object of the user sees of the world, and whatever its calls to the library return or throw: it returns
`v`, or throws one of the exceptions `E`, and all of its calls are of the kind `allowed`. -/
def Answers (E : Exn → Prop) (allowed : Q → Prop) (v : R) : Code W Q A R → Prop
  | .done r => r = .ok v ∨ ∃ e, E e ∧ r = .throw e
  | .world _ next => ∀ w, Answers E allowed v (next w)
  | .call q next => allowed q ∧ ∀ r, Answers E allowed v (next r)

/-- The call has the outcome `expected`, or it runs out of stack, or it throws one of the exceptions `E`. -/
def Outcome (E : Exn → Prop) (r expected : Exec A) : Prop := r = expected ∨ r = .diverge ∨ ∃ e, E e ∧ r = .throw e

/-- The same block with objects of the user that just return: object `n` returns `val n`. -/
def plainly (val : Nat → BitVec 64 × BitVec 64) : Reenter.Blk → Kuz.Blk
  | .raw low high => .raw low high
  | .str s => .str s
  | .xored a b => .xored (plainly val a) (plainly val b)
  | .blkS b => .blkS (plainly val b)
  | .blkR b => .blkR (plainly val b)
  | .incremented b => .incremented (plainly val b)
  | .shifted b n => .shifted (plainly val b) n
  | .xoredIfHighBit a b => .xoredIfHighBit (plainly val a) (plainly val b)
  | .cached id b => .cached id (plainly val b)
  | .user n => .user (.ok (val n))

/-- An encryption by this key. -/
def encryption (key : Reenter.Key) (v : BitVec 64 × BitVec 64) : Reenter.Blk := Reenter.BlkEncrypted (Reenter.BlkRaw.ofPair v) key

/-- Whatever it sees of the world: before it returns or throws, it makes a call of the kind `asks`. -/
def First (asks : Q → Prop) : Code W Q A R → Prop
  | .done _ => False
  | .world _ next => ∀ w, First asks (next w)
  | .call q _ => asks q

/-- A half of a key that asks somebody: the first time, while the question is on the screen, the program encrypts `x` with
the key; then the answer is `a`. Every other time the answer is `b`. The world tells whether the question has
been asked before. -/
def dialog (key : Reenter.Key) (x a b : BitVec 64 × BitVec 64) :
    Code Bool Reenter.Blk (BitVec 64 × BitVec 64) (BitVec 64 × BitVec 64) :=
  .world (fun _ => true) fun before => if before then .done (.ok b) else .call (encryption key x) fun _ => .done (.ok a)

/-- A key whose first half is asked for by the dialog; the second half is `l`. -/
def dialogKey (key : Reenter.Key) (x a b l : BitVec 64 × BitVec 64) :
    Nat → Code Bool Reenter.Blk (BitVec 64 × BitVec 64) (BitVec 64 × BitVec 64)
  | 0 => dialog key x a b
  | _ => .done (.ok l)

/-- Key data for the 64-bit cipher that asks somebody for every word: the first time that it is asked for the word `p`,
the program uses the key. The answers are `a` before, and for the rest of the questions of the interrupted use; the answers to
the questions of the other use are `b`. (The world counts: 0 before, 1 while the other use goes on, 2 after.) -/
def dialogWords (p : Nat) (a b : Nat → BitVec 32) (index : Int) : Code Nat Int (BitVec 32) (BitVec 32) :=
  .world (fun w => if index = p ∧ w = 0 then 1 else w) fun w =>
    if index = p ∧ w = 0 then
      .call 0 fun _ => .world (fun _ => 2) fun _ => .done (.ok (a index.toNat))
    else .done (.ok (if w = 1 then b index.toNat else a index.toNat))

/-- A use of a key of the 64-bit cipher with so much stack: encryption (`true`) or decryption of a block. -/
def cipherCall (m : Machine) (env : Int → Code W Int (BitVec 32) (BitVec 32)) (sub : BitVec 32 → BitVec 32)
    (q : Nat × Bool × BitVec 32 × BitVec 32) : Io (Magma.CachedData × W) (BitVec 32 × BitVec 32) :=
  let key := Live.LazyKey (cachedKey env q.1) fun x => Io.lift (.ok (sub x))
  if q.2.1 then (Live.BlkEncrypted (.raw q.2.2.1 q.2.2.2) (some key)).value m
  else (Live.BlkDecrypted (.raw q.2.2.1 q.2.2.2) (some key)).value m

/-- What it should give for these words of the key. -/
def cipherValue (sub : BitVec 32 → BitVec 32) (words : Nat → BitVec 32) (q : Nat × Bool × BitVec 32 × BitVec 32) : BitVec 64 :=
  if q.2.1 then Magma.encF (fun i x => sub (words i + x)) (join32 q.2.2) else Magma.decF (fun i x => sub (words i + x)) (join32 q.2.2)

end Spec
