import Verif.Model.KuzLive
import Verif.Spec.KuzStreams
/-
Specification: streams of blocks that act on the outside world, and may be read only once.
-/
namespace Spec
open Goost Goost.Kuz
variable {W ι V : Type}

/-- The iterator gives the blocks in one pass, to a reader who asks `last`, then `value`, then `next` for
each block, and `last`, `value`, `size` for the last one; the world goes from `w` to `w'`. Nothing is said
about any other call: another question may fail or get another answer. -/
def Plays (it : KuzLive.IterImpl W ι) (lastSize : Nat) : ι → W → List (BitVec 64 × BitVec 64) → W → Prop
  | _, _, [], _ => False
  | i, w, [v], w' => ∃ w1 w2, it.last i w = (.ok true, w1) ∧ it.value i w1 = (.ok v, w2) ∧
      it.size i w2 = (.ok lastSize, w')
  | i, w, v :: x :: r, w' => ∃ w1 w2 w3 j, it.last i w = (.ok false, w1) ∧ it.value i w1 = (.ok v, w2) ∧
      it.next i w2 = (.ok (some j), w3) ∧ Plays it lastSize j w3 (x :: r) w'

/-- The iterator gives the blocks in the same manner, and then one of the next three calls throws `e`. -/
def PlaysThenFails (it : KuzLive.IterImpl W ι) (e : Exn) :
    ι → W → List (BitVec 64 × BitVec 64) → W → Prop
  | i, w, [], w' =>
      it.last i w = (.throw e, w') ∨
      (∃ l w1, it.last i w = (.ok l, w1) ∧ it.value i w1 = (.throw e, w')) ∨
      (∃ v w1 w2, it.last i w = (.ok false, w1) ∧ it.value i w1 = (.ok v, w2) ∧
        it.next i w2 = (.throw e, w')) ∨
      ∃ v w1 w2, it.last i w = (.ok true, w1) ∧ it.value i w1 = (.ok v, w2) ∧ it.size i w2 = (.throw e, w')
  | i, w, v :: r, w' => ∃ w1 w2 w3 j, it.last i w = (.ok false, w1) ∧ it.value i w1 = (.ok v, w2) ∧
      it.next i w2 = (.ok (some j), w3) ∧ PlaysThenFails it e j w3 r w'

/-- The iterator gives the blocks in the same manner, none of them being called the last, and then `next()`
returns a null pointer. -/
def PlaysThenNull (it : KuzLive.IterImpl W ι) : ι → W → List (BitVec 64 × BitVec 64) → W → Prop
  | _, _, [], _ => False
  | i, w, [v], w' => ∃ w1 w2, it.last i w = (.ok false, w1) ∧ it.value i w1 = (.ok v, w2) ∧
      it.next i w2 = (.ok none, w')
  | i, w, v :: x :: r, w' => ∃ w1 w2 w3 j, it.last i w = (.ok false, w1) ∧ it.value i w1 = (.ok v, w2) ∧
      it.next i w2 = (.ok (some j), w3) ∧ PlaysThenNull it j w3 (x :: r) w'

/-- The member functions of an iterator. -/
inductive IterCall where
  | value | last | size | next
  deriving DecidableEq, Repr

/-- The iterator `it`, with a record of the calls it gets. -/
def recordedIter (it : IterImpl ι) : KuzLive.IterImpl (List IterCall × V) ι where
  value i := fun w => (it.value i, (w.1 ++ [.value], w.2))
  last i := fun w => (it.last i, (w.1 ++ [.last], w.2))
  size i := fun w => (it.size i, (w.1 ++ [.size], w.2))
  next i := fun w => (it.next i, (w.1 ++ [.next], w.2))

/-- A pipe: the blocks that are still to come are the state of the world. The iterator is only a handle;
`value` looks at the next block, `next` removes it, so that it cannot be seen again. -/
def pipe : KuzLive.IterImpl (List (BitVec 64 × BitVec 64)) Unit where
  value _ := fun w => (match w with | v :: _ => .ok v | [] => .throw (.user 1), w)
  last _ := fun w => (.ok (w.length ≤ 1), w)
  size _ := fun w => (.ok 16, w)
  next _ := fun w => (.ok (some ()), w.tail)

end Spec
