import Verif.Spec.KuzStreams
import Verif.Spec.Streams
/-
Specification: Kuznyechik streams that fail, and byte sources that return their data in pieces of their
own choice.
-/
namespace Spec
open Goost Goost.Kuz
variable {W : Type}

/-- A user who calls `last()`, then `value()`, then `next()` (or `size()` at the last block) on the
iterator `i` gets the exception `e` at one of these calls. -/
def FailsAt {ι : Type} (it : IterImpl ι) (e : Exn) (i : ι) : Prop :=
  it.last i = .throw e ∨
  (∃ l, it.last i = .ok l ∧ it.value i = .throw e) ∨
  (∃ v, it.last i = .ok false ∧ it.value i = .ok v ∧ it.next i = .throw e) ∨
  (∃ v, it.last i = .ok true ∧ it.value i = .ok v ∧ it.size i = .throw e)

/-- The iterator `i` is at the first of the given blocks, which are shown as usual; the iterator after
them fails. -/
def FailsAfter {ι : Type} (it : IterImpl ι) (e : Exn) : ι → List (BitVec 64 × BitVec 64) → Prop
  | i, [] => FailsAt it e i
  | i, v :: r => it.value i = .ok v ∧ it.last i = .ok false ∧ it.size i = .ok 16 ∧
      ∃ j, it.next i = .ok (some j) ∧ FailsAfter it e j r

/-- A source whose data come in pieces (as those of a socket do): a `read(n)` returns the next piece, or
its first `n` bytes if it is longer. -/
def piecesRead : List (List Byte) → Nat → Io W (List Byte × List (List Byte))
  | [], _ => pure ([], [])
  | p :: ps, n => pure (p.take n, if n < p.length then p.drop n :: ps else ps)

end Spec
