import Verif.Model.KuzStream
import Verif.Spec.Kuznyechik
import Verif.Spec.Bytes
/-
Specification: Kuznyechik streams and keys as their users see them.
-/
namespace Spec
open Goost Goost.Kuz

/-- The key object encrypts by the cipher of the standard with the 256-bit key `K`: every block that
has a value has an encryption, namely that of the standard. -/
def Encrypts (m : Machine) (key : Key) (K : BitVec 256) : Prop :=
  ∀ (b : Blk) (v : BitVec 64 × BitVec 64), b.value m = .ok v →
    ∃ r, (BlkEncrypted b key).value m = .ok r ∧ join64 r = Spec.Kuz.enc K (join64 v)

/-- The iterator `i` is at the first of the given blocks: it shows its value, `last` is true exactly at
the last block, `next` goes to the following block, and `size` is 16, or `lastSize` at the last
block. There is at least one block. -/
def Shows {ι : Type} (it : IterImpl ι) (lastSize : Nat) : ι → List (BitVec 64 × BitVec 64) → Prop
  | _, [] => False
  | i, [v] => it.value i = .ok v ∧ it.last i = .ok true ∧ it.size i = .ok lastSize
  | i, v :: w :: r => it.value i = .ok v ∧ it.last i = .ok false ∧ it.size i = .ok 16 ∧
      ∃ j, it.next i = .ok (some j) ∧ Shows it lastSize j (w :: r)

/-- The iterator after `n` times `next()`. -/
def advance {ι : Type} (it : IterImpl ι) : Nat → ι → Exec (Option ι)
  | 0, i => .ok (some i)
  | n + 1, i => it.next i >>= fun p =>
    match p with
    | some j => advance it n j
    | none => .ok none

/-- The value of the block number `n` (from 0) of a stream whose `iter()` has the outcome `start`: what
`value()` returns after `n` times `next()`. -/
def blockAt {ι : Type} (it : IterImpl ι) (start : Exec (Option ι)) (n : Nat) :
    Exec (BitVec 64 × BitVec 64) := do
  let i ← start
  let j ← deref i (advance it n)
  deref j it.value

/-- The words of a vector in pairs. A single word at the end is left out. -/
def wordPairs : List (BitVec 64) → List (BitVec 64 × BitVec 64)
  | a :: b :: r => (a, b) :: wordPairs r
  | _ => []

/-- The program that starts with `n` pointers to the stream has at least one at every moment of the
history. -/
def AlwaysOwned : Nat → List SessionOp → Prop
  | n, [] => 0 < n
  | n, .copy :: ops => 0 < n ∧ AlwaysOwned (n + 1) ops
  | n, .drop :: ops => 0 < n ∧ AlwaysOwned (n - 1) ops
  | n, _ :: ops => 0 < n ∧ AlwaysOwned n ops

/-- The greatest nesting depth of a round key. -/
def keyDepth (key : Kuz.Key) : Nat :=
  max key.k1.depth (max key.k2.depth (max key.k3.depth (max key.k4.depth (max key.k5.depth
    (max key.k6.depth (max key.k7.depth (max key.k8.depth (max key.k9.depth key.k10.depth))))))))

end Spec
