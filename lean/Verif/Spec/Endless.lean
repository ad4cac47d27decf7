import Verif.Model.Gost89
import Verif.Spec.KuzLive
/-
Specification: calls that return, and sources and streams that have no end.
-/
namespace Spec
open Goost
variable {W σ τ ι : Type}

/-- Every single `read` of the source returns, or throws. -/
def ReturningSource (rd : σ → Nat → Io W (List Byte × σ)) : Prop := ∀ s n w, (rd s n w).1 ≠ .diverge

/-- Every single `write` of the sink returns, or throws. -/
def ReturningSink (wr : τ → List Byte → Io W τ) : Prop := ∀ s x w, (wr s x w).1 ≠ .diverge

/-- Every single use of the key of the 64-bit cipher returns, or throws. -/
def ReturningKey (key : Magma.Key) : Prop := ∀ v i, key.transform v i ≠ .diverge

/-- The evaluation of every round key of the 128-bit cipher returns, or throws. -/
def ReturningKuzKey (m : Machine) (key : Kuz.Key) : Prop :=
  ∀ b ∈ [key.k1, key.k2, key.k3, key.k4, key.k5, key.k6, key.k7, key.k8, key.k9, key.k10], b.value m ≠ .diverge

/-- Every single call of an iterator returns, or throws. -/
def ReturningIter (it : KuzLive.IterImpl W ι) : Prop := ∀ i w, (it.value i w).1 ≠ .diverge ∧
  (it.last i w).1 ≠ .diverge ∧ (it.size i w).1 ≠ .diverge ∧ (it.next i w).1 ≠ .diverge

/-- The source has no end: `read(8)` gives 8 bytes again and again. (`R` holds of all sources and worlds that are met on
the way.) -/
def EndlessSource (rd : σ → Nat → Io W (List Byte × σ)) (s : σ) (w : W) : Prop :=
  ∃ R : σ → W → Prop, R s w ∧ ∀ s w, R s w → ∃ x s' w', rd s 8 w = (.ok (x, s'), w') ∧ x.length = 8 ∧ R s' w'

/-- The stream has no end: no block is the last one, every block has a value, and there is always a next one. -/
def EndlessStream (it : KuzLive.IterImpl W ι) (i : ι) (w : W) : Prop :=
  ∃ R : ι → W → Prop, R i w ∧ ∀ i w, R i w → ∃ v j w1 w2 w3, it.last i w = (.ok false, w1) ∧
    it.value i w1 = (.ok v, w2) ∧ it.next i w2 = (.ok (some j), w3) ∧ R j w3

/-- The stream begins with the given blocks, none of which is the last one; a reader who has asked `last`, `value` and
`next` for each of them has the iterator `j`, and the world is `w'`. -/
def Begins (it : KuzLive.IterImpl W ι) : ι → W → List (BitVec 64 × BitVec 64) → ι → W → Prop
  | i, w, [], j, w' => i = j ∧ w = w'
  | i, w, v :: r, j, w' => ∃ k w1 w2 w3, it.last i w = (.ok false, w1) ∧ it.value i w1 = (.ok v, w2) ∧
      it.next i w2 = (.ok (some k), w3) ∧ Begins it k w3 r j w'

/-- Iterators that can be got from `i` by calls of `next`, in any worlds. -/
inductive Follows (it : KuzLive.IterImpl W ι) (i : ι) : ι → Prop
  | self : Follows it i i
  | next (j k : ι) (w w' : W) : Follows it i j → it.next j w = (.ok (some k), w') → Follows it i k

/-- A device that never ends: it gives the bytes 0, 1, 2, … modulo 256, as many as it is asked for; the world counts
them. -/
def deviceRead (_ : Unit) (n : Nat) : Io Nat (List Byte × Unit) := fun w =>
  (.ok ((List.range n).map fun k => BitVec.ofNat 8 (w + k), ()), w + n)

/-- A stream that never ends: block number `n` is `n`. -/
def counterIter : KuzLive.IterImpl Unit Nat where
  value i := fun w => (.ok (BitVec.ofNat 64 i, 0), w)
  last _ := fun w => (.ok false, w)
  size _ := fun w => (.ok 16, w)
  next i := fun w => (.ok (some (i + 1)), w)

end Spec
