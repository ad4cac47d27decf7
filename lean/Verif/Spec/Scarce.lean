import Verif.Model.Scarce
import Verif.Spec.Streams
/-
Specification: running out of memory.
-/
namespace Spec
open Goost
variable {W σ τ α : Type}

/-- `x`, on a machine with limited memory, makes some number `N` of requests for memory. If all of them are
granted it does what `y` does with unlimited memory. If one is not, it throws `bad_alloc` and leaves behind a
world that `R` allows. -/
def UnlessOut (R : W → W → Prop) (x : Io (Nat × W) α) (y : Io W α) : Prop :=
  ∀ w, ∃ N, (∀ n, x (N + n, w) = ((y w).1, (n, (y w).2))) ∧
    ∀ n, n < N → ∃ w', x (n, w) = (.throw .badAlloc, (0, w')) ∧ R w w'

/-- A beginning of `pieces` has been written to the sink. -/
def Sent (wr : τ → List Byte → Io W τ) (s : τ) (pieces : List (List Byte)) (w w' : W) : Prop :=
  ∃ k s', writeAll wr s (pieces.take k) w = (.ok s', w')

/-- Some reads of eight bytes, perhaps none, have been made from the source. -/
inductive Took (rd : σ → Nat → Io W (List Byte × σ)) : σ → W → W → Prop where
  | none (s : σ) (w : W) : Took rd s w w
  | one (s s' : σ) (w w1 w2 : W) (p : List Byte) (h : rd s 8 w = (.ok (p, s'), w1)) (t : Took rd s' w1 w2) :
      Took rd s w w2

end Spec
