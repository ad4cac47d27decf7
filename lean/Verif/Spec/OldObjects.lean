import Verif.Spec.Failures
/-
Specification: a caller who ignores the object that `write` or `read` returns, and goes on with the old
one.
-/
namespace Spec
open Goost
variable {W σ τ : Type}

/-- Writes the pieces one after the other, all to the same object. -/
def writeEach (wr : τ → List Byte → Io W τ) (s : τ) : List (List Byte) → Io W Unit
  | [] => pure ()
  | d :: ds => do
    let _ ← wr s d
    writeEach wr s ds

/-- Reads with the sizes `ns` one after the other, all from the same object; returns the pieces read. -/
def readEach (rd : σ → Nat → Io W (List Byte × σ)) (s : σ) : List Nat → Io W (List (List Byte))
  | [] => pure []
  | n :: ns => do
    let (x, _) ← rd s n
    let xs ← readEach rd s ns
    pure (x :: xs)

end Spec
