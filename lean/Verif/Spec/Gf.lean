import Mathlib.Algebra.Polynomial.Div
import Mathlib.Data.ZMod.Basic
/-
Specification: bytes as polynomials over GF(2). Nothing here refers to the model.
-/
namespace Spec.Gf
open Polynomial

/-- The polynomial of a byte: bit `i` is the coefficient of `xⁱ`. -/
noncomputable def poly (a : BitVec 8) : (ZMod 2)[X] :=
  ∑ i ∈ Finset.range 8, if a.getLsbD i then X ^ i else 0

/-- The modulus x⁸ + x⁷ + x⁶ + x + 1. -/
noncomputable def modulus : (ZMod 2)[X] := X ^ 8 + X ^ 7 + X ^ 6 + X + 1

end Spec.Gf
