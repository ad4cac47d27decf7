import Verif.Model.Exec
/-
Specification: what a call does on two machines.
-/
namespace Spec
open Goost

/-- The outcome is undefined behaviour. -/
def Undefined {α : Type} (r : Exec α) : Prop := ∃ u, r = .ub u

/-- `x` and `y`, the same call on two machines, have the same result and the same effect on the world, whatever state
the world is in; except that the first may be undefined if `p`, and the second if `q`. -/
def SameUnless {W α : Type} (p q : Prop) (x y : Io W α) : Prop :=
  ∀ w, x w = y w ∨ p ∧ Undefined (x w).1 ∨ q ∧ Undefined (y w).1

/-- `m` leaves undefined a shift of 32-bit words which `m'` has. -/
def LacksShift (m m' : Machine) : Prop := m.maskShift32 = false ∧ m'.maskShift32 = true

/-- `m` leaves undefined an unaligned load which `m'` has. -/
def LacksLoad (m m' : Machine) : Prop := m.unalignedLoad = false ∧ m'.unalignedLoad = true

end Spec
