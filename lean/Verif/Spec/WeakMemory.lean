import Verif.Model.WeakMemory
/-
Specification: machines with store buffers.
-/
namespace Spec
open Goost.Conc

/-- The stores of every thread become visible in the order in which it made them, as on x86. -/
def InOrder (events : List Event) : Prop := ∀ t i, .leave t i ∈ events → i = 0

/-- Thread `t` gets infinitely many turns. -/
def TurnsForever (t : Nat) (events : Nat → Event) : Prop := ∀ n, ∃ i, n ≤ i ∧ events i = .turn t

/-- The first `n` events. -/
def firstEvents (events : Nat → Event) (n : Nat) : List Event := (List.range n).map events

/-- Every store becomes visible at once. -/
def atOnce (schedule : List Nat) : List Event := schedule.flatMap fun t => [.turn t, .leave t 0]

end Spec
