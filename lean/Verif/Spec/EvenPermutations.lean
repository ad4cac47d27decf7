/-
Specification: even permutations.
-/
namespace Spec

/-- Exchanges `a` and `b`. -/
def exchange {α : Type} [DecidableEq α] (a b x : α) : α := if x = a then b else if x = b then a else x

/-- The function does what an even number of exchanges of two different elements do, one after the other. -/
def IsEven {α : Type} [DecidableEq α] (F : α → α) : Prop :=
  ∃ l : List (α × α), (∀ p ∈ l, p.1 ≠ p.2) ∧ l.length % 2 = 0 ∧ ∀ x, F x = l.foldr (fun p x => exchange p.1 p.2 x) x

end Spec
