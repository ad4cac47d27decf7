/-
Specification for C98: parts of a sequence. Nothing here refers to the model.
-/
namespace Spec

/-- The members number 0, 2, 4, … of a list. -/
def evens {α : Type} : List α → List α
  | a :: _ :: r => a :: evens r
  | [a] => [a]
  | [] => []

/-- The members number 1, 3, 5, … of a list. -/
def odds {α : Type} : List α → List α
  | _ :: b :: r => b :: odds r
  | _ => []

example : evens [1, 2, 3, 4, 5] = [1, 3, 5] ∧ odds [1, 2, 3, 4, 5] = [2, 4] := by decide

end Spec
