import Verif.Model.Memory
/-
Specification for C115: chains of objects.
-/
namespace Spec.Mem
open Goost.Mem

/-- There is a chain of `n` objects that begins with object `p`: each next one is a member of the one before. -/
inductive Chain (h : Heap) : Nat → Nat → Prop
  | one {p : Nat} {c : Cell} (hp : h[p]? = some c) : Chain h p 1
  | cons {p q n : Nat} {c : Cell} (hp : h[p]? = some c) (hq : q ∈ c.obj.members) (hn : Chain h q n) :
      Chain h p (n + 1)

/-- A chain of `n` objects, to each of which there is only one pointer. -/
inductive Owned (h : Heap) : Nat → Nat → Prop
  | one {p : Nat} {c : Cell} (hp : h[p]? = some c) (hc : c.count = 1) : Owned h p 1
  | cons {p q n : Nat} {c : Cell} (hp : h[p]? = some c) (hc : c.count = 1) (hq : q ∈ c.obj.members)
      (hn : Owned h q n) : Owned h p (n + 1)

/-- An order in which an object may destroy its members. -/
def IsOrder (order : List Nat → List Nat) : Prop := ∀ ms, (order ms).Perm ms

end Spec.Mem
