import Verif.Model.Share
/-
Specification for C116: what the threads can still get at.
-/
namespace Spec.Share
open Goost.Share Goost.Mem

/-- The objects that the threads lead to: those that their variables point to, or the pointers that they are about
to destroy, and the members of those. -/
inductive Reach (s : Sys) : Nat → Prop
  | held {th : Thread} {p : Nat} (ht : th ∈ s.threads) (hp : p ∈ th.held) : Reach s p
  | pending {th : Thread} {p : Nat} (ht : th ∈ s.threads) (hp : p ∈ th.pending) : Reach s p
  | member {p q : Nat} {c : Cell} (hp : Reach s p) (hc : s.heap[p]? = some c) (hq : q ∈ c.obj.members) : Reach s q

/-- Object `p` has been made and not been destroyed. -/
def Exists (s : Sys) (p : Nat) : Prop := ∃ c, s.heap[p]? = some c ∧ c.count ≠ 0

/-- Object `p` has been destroyed. -/
def Destroyed (s : Sys) (p : Nat) : Prop := ∃ c, s.heap[p]? = some c ∧ c.count = 0

/-- How many pointers there are in objects that exist. -/
def pointersInObjects (s : Sys) : Nat := (s.heap.map fun c => if c.count = 0 then 0 else c.obj.members.length).sum

end Spec.Share
