import Verif.Model.Concurrent
/-
Specification: what a program computes when it is the only one.
-/
namespace Spec
open Goost Goost.Conc

/-- What the program returns if every request `o` gets the answer `answer o`. -/
def alone {Op Res α : Type} (answer : Op → Res) : Prog Op Res α → α
  | .ret a => a
  | .op o k => alone answer (k (answer o))

/-- All requests that the program makes, if every request `o` gets the answer `answer o`, satisfy
`P`. -/
def AllRequests {Op Res α : Type} (P : Op → Prop) (answer : Op → Res) : Prog Op Res α → Prop
  | .ret _ => True
  | .op o k => P o ∧ AllRequests P answer (k (answer o))

/-- Thread `t` gets infinitely many turns in an infinite schedule. -/
def InfinitelyOften (t : Nat) (schedule : Nat → Nat) : Prop := ∀ n, ∃ i, n ≤ i ∧ schedule i = t

/-- The first `n` turns of an infinite schedule. -/
def firstTurns (schedule : Nat → Nat) (n : Nat) : List Nat := (List.range n).map schedule

/-- The result of a program over shared memory and the memory that it leaves, if it is the only
one. -/
def runAlone {Loc Val α : Type} [DecidableEq Loc] :
    MemProg Loc Val α → (Loc → Val) → α × (Loc → Val)
  | .ret a, mem => (a, mem)
  | .op (.load l) k, mem => runAlone (k (mem l)) mem
  | .op (.store l v) k, mem => runAlone (k v) (fun l' => if l' = l then v else mem l')

end Spec
