import Verif.Model.Mutex
import Verif.Spec.Concurrent
/-
Specification: threads that lock a mutex around every use.
-/
namespace Spec
open Goost.Conc

/-- The thread has returned `a`. -/
def Returned {Loc Val Req Ans α : Type} (g : Guarded Loc Val Req Ans α) (a : α) : Prop := g = .outside (.ret a)

/-- The thread is inside a request. -/
def Inside {Loc Val Req Ans α : Type} (g : Guarded Loc Val Req Ans α) : Prop := ∃ q k, g = .inside q k

end Spec
