import Verif.Model.Exec
/-
Specification: a sink that keeps what is written to it in a buffer until it is finalized.
-/
namespace Spec
open Goost

/-- The buffer and what has come out of it. -/
structure Buffered where
  pending : List Byte := []
  out : List Byte := []
  deriving DecidableEq

/-- Writing to the sink fills the buffer. -/
def bufWrite (_ : Unit) (x : List Byte) : Io Buffered Unit := fun b =>
  (.ok (), { b with pending := b.pending ++ x })

/-- `finalize` puts the buffer out. -/
def bufFinalize (_ : Unit) : Io Buffered Unit := fun b =>
  (.ok (), { pending := [], out := b.out ++ b.pending })

end Spec
