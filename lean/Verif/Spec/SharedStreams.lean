import Verif.Model.SharedStreams
import Verif.Spec.Concurrent
/-
Specification: what the code of a thread does if the thread is the only one.
-/
namespace Spec
open Goost Goost.Conc

/-- The effect of the code of a thread, if every request `o` gets the answer `answer o`. -/
def aloneIo {Op Res W α : Type} (answer : Op → Res) (x : Ask Op Res W α) : Io W α := fun w => alone answer (x w)

/-- The effect of calls made one after the other. -/
def callsAlone {Op Res W S : Type} (answer : Op → Res) (calls : List (S → Ask Op Res W S)) (s : S) : Io W S :=
  calls.foldlM (fun s call => aloneIo answer (call s)) s

/-- All keys in the tree of blocks are `key`. -/
def OnlyKey (key : Magma.Key) : Magma.Blk → Prop
  | .swapped b => OnlyKey key b
  | .xored a b => OnlyKey key a ∧ OnlyKey key b
  | .shifted b _ => OnlyKey key b
  | .forwarded b k => OnlyKey key b ∧ k = some key
  | .backwarded b k => OnlyKey key b ∧ k = some key
  | .imitShifted b => OnlyKey key b
  | .raw _ _ => True
  | .str _ => True
  | .user _ => True

/-- The iterator, if the thread that uses it is the only one. -/
def iterAlone {ι : Type} (m : Machine) (it : AskIter ι) : Kuz.IterImpl ι :=
  ⟨fun i => alone (Kuz.Blk.value m) (it.value i), it.last, it.size, it.next⟩

/-- A thread's call `v = iter->value()`: the block is added to those that the thread has. -/
def valueCall {ι : Type} (it : AskIter ι) (s : List (BitVec 64 × BitVec 64) × Option ι) :
    AskBlk Unit (List (BitVec 64 × BitVec 64) × Option ι) := do
  let v ← Ask.use (askDeref s.2 it.value)
  pure (s.1 ++ [v], s.2)

/-- A thread's call `iter = iter->next()`. -/
def nextCall {ι : Type} (it : AskIter ι) (s : List (BitVec 64 × BitVec 64) × Option ι) :
    AskBlk Unit (List (BitVec 64 × BitVec 64) × Option ι) := do
  let i ← Ask.lift (Kuz.deref s.2 it.next)
  pure (s.1, i)

/-- The calls of a thread that walks through `n + 1` blocks: `value()`, and `n` times `next()` and `value()`. -/
def walkCalls {ι : Type} (it : AskIter ι) : Nat →
    List (List (BitVec 64 × BitVec 64) × Option ι → AskBlk Unit (List (BitVec 64 × BitVec 64) × Option ι))
  | 0 => [valueCall it]
  | n + 1 => valueCall it :: nextCall it :: walkCalls it n

/-- A thread's call `p, source = source->read(size)`: the piece is added to those that the thread has. -/
def readCall {W σ : Type} (read : σ → Nat → AskKey W (List (BitVec 8) × σ)) (size : Nat)
    (s : List (List (BitVec 8)) × σ) : AskKey W (List (List (BitVec 8)) × σ) := do
  let (p, t) ← read s.2 size
  pure (s.1 ++ [p], t)

end Spec
