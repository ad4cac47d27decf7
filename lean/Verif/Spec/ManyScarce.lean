import Verif.Spec.ManyKeys
import Verif.Spec.ScarceKuz
/-
Specification: several keys of the 128-bit cipher on a machine that may run out of memory.
-/
namespace Spec
open Goost
variable {W κ : Type}

/-- An attempt to use the key `k` with memory for `n` requests: `(k, n, use)`. -/
def attemptAmong (m : Machine) (key : κ → KuzToken.Key W) (u : κ × Nat × KeyUse W) :
    Io (Kuz.Caches × W) (BitVec 64 × BitVec 64) := attempt m (key u.1) u.2

/-- What the key `k` remembers, and the world. -/
def memoryOf (x : KeyMemories κ W) (k : κ) : KeyMemory W := ((x.1 k).1, (x.1 k).2, x.2)

/-- A sequence of attempts, from the memories `x`, may have these results and leave the memories `y`: each does what it should with
its key alone, or throws `bad_alloc` and is cut short; the memories of the other keys stay as they are. -/
def mayResultAmong (high low : κ → Io W (BitVec 64 × BitVec 64)) :
    List (κ × KeyUse W) → KeyMemories κ W → List (Exec (BitVec 64 × BitVec 64)) → KeyMemories κ W → Prop
  | [], x, rs, y => rs = [] ∧ y = x
  | u :: us, x, rs, y => ∃ r z rs', rs = r :: rs' ∧ (∀ k, k ≠ u.1 → z.1 k = x.1 k) ∧
      (ideal (high u.1) (low u.1) u.2 (memoryOf x u.1) = (r, memoryOf z u.1) ∨
        r = .throw .badAlloc ∧ cutShort (high u.1) (low u.1) u.2 (memoryOf x u.1) (memoryOf z u.1)) ∧
      mayResultAmong high low us z rs' y

end Spec
