import Verif.Model.ScarceKuz
import Verif.Spec.KuzToken
import Verif.Spec.Scarce
/-
Specification: a key of the 128-bit cipher on a machine that may run out of memory.
-/
namespace Spec
open Goost
variable {W : Type}

/-- The halves of the key have been asked for as far as memory lasted: not at all, or the first has answered,
or both have. (What is known is not asked for.) -/
def askedSome (high low : Io W (BitVec 64 × BitVec 64)) (x y : KeyMemory W) : Prop :=
  y = x ∨ ∃ h x1, askHigh high x = (.ok h, x1) ∧ (y = x1 ∨ ∃ l, askLow low x1 = (.ok l, y))

/-- What a use of the key may leave behind if memory runs out: a block of the user is read first, or not even
this; then the halves are asked for. -/
def cutShort (high low : Io W (BitVec 64 × BitVec 64)) : KeyUse W → KeyMemory W → KeyMemory W → Prop
  | .encrypt block, x, y => y = x ∨ ∃ v x1, besides block x = (.ok v, x1) ∧ askedSome high low x1 y
  | _, x, y => askedSome high low x y

/-- A sequence of attempts to use the key, from the memory `x`, may have these results and leave the memory `y`:
each attempt does what it should, or throws `bad_alloc` and is cut short. -/
def mayResult (high low : Io W (BitVec 64 × BitVec 64)) :
    List (KeyUse W) → KeyMemory W → List (Exec (BitVec 64 × BitVec 64)) → KeyMemory W → Prop
  | [], x, rs, y => rs = [] ∧ y = x
  | u :: us, x, rs, y => ∃ r z rs', rs = r :: rs' ∧
      (ideal high low u x = (r, z) ∨ r = .throw .badAlloc ∧ cutShort high low u x z) ∧
      mayResult high low us z rs' y

/-- The result of the standard for the key `K`. -/
def kuzResult (K : BitVec 256) : KeyUse W → Io W (BitVec 64 × BitVec 64)
  | .encrypt block => do
    let v ← block
    return pair64 (Spec.Kuz.enc K (join64 v))
  | .ctr iv before block _ => pure (pair64 (join64 block ^^^ Spec.Kuz.enc K (Modes.counter iv before.length)))
  | .mac blocks last size => pure (pair64 (kuzMac K blocks last size))

/-- Nothing has happened, or the block of the user has been read. -/
def atMostRead : KeyUse W → W → W → Prop
  | .encrypt block, w, w' => w' = w ∨ ∃ v, block w = (.ok v, w')
  | _, w, w' => w' = w

/-- `n` calls of `next()` with limited memory. -/
def skipScarce {ι : Type} (it : KuzLive.IterImpl W ι) :
    Nat → KuzToken.ItCTR W ι → Io (Nat × (Kuz.Caches × W)) (KuzToken.ItCTR W ι)
  | 0, i => pure i
  | n + 1, i => ScarceKuz.ItCTR.next it i >>= skipScarce it n

/-- What the library does with limited memory; compare `perform`. -/
def performScarce (m : Machine) (key : KuzToken.Key W) :
    KeyUse W → Io (Nat × (Kuz.Caches × W)) (BitVec 64 × BitVec 64)
  | .encrypt block => ScarceKuz.Blk.value m (KuzToken.BlkEncrypted (.user block) key)
  | .ctr iv before block after => do
    let i ← ScarceKuz.StCTREncrypted.iter (pure (some (before ++ [block] ++ after))) key iv
    let i ← skipScarce (shelf W 16) before.length i
    ScarceKuz.ItCTR.value m (shelf W 16) i
  | .mac blocks last size =>
    ScarceKuz.Imit.value m (shelf W size) (pure (some (blocks ++ [last]))) (blocks.length + 1) key

/-- An attempt with memory for `n` requests. What is not used is not kept for the next attempt. -/
def attempt (m : Machine) (key : KuzToken.Key W) (u : Nat × KeyUse W) :
    Io (Kuz.Caches × W) (BitVec 64 × BitVec 64) := fun s =>
  match performScarce m key u.2 (u.1, s) with
  | (r, (_, s)) => (r, s)

end Spec
