import Verif.Spec.ScarceKuz
import Verif.Spec.KuzToken
/-
Specification: several keys of the 128-bit cipher, used in turns.
-/
namespace Spec
open Goost
variable {W κ : Type}

/-- Each key has a memory of its own; they share the outside world. -/
abbrev KeyMemories (κ W : Type) := (κ → Option (BitVec 64 × BitVec 64) × Option (BitVec 64 × BitVec 64)) × W

/-- What a use of key `k` should do: as with this key alone, on its memory and the common world. -/
def idealAmong [DecidableEq κ] (high low : κ → Io W (BitVec 64 × BitVec 64)) (u : κ × KeyUse W) :
    Io (KeyMemories κ W) (BitVec 64 × BitVec 64) := fun s =>
  match ideal (high u.1) (low u.1) u.2 ((s.1 u.1).1, (s.1 u.1).2, s.2) with
  | (r, (h, l, w)) => (r, (fun k => if k = u.1 then (h, l) else s.1 k, w))

/-- What the library does. -/
def performAmong (m : Machine) (key : κ → KuzToken.Key W) (u : κ × KeyUse W) :
    Io (Kuz.Caches × W) (BitVec 64 × BitVec 64) := perform m (key u.1) u.2

/-- The ten caches of each key are its own. -/
def OwnCaches (base : κ → Nat) : Prop := ∀ a b, a ≠ b → base a + 10 ≤ base b ∨ base b + 10 ≤ base a

/-! ### Keys derived from another key -/

/-- The same use in a larger world. -/
def KeyUse.within {X : Type} (embed : Io W (BitVec 64 × BitVec 64) → Io X (BitVec 64 × BitVec 64)) :
    KeyUse W → KeyUse X
  | .encrypt block => .encrypt (embed block)
  | .ctr iv before block after => .ctr iv before block after
  | .mac blocks last size => .mac blocks last size

/-- A use of the master key or of the key derived from it. -/
inductive TwoUses (W : Type) where
  | master (u : KeyUse W)
  | derived (u : KeyUse W)

/-- What it should do: the halves of the derived key are the encryptions of the blocks `a` and `b` under the master
key. The world of the derived key contains the memory of the master key. -/
def idealDerived (high low a b : Io W (BitVec 64 × BitVec 64)) :
    TwoUses W → Io (KeyMemory (KeyMemory W)) (BitVec 64 × BitVec 64)
  | .master u => besides (ideal high low u)
  | .derived u => ideal (ideal high low (.encrypt a)) (ideal high low (.encrypt b))
      (u.within besides)

/-- The derived key in the library: `Key::Data` of a user whose `high()` and `low()` are encryptions under the
master key. For it the caches of the master key are a part of the outside world. -/
def derivedKey (m : Machine) (master : KuzToken.Key W) (a b : Io W (BitVec 64 × BitVec 64)) (base : Nat) :
    KuzToken.Key (Kuz.Caches × W) :=
  KuzToken.Key.ofBlocks (.user ((KuzToken.BlkEncrypted (.user a) master).value m))
    (.user ((KuzToken.BlkEncrypted (.user b) master).value m)) base

/-- What the library does. -/
def performDerived (m : Machine) (master : KuzToken.Key W) (a b : Io W (BitVec 64 × BitVec 64)) (base : Nat) :
    TwoUses W → Io (Kuz.Caches × (Kuz.Caches × W)) (BitVec 64 × BitVec 64)
  | .master u => KuzToken.outside (perform m master u)
  | .derived u => perform m (derivedKey m master a b base) (u.within KuzToken.outside)

/-- The result of the standard for the master key `K` and the key derived from it. -/
def derivedResult (K : BitVec 256) (a b : BitVec 64 × BitVec 64) : TwoUses W → Io W (BitVec 64 × BitVec 64)
  | .master u => kuzResult K u
  | .derived u => kuzResult (Spec.Kuz.enc K (join64 a) ++ Spec.Kuz.enc K (join64 b)) u

end Spec
