import Verif.Spec.Keys
import Verif.Spec.Magma
/-
Rounds of the 64-bit cipher in terms of `Key::transform`, and keys for counting.
-/
namespace Spec.Magma
open Goost.Magma

/-- What the rounds with the words `is` of the key make of a block: each replaces (a, b) by (b ⊕ transform(a), a). -/
def afterRounds (key : Key) : List (Fin 8) → BitVec 32 × BitVec 32 → Goost.Exec (BitVec 32 × BitVec 32)
  | [], v => .ok v
  | i :: is, v => do
    let u ← key.transform v.1 (i.val : Int)
    afterRounds key is (v.2 ^^^ u, v.1)

/-- The key whose words are all `k`, with the substitution of the standard. -/
def wordKey (k : BitVec 32) : Key := LazyKey (fun _ => .ok k) SboxR3412

/-- The key with the words of `K`, with the substitution of the standard. -/
def nativeKey (K : BitVec 256) : Key := LazyKey.ofNative ((List.finRange 8).map (keyWord K)) SboxR3412

/-- The difference of two blocks. -/
def difference (v w : BitVec 32 × BitVec 32) : BitVec 32 × BitVec 32 := (v.1 ^^^ w.1, v.2 ^^^ w.2)

end Spec.Magma
