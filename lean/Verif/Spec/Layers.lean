import Verif.Model.Layers
import Verif.Spec.Keys
import Verif.Spec.Magma
import Verif.Spec.Modes
import Verif.Spec.Bytes
/-
Specification: what a stack of layers does to the blocks of the data.
-/
namespace Spec
open Goost Goost.Magma Goost.Layers Spec.Magma Spec.Modes

/-- The round functions of a key object: what its `transform` returns. -/
def roundFunctions (key : Key) (i : Fin 8) (v : BitVec 32) : BitVec 32 :=
  match key.transform v (i.val : Int) with
  | .ok r => r
  | _ => 0

/-- The key of a layer. -/
def Layer.key : Layer → Key
  | .ecb key => key
  | .cfb key _ _ => key
  | .gostCfb key _ => key

/-- The key of the layer is a `LazyKey` that answers for each of the eight indices. -/
def Layer.Usable (l : Layer) : Prop := Spec.Usable (Layer.key l) ∧ (Layer.key l).isLazy = true

/-- The layer takes data in pieces of any sizes. -/
def Layer.AnySizes : Layer → Prop
  | .ecb _ => False
  | .cfb _ _ _ => True
  | .gostCfb _ _ => True

/-- What a layer does to the blocks that are written to it: the mode of operation of its class. -/
def Layer.enc : Layer → List (BitVec 64) → List (BitVec 64)
  | .ecb key => ecb (encF (roundFunctions key))
  | .cfb key ivl ivr => cfbEnc (encF (roundFunctions key)) [ivl, ivr]
  | .gostCfb key iv => cfbEnc (encF (roundFunctions key)) [iv]

/-- What a layer does to the blocks that it reads. -/
def Layer.dec : Layer → List (BitVec 64) → List (BitVec 64)
  | .ecb key => ecb (decF (roundFunctions key))
  | .cfb key ivl ivr => cfbDec (encF (roundFunctions key)) [ivl, ivr]
  | .gostCfb key iv => cfbDec (encF (roundFunctions key)) [iv]

/-- The blocks go through the layers one after the other, the first (outermost) layer first. -/
def stackEnc (ls : List Layer) (p : List (BitVec 64)) : List (BitVec 64) :=
  ls.foldl (fun p l => Layer.enc l p) p

/-- The blocks go through the layers one after the other, the last (innermost) layer first. -/
def stackDec (ls : List Layer) (c : List (BitVec 64)) : List (BitVec 64) :=
  ls.foldr Layer.dec c

end Spec
