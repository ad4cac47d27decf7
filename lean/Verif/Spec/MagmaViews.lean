import Verif.Model.MagmaViews
import Verif.Spec.Magma
import Verif.Spec.Bytes
/-
When the data behind blocks and keys of the 64-bit cipher are read. Moments are numbers of steps: the moment `t` is that
before the step number `t` (from 0) of the program.
-/
namespace Spec.MagmaViews
open Goost.MagmaViews (How Step Answer)

/-- The blocks an object is made of. -/
def _root_.Goost.MagmaViews.How.blocks : How → List Nat
  | .own _ | .fixed _ | .key _ | .cachedKey _ | .nativeKey _ => []
  | .copy a | .swapped a | .encrypted a _ | .decrypted a _ => [a]
  | .xored a b => [a, b]

/-- The key an object is made of. -/
def _root_.Goost.MagmaViews.How.keys : How → List Nat
  | .encrypted _ k | .decrypted _ k => [k]
  | _ => []

/-- A key is made. -/
def _root_.Goost.MagmaViews.How.isKey : How → Bool
  | .key _ | .cachedKey _ | .nativeKey _ => true
  | _ => false

/-- The object number `i` is a block, not a key. -/
def isBlock (made : List How) (i : Nat) : Bool :=
  match made[i]? with
  | some how => !how.isKey
  | none => false

/-- The object number `i` is a key. -/
def isKey (made : List How) (i : Nat) : Bool :=
  match made[i]? with
  | some how => how.isKey
  | none => false

/-- A program that uses only objects it has made, blocks where blocks are wanted and keys where keys are. -/
def sound (made : List How) : List Step → Bool
  | [] => true
  | .change _ _ :: r | .rekey _ _ :: r => sound made r
  | .make how :: r => how.blocks.all (isBlock made) && how.keys.all (isKey made) && sound (made ++ [how]) r
  | .ask i :: r => isBlock made i && sound made r
  | .transform k _ :: r => isKey made k && sound made r

/-- How the objects of a program are made, with the moments at which they are. -/
def objects (p : List Step) : List (How × Nat) :=
  p.zipIdx.filterMap fun
    | (.make how, t) => some (how, t)
    | _ => none

/-- The calls of `value()` and `transform` in a program, with their moments. -/
def asked (p : List Step) : List (Step × Nat) :=
  p.zipIdx.filterMap fun
    | (.ask i, t) => some (.ask i, t)
    | (.transform k x, t) => some (.transform k x, t)
    | _ => none

/-- The variable `c` at a moment. -/
def contents (start : Nat → BitVec 32 × BitVec 32) (p : List Step) (c t : Nat) : BitVec 32 × BitVec 32 :=
  (p.take t).foldl (fun v s => match s with | .change d x => if c = d then x else v | _ => v) (start c)

/-- The words `c` at a moment. -/
def wordsAt (start : Nat → Nat → BitVec 32) (p : List Step) (c t : Nat) : Nat → BitVec 32 :=
  (p.take t).foldl (fun v s => match s with | .rekey d k => if c = d then k else v | _ => v) (start c)

/-- The value of the object `i` is computed from the object `j`, or is it. A copy is not computed from anything any more. -/
inductive RestsOn (p : List Step) : Nat → Nat → Prop
  | self (i : Nat) : RestsOn p i i
  | through {i a j : Nat} {how : How} {t : Nat} : (objects p)[i]? = some (how, t) → (∀ x, how ≠ .copy x) →
      a ∈ how.blocks ++ how.keys → RestsOn p a j → RestsOn p i j

/-- The step number `t` of the program needs the object `j`. -/
def Uses (p : List Step) (t j : Nat) : Prop :=
  (∃ i, (p[t]? = some (.ask i) ∨ p[t]? = some (.make (.copy i))) ∧ RestsOn p i j) ∨ ∃ x, p[t]? = some (.transform j x)

/-- `u` is the moment at which the object `j` has been used for the first time, or `t` if it has not been used before `t`. -/
def FirstUse (p : List Step) (j t u : Nat) : Prop :=
  u ≤ t ∧ (∀ s, s < u → ¬ Uses p s j) ∧ (u = t ∨ Uses p u j)

/-- The words of the key `k` at the moment `t`: with data of the user what these show now; with cached data what they showed
when the key was used for the first time; with a vector what the vector was when the key was made. -/
inductive Words (start : Nat → Nat → BitVec 32) (p : List Step) : Nat → Nat → (Nat → BitVec 32) → Prop
  | key {k t t₀ c : Nat} : (objects p)[k]? = some (.key c, t₀) → Words start p k t (wordsAt start p c t)
  | cachedKey {k t t₀ c u : Nat} : (objects p)[k]? = some (.cachedKey c, t₀) → FirstUse p k t u →
      Words start p k t (wordsAt start p c u)
  | nativeKey {k t t₀ c : Nat} : (objects p)[k]? = some (.nativeKey c, t₀) → Words start p k t (wordsAt start p c t₀)

/-- The round functions of the cipher with these words. -/
def round (k : Nat → BitVec 32) (i : Fin 8) : BitVec 32 → BitVec 32 := Magma.g Magma.pi (k i)

/-- What the object `i` shows at the moment `t`: a copy what the original showed when it was copied; all others what they are
made of shows now. -/
inductive Shows (start : Nat → BitVec 32 × BitVec 32) (keys : Nat → Nat → BitVec 32) (p : List Step) :
    Nat → Nat → BitVec 64 → Prop
  | own {i t t₀ c : Nat} : (objects p)[i]? = some (.own c, t₀) → Shows start keys p i t (join32 (contents start p c t))
  | fixed {i t t₀ : Nat} {v : BitVec 32 × BitVec 32} : (objects p)[i]? = some (.fixed v, t₀) →
      Shows start keys p i t (join32 v)
  | copy {i t t₀ a : Nat} {x : BitVec 64} : (objects p)[i]? = some (.copy a, t₀) → Shows start keys p a t₀ x →
      Shows start keys p i t x
  | xored {i t t₀ a b : Nat} {x y : BitVec 64} : (objects p)[i]? = some (.xored a b, t₀) → Shows start keys p a t x →
      Shows start keys p b t y → Shows start keys p i t (x ^^^ y)
  | swapped {i t t₀ a : Nat} {x : BitVec 64} : (objects p)[i]? = some (.swapped a, t₀) → Shows start keys p a t x →
      Shows start keys p i t (x.rotateLeft 32)
  | encrypted {i t t₀ b k : Nat} {x : BitVec 64} {ws : Nat → BitVec 32} : (objects p)[i]? = some (.encrypted b k, t₀) →
      Shows start keys p b t x → Words keys p k t ws → Shows start keys p i t (Magma.encF (round ws) x)
  | decrypted {i t t₀ b k : Nat} {x : BitVec 64} {ws : Nat → BitVec 32} : (objects p)[i]? = some (.decrypted b k, t₀) →
      Shows start keys p b t x → Words keys p k t ws → Shows start keys p i t (Magma.decF (round ws) x)

/-- The answer to a call at the moment `t`. -/
def Right (start : Nat → BitVec 32 × BitVec 32) (keys : Nat → Nat → BitVec 32) (p : List Step) (t : Nat) : Step → Answer → Prop
  | .ask i, .pair v => Shows start keys p i t (join32 v)
  | .transform k x, .word y => ∃ ws, Words keys p k t ws ∧ y = Magma.encF (round ws) x
  | _, _ => False

end Spec.MagmaViews
