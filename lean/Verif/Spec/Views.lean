import Verif.Model.Views
import Verif.Spec.Kuznyechik
import Verif.Spec.Bytes
/-
When the data behind a block are read. Moments are numbers of steps: the moment `t` is that before the step number `t`
(from 0) of the program.
-/
namespace Spec.Views
open Goost.Views (How Step)

/-- The blocks an object is made of. -/
def _root_.Goost.Views.How.blocks : How → List Nat
  | .own _ | .fixed _ => []
  | .copy a | .cached a | .substituted a | .mixed a | .rotated a | .shifted a _ | .next a => [a]
  | .xored a b => [a, b]
  | .key h l => [h, l]
  | .encrypted b _ => [b]

/-- The key an object is made of. -/
def _root_.Goost.Views.How.keys : How → List Nat
  | .encrypted _ k => [k]
  | _ => []

/-- Blocks are shifted by 1 to 63 bits (C52). -/
def _root_.Goost.Views.How.possible : How → Bool
  | .shifted _ n => decide (1 ≤ n ∧ n ≤ 63)
  | _ => true

/-- The object number `i` is a block, not a key. -/
def isBlock (made : List How) (i : Nat) : Bool :=
  match made[i]? with
  | some (.key _ _) => false
  | some _ => true
  | none => false

/-- The object number `i` is a key. -/
def isKey (made : List How) (i : Nat) : Bool :=
  match made[i]? with
  | some (.key _ _) => true
  | _ => false

/-- A program that uses only objects it has made, blocks where blocks are wanted and keys where keys are, and shifts blocks by
1 to 63 bits. -/
def sound (made : List How) : List Step → Bool
  | [] => true
  | .change _ _ :: r => sound made r
  | .make how :: r => how.blocks.all (isBlock made) && how.keys.all (isKey made) && how.possible && sound (made ++ [how]) r
  | .ask i :: r => isBlock made i && sound made r

/-- How the objects of a program are made, with the moments at which they are. -/
def objects (p : List Step) : List (How × Nat) :=
  p.zipIdx.filterMap fun
    | (.make how, t) => some (how, t)
    | _ => none

/-- The calls of `value()` in a program: objects and moments. -/
def asked (p : List Step) : List (Nat × Nat) :=
  p.zipIdx.filterMap fun
    | (.ask i, t) => some (i, t)
    | _ => none

/-- The variable `c` at a moment. -/
def contents (start : Nat → BitVec 64 × BitVec 64) (p : List Step) (c t : Nat) : BitVec 64 × BitVec 64 :=
  (p.take t).foldl (fun v s => match s with | .change d x => if c = d then x else v | _ => v) (start c)

/-- The value of the object `i` is computed from that of `j`, or is it. A copy is not computed from anything any more. -/
inductive RestsOn (p : List Step) : Nat → Nat → Prop
  | self (i : Nat) : RestsOn p i i
  | through {i a j : Nat} {how : How} {t : Nat} : (objects p)[i]? = some (how, t) → (∀ x, how ≠ .copy x) →
      a ∈ how.blocks ++ how.keys → RestsOn p a j → RestsOn p i j

/-- The step number `t` of the program needs the value of the object `j`. -/
def Uses (p : List Step) (t j : Nat) : Prop :=
  ∃ i, (p[t]? = some (.ask i) ∨ p[t]? = some (.make (.copy i))) ∧ RestsOn p i j

/-- `u` is the moment at which the object `j` has been used for the first time, or `t` if it has not been used before `t`. -/
def FirstUse (p : List Step) (j t u : Nat) : Prop :=
  u ≤ t ∧ (∀ s, s < u → ¬ Uses p s j) ∧ (u = t ∨ Uses p u j)

/-- What the object `i` shows at the moment `t`: a copy what the original showed when it was copied, a cached block what the
block showed when the cached block was used for the first time, an encrypted block what the cipher gives for the block as it
is and the halves of the key as they were when the key was used for the first time; all others what they are made of shows
now. -/
inductive Shows (start : Nat → BitVec 64 × BitVec 64) (p : List Step) : Nat → Nat → BitVec 128 → Prop
  | own {i t t₀ c : Nat} : (objects p)[i]? = some (.own c, t₀) → Shows start p i t (join64 (contents start p c t))
  | fixed {i t t₀ : Nat} {v : BitVec 64 × BitVec 64} : (objects p)[i]? = some (.fixed v, t₀) → Shows start p i t (join64 v)
  | copy {i t t₀ a : Nat} {x : BitVec 128} : (objects p)[i]? = some (.copy a, t₀) → Shows start p a t₀ x → Shows start p i t x
  | cached {i t t₀ a u : Nat} {x : BitVec 128} : (objects p)[i]? = some (.cached a, t₀) → FirstUse p i t u →
      Shows start p a u x → Shows start p i t x
  | xored {i t t₀ a b : Nat} {x y : BitVec 128} : (objects p)[i]? = some (.xored a b, t₀) → Shows start p a t x →
      Shows start p b t y → Shows start p i t (x ^^^ y)
  | substituted {i t t₀ a : Nat} {x : BitVec 128} : (objects p)[i]? = some (.substituted a, t₀) → Shows start p a t x →
      Shows start p i t (Kuz.S x)
  | mixed {i t t₀ a : Nat} {x : BitVec 128} : (objects p)[i]? = some (.mixed a, t₀) → Shows start p a t x →
      Shows start p i t (Kuz.L x)
  | rotated {i t t₀ a : Nat} {x : BitVec 128} : (objects p)[i]? = some (.rotated a, t₀) → Shows start p a t x →
      Shows start p i t (Kuz.R x)
  | shifted {i t t₀ a n : Nat} {x : BitVec 128} : (objects p)[i]? = some (.shifted a n, t₀) → Shows start p a t x →
      Shows start p i t (x <<< n)
  | next {i t t₀ a : Nat} {x : BitVec 128} : (objects p)[i]? = some (.next a, t₀) → Shows start p a t x →
      Shows start p i t (x + 1)
  | encrypted {i t t₀ t₁ b k h l u : Nat} {x y z : BitVec 128} : (objects p)[i]? = some (.encrypted b k, t₀) →
      (objects p)[k]? = some (.key h l, t₁) → FirstUse p k t u → Shows start p h u x → Shows start p l u y →
      Shows start p b t z → Shows start p i t (Kuz.enc (x ++ y) z)

end Spec.Views
