import Verif.Model.Copies
import Verif.Spec.Views
/-
The program without copies that a program with copies amounts to: whoever has a copy uses the original, and nobody lets go of
anything.
-/
namespace Spec.Copies
open Goost.Views (How Step)
open Goost.Copies (Act)

/-- The object is a key. -/
def makesKey : How → Bool
  | .key _ _ => true
  | _ => false

/-- The same constructor call with other arguments. -/
def with' (f : Nat → Nat) : How → How
  | .own c => .own c
  | .fixed v => .fixed v
  | .copy a => .copy (f a)
  | .cached a => .cached (f a)
  | .xored a b => .xored (f a) (f b)
  | .substituted a => .substituted (f a)
  | .mixed a => .mixed (f a)
  | .rotated a => .rotated (f a)
  | .shifted a n => .shifted (f a) n
  | .next a => .next (f a)
  | .key h l => .key (f h) (f l)
  | .encrypted b k => .encrypted (f b) (f k)

/-- A program that uses only what is in its variables at that time, blocks where blocks are wanted and keys where keys are,
and shifts blocks by 1 to 63 bits. Of every variable it is known whether it has a key or a block; `none` if it has let go of
its object. -/
def sound (vars : List (Option Bool)) : List Act → Bool
  | [] => true
  | .change _ _ :: r => sound vars r
  | .make how :: r => how.blocks.all (fun a => vars[a]? == some (some false)) &&
      how.keys.all (fun a => vars[a]? == some (some true)) && how.possible && sound (vars ++ [some (makesKey how)]) r
  | .ask a :: r => vars[a]? == some (some false) && sound vars r
  | .duplicate a :: r =>
    match vars[a]? with
    | some (some k) => sound (vars ++ [some k]) r
    | _ => false
  | .drop a :: r => sound (vars.set a none) r

/-- The program without copies. `names` says for every variable which object, of those made by constructors, it has or has a
copy of; `n` objects have been made. -/
def plain (names : List Nat) (n : Nat) : List Act → List Step
  | [] => []
  | .change c v :: r => .change c v :: plain names n r
  | .make how :: r => .make (with' (fun a => names.getD a 0) how) :: plain (names ++ [n]) (n + 1) r
  | .ask a :: r => .ask (names.getD a 0) :: plain names n r
  | .duplicate a :: r => plain (names ++ [names.getD a 0]) n r
  | .drop _ :: r => plain names n r

end Spec.Copies
