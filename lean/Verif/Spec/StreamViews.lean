import Verif.Model.StreamViews
import Verif.Spec.Modes
import Verif.Spec.Kuznyechik
import Verif.Spec.Bytes
/-
When the data behind streams and keys are read. Moments are numbers of steps: the moment `t` is that before the step number
`t` (from 0) of the program.
-/
namespace Spec.StreamViews
open Goost.StreamViews (How Step Query Answer)
open Spec.Modes

/-! ### What a program has made -/

/-- The keys of a program: the variables of their halves. -/
def keys (p : List Step) : List (Nat × Nat) :=
  p.filterMap fun
    | .key h l => some (h, l)
    | _ => none

/-- The streams of a program, with the moments at which they are made. -/
def streams (p : List Step) : List (How × Nat) :=
  p.zipIdx.filterMap fun
    | (.stream how, t) => some (how, t)
    | _ => none

/-- The iterators of a program: the number of the stream and the position in it. -/
def iterators (p : List Step) : List (Nat × Nat) :=
  p.foldl (fun l s => match s with
    | .iter i => l ++ [(i, 0)]
    | .next i => l ++ (l[i]?.map fun x => (x.1, x.2 + 1)).toList
    | _ => l) []

/-- The calls of a program and their moments. -/
def asked (p : List Step) : List (Query × Nat) :=
  p.zipIdx.filterMap fun
    | (.ask q, t) => some (q, t)
    | _ => none

/-- A program that uses only what it has, makes streams of at least one block, and does not call `next()` at the last block.
It has `n` keys, streams of these lengths, and iterators at these places (stream and position). -/
def sound (n : Nat) (lengths : List Nat) (its : List (Nat × Nat)) : List Step → Bool
  | [] => true
  | .change _ _ :: r => sound n lengths its r
  | .key _ _ :: r => sound (n + 1) lengths its r
  | .stream (.own cells _) :: r => decide (cells ≠ []) && sound n (lengths ++ [cells.length]) its r
  | .stream (.memory cells) :: r => decide (cells ≠ []) && sound n (lengths ++ [cells.length]) its r
  | .stream (.ctr s k _) :: r =>
    match lengths[s]? with
    | some l => decide (k < n) && sound n (lengths ++ [l]) its r
    | none => false
  | .iter s :: r => decide (s < lengths.length) && sound n lengths (its ++ [(s, 0)]) r
  | .next i :: r =>
    match its[i]? with
    | some x => decide (x.2 + 1 < lengths.getD x.1 0) && sound n lengths (its ++ [(x.1, x.2 + 1)]) r
    | none => false
  | .ask (.mac s k) :: r => decide (s < lengths.length ∧ k < n) && sound n lengths its r
  | .ask (.value i) :: r | .ask (.last i) :: r | .ask (.size i) :: r => decide (i < its.length) && sound n lengths its r

/-! ### What it shows -/

/-- The variable `c` at a moment. -/
def contents (start : Nat → BitVec 64 × BitVec 64) (p : List Step) (c t : Nat) : BitVec 128 :=
  join64 ((p.take t).foldl (fun v s => match s with | .change d x => if c = d then x else v | _ => v) (start c))

/-- The key `k` is one of those with which the stream `s` is encrypted, by itself or below. -/
inductive Under (p : List Step) : Nat → Nat → Prop
  | here {s a k t : Nat} {iv : BitVec 64} : (streams p)[s]? = some (.ctr a k iv, t) → Under p s k
  | inside {s a k k' t : Nat} {iv : BitVec 64} : (streams p)[s]? = some (.ctr a k' iv, t) → Under p a k → Under p s k

/-- The step number `t` of the program encrypts with the key `k`. Neither the making of streams and iterators nor `last()` and
`size()` do. -/
def Uses (p : List Step) (t k : Nat) : Prop :=
  (∃ i s j, p[t]? = some (.ask (.value i)) ∧ (iterators p)[i]? = some (s, j) ∧ Under p s k) ∨
  (∃ s k', p[t]? = some (.ask (.mac s k')) ∧ (k = k' ∨ Under p s k))

/-- `u` is the moment at which the key `k` has been used for the first time, or `t` if it has not been used before `t`. -/
def FirstUse (p : List Step) (k t u : Nat) : Prop :=
  u ≤ t ∧ (∀ s, s < u → ¬ Uses p s k) ∧ (u = t ∨ Uses p u k)

/-- The key `k` is `K` at the moment `t`: what its variables were when it was used for the first time. -/
def KeyAt (start : Nat → BitVec 64 × BitVec 64) (p : List Step) (k t : Nat) (K : BitVec 256) : Prop :=
  ∃ h l u, (keys p)[k]? = some (h, l) ∧ FirstUse p k t u ∧ K = contents start p h u ++ contents start p l u

/-- The blocks of the stream `s` at the moment `t`: those of a stream of the user are what the variables are now, those of a
stream in memory what they were when it was made, and those of an encrypted stream the encryption by counter mode of what the
stream below is now. -/
inductive Data (start : Nat → BitVec 64 × BitVec 64) (p : List Step) : Nat → Nat → List (BitVec 128) → Prop
  | own {s t t₀ n : Nat} {cells : List Nat} : (streams p)[s]? = some (.own cells n, t₀) →
      Data start p s t (cells.map fun c => contents start p c t)
  | memory {s t t₀ : Nat} {cells : List Nat} : (streams p)[s]? = some (.memory cells, t₀) →
      Data start p s t (cells.map fun c => contents start p c t₀)
  | ctr {s t t₀ a k : Nat} {iv : BitVec 64} {xs : List (BitVec 128)} {K : BitVec 256} :
      (streams p)[s]? = some (.ctr a k iv, t₀) → Data start p a t xs → KeyAt start p k t K →
      Data start p s t (Modes.ctr (k := 64) (Kuz.enc K) iv xs)

/-- The size of the last block of the stream `s`. -/
inductive LastSize (p : List Step) : Nat → Nat → Prop
  | own {s t n : Nat} {cells : List Nat} : (streams p)[s]? = some (.own cells n, t) → LastSize p s n
  | memory {s t : Nat} {cells : List Nat} : (streams p)[s]? = some (.memory cells, t) → LastSize p s 16
  | ctr {s a k t n : Nat} {iv : BitVec 64} : (streams p)[s]? = some (.ctr a k iv, t) → LastSize p a n → LastSize p s n

/-- The answer that a call at the moment `t` should return. -/
inductive Answers (start : Nat → BitVec 64 × BitVec 64) (p : List Step) : Query → Nat → Answer → Prop
  | value {i t s j : Nat} {xs : List (BitVec 128)} {v : BitVec 64 × BitVec 64} : (iterators p)[i]? = some (s, j) →
      Data start p s t xs → xs[j]? = some (join64 v) → Answers start p (.value i) t (.block v)
  | last {i t s j : Nat} {xs : List (BitVec 128)} : (iterators p)[i]? = some (s, j) → Data start p s t xs →
      Answers start p (.last i) t (.flag (decide (j + 1 = xs.length)))
  | size {i t s j n : Nat} {xs : List (BitVec 128)} : (iterators p)[i]? = some (s, j) → Data start p s t xs →
      LastSize p s n → Answers start p (.size i) t (.number (if j + 1 = xs.length then n else 16))
  | mac {s k t n : Nat} {xs : List (BitVec 128)} {x : BitVec 128} {K : BitVec 256} {v : BitVec 64 × BitVec 64} :
      Data start p s t (xs ++ [x]) → LastSize p s n → KeyAt start p k t K →
      join64 v = omac (Kuz.enc K) (if n = 16 then macK1 (Kuz.enc K) 0x87 else macK2 (Kuz.enc K) 0x87) xs x →
      Answers start p (.mac s k) t (.block v)

end Spec.StreamViews
