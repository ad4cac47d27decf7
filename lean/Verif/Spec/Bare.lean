import Verif.Model.Bare
/-
Specification: streams that a `shared_ptr` owns.
-/
namespace Spec
open Goost Goost.Bare

/-- Stream `k` exists and a `shared_ptr` owns it, of which it knows. -/
def OwnedByShared (s : State) (k : Nat) (data : List W64) : Prop := ∃ n, s.streams[k]? = some (data, .shared n)

/-- Stream `k` exists and no `shared_ptr` has ever owned it. -/
def NeverShared (s : State) (k : Nat) (data : List W64) : Prop := s.streams[k]? = some (data, .bare)

/-- Stream `k` exists and is owned by `shared_ptr`s that were made from a pointer to the base class. -/
def OwnedUnknown (s : State) (k : Nat) (data : List W64) : Prop := ∃ n, s.streams[k]? = some (data, .hidden n)

/-- A program that keeps to the rules: it iterates only streams that a `shared_ptr` owns, of which they
know, and whose words make whole blocks, from the beginning of a block, and steps iterators only while the stream
exists. -/
def ByTheRules (thisFirst : Bool) : State → List Op → Prop
  | _, [] => True
  | s, op :: ops =>
    (match op with
      | .nextIter k offset => offset % 16 = 0 ∧ ∀ c, s.streams[k]? = some c → c.1.length % 2 = 0 ∧ ∃ n, c.2 = .shared n
      | .next i => ∀ k it, s.iters[i]? = some (k, it) → ∃ data, OwnedByShared s k data
      | .duplicate k => ∀ data, s.streams[k]? ≠ some (data, .gone)
      | _ => True) ∧ ∀ t, s.step thisFirst op = .ok t → ByTheRules thisFirst t ops

/-- Stream `k`, which was made with the words `data`, has been destroyed. -/
def Destroyed (s : State) (k : Nat) (data : List W64) : Prop := s.streams[k]? = some (data, .gone)

/-- The first `shared_ptr` of stream `k` having been made before, a `shared_ptr` is left after every beginning of the
history: so many were destroyed at most as copies were made. -/
def AlwaysLeft (k : Nat) (ops : List Op) : Prop :=
  ∀ n, (ops.take n).count (.drop k) ≤ (ops.take n).count (.copy k)

end Spec
