import Verif.Spec.Keys
import Mathlib.Data.Set.Card
/-
Keys that look words up in tables, and questions that depend on the answers so far.
-/
namespace Spec.Magma
open Goost.Magma

/-- Eight tables, each with a word for every word. -/
abbrev Tables := Fin 8 → BitVec 32 → BitVec 32

/-- The key of a user whose `transform(value, index)` looks `value` up in the table `index`. -/
def tableKey (f : Tables) : Key := ⟨true, fun value index => .ok (f (Fin.ofNat 8 index.toNat) value)⟩

/-- The answers to `q` questions. Each question may depend on the answers to the earlier ones. -/
def answers {β : Type} (reply : β → Goost.Exec β) (ask : List β → β) : Nat → Goost.Exec (List β)
  | 0 => .ok []
  | q + 1 => do
    let l ← answers reply ask q
    let w ← reply (ask l)
    return l ++ [w]

/-- Whatever the answers, the first `q` questions differ from each other. -/
def NeverRepeats {β : Type} (ask : List β → β) (q : Nat) : Prop :=
  ∀ l : List β, l.length < q → ∀ i < l.length, ask (l.take i) ≠ ask l

/-- The same with questions of two kinds: `(true, v)` asks what `v` is taken to, `(false, w)` asks what is taken to `w`. -/
def answersBoth {β : Type} (reply back : β → Goost.Exec β) (ask : List β → Bool × β) : Nat → Goost.Exec (List β)
  | 0 => .ok []
  | q + 1 => do
    let l ← answersBoth reply back ask q
    let w ← if (ask l).1 then reply (ask l).2 else back (ask l).2
    return l ++ [w]

/-- What the answer `i` says: a block, and what it is taken to. -/
def learned {β : Type} (ask : List β → Bool × β) (l : List β) (i : Nat) (hi : i < l.length) : β × β :=
  if (ask (l.take i)).1 then ((ask (l.take i)).2, l[i]) else (l[i], (ask (l.take i)).2)

/-- Whatever the answers, none of the first `q` questions is one whose answer is known from the earlier ones. -/
def AsksNew {β : Type} (ask : List β → Bool × β) (q : Nat) : Prop :=
  ∀ l : List β, l.length < q → ∀ (i : Nat) (hi : i < l.length),
    if (ask l).1 then (learned ask l i hi).1 ≠ (ask l).2 else (learned ask l i hi).2 ≠ (ask l).2

end Spec.Magma
