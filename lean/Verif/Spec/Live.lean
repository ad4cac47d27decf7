import Verif.Model.Live
import Verif.Spec.Magma
/-
Specification: objects with a state of their own that answer like objects without one.
-/
namespace Spec
open Goost Goost.Magma
variable {Ω V σ τ σ' τ' α β : Type}

/-- Both calls succeed, with results that correspond, or both fail in the same way. -/
def SameOutcome (R : α → β → Prop) : Exec α → Exec β → Prop
  | .ok a, .ok b => R a b
  | .throw e, .throw e' => e = e'
  | .ub u, .ub u' => u = u'
  | .diverge, .diverge => True
  | _, _ => False

/-- The call `x`, in a world that has a further part `Ω`, does the same as the call `y`: whatever the state
of the further part (if it satisfies `I`, and then it does so afterwards), the outcomes correspond, and so
does what happens to the world. -/
def SameCall (I : Ω → Prop) (R : α → β → Prop) (x : Io (Ω × V) α) (y : Io V β) : Prop :=
  ∀ ω v, I ω → ∃ ω', I ω' ∧ (x (ω, v)).2 = (ω', (y v).2) ∧ SameOutcome R (x (ω, v)).1 (y v).1

/-- The key `k`, whose state is a part of the world, always gives the answers of the key `q`. -/
def AnswersLike (I : Ω → Prop) (k : Live.Key (Ω × V)) (q : Magma.Key) : Prop :=
  k.isLazy = q.isLazy ∧
    ∀ v i, SameCall I Eq (k.transform v i) (Io.lift (q.transform v i) : Io V _)

/-- The writes of corresponding sinks do the same and lead to corresponding sinks. -/
def SameSink (I : Ω → Prop) (R : τ → τ' → Prop) (wr : τ → List Byte → Io (Ω × V) τ)
    (wr' : τ' → List Byte → Io V τ') : Prop :=
  ∀ s s' d, R s s' → SameCall I R (wr s d) (wr' s' d)

/-- The reads of corresponding sources return the same bytes and lead to corresponding sources. -/
def SameSource (I : Ω → Prop) (R : σ → σ' → Prop) (rd : σ → Nat → Io (Ω × V) (List Byte × σ))
    (rd' : σ' → Nat → Io V (List Byte × σ')) : Prop :=
  ∀ s s' n, R s s' → SameCall I (fun x y => x.1 = y.1 ∧ R x.2 y.2) (rd s n) (rd' s' n)

/-- The sources that correspond: both decrypt, with the same key, or both have come to the end. -/
def SameECBSource (R : σ → σ' → Prop) (k : Live.Key (Ω × V)) (q : Magma.Key) :
    Live.ECBSource (Ω × V) σ → Magma.ECBSource σ' → Prop
  | .ecb s k', .ecb s' q' => R s s' ∧ k' = k ∧ q' = q
  | .bare s, .bare s' => R s s'
  | _, _ => False

/-- The `CFBSink`s that correspond: over sinks that correspond, in the same state. -/
def SameCFBSink (R : τ → τ' → Prop) (k : Live.Key (Ω × V)) (q : Magma.Key) (t : Live.CFBSink (Ω × V) τ)
    (t' : Magma.CFBSink τ') : Prop :=
  R t.sink t'.sink ∧ t.key = k ∧ t'.key = q ∧ (t.ivl, t.ivr, t.plain) = (t'.ivl, t'.ivr, t'.plain)

/-- The `CFBSource`s that correspond: over sources that correspond, in the same state. -/
def SameCFBSource (R : σ → σ' → Prop) (k : Live.Key (Ω × V)) (q : Magma.Key) (t : Live.CFBSource (Ω × V) σ)
    (t' : Magma.CFBSource σ') : Prop :=
  R t.source t'.source ∧ t.key = k ∧ t'.key = q ∧ (t.ivl, t.ivr, t.plain) = (t'.ivl, t'.ivr, t'.plain)

/-- The same for `gost89::CFBSink`. -/
def SameGostSink (R : τ → τ' → Prop) (k : Live.Key (Ω × V)) (q : Magma.Key)
    (t : Live.Gost89.CFBSink (Ω × V) τ) (t' : Goost.Gost89.CFBSink τ') : Prop :=
  R t.sink t'.sink ∧ t.key = k ∧ t'.key = q ∧ (t.iv, t.plain) = (t'.iv, t'.plain)

/-- The same for `gost89::CFBSource`. -/
def SameGostSource (R : σ → σ' → Prop) (k : Live.Key (Ω × V)) (q : Magma.Key)
    (t : Live.Gost89.CFBSource (Ω × V) σ) (t' : Goost.Gost89.CFBSource σ') : Prop :=
  R t.source t'.source ∧ t.key = k ∧ t'.key = q ∧ (t.iv, t.plain) = (t'.iv, t'.plain)

/-- A call that does not know of the further part of the world. -/
def aside (x : Io V α) : Io (Ω × V) α := fun w => ((x w.2).1, (w.1, (x w.2).2))

/-- The key `q`, together with a record of the indices it has been asked for. -/
def recordedKey (q : Magma.Key) : Live.Key (List (Fin 8) × V) where
  isLazy := q.isLazy
  transform v i := fun w => (q.transform v i, (w.1 ++ [Fin.ofNat 8 i.toNat], w.2))

/-- The key `q` on a token that is withdrawn after a number of questions: it throws `e` from then on. -/
def tokenKey (q : Magma.Key) (e : Exn) : Live.Key (Nat × V) where
  isLazy := q.isLazy
  transform v i := fun w => if w.1 = 0 then (.throw e, w) else (q.transform v i, (w.1 - 1, w.2))

/-- How many encryptions `Imit` makes for a message of `n` bytes: one per block, and two or four for the
subkey (it encrypts the zero block anew each time a value is wanted). -/
def macEncryptions (n : Nat) : Nat := (n + 7) / 8 + if n % 8 = 0 then 2 else 4

end Spec
