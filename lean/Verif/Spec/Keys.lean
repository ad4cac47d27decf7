import Verif.Model.MagmaKey
/-
Specification: what a Magma key object computes, as its user sees it.
-/
namespace Spec
open Goost Goost.Magma

/-- The key object computes the round functions `f 0 … f 7`: `transform(v, i)` returns `f i v` for
each of the eight indices. -/
def Computes (key : Key) (f : Fin 8 → BitVec 32 → BitVec 32) : Prop :=
  ∀ (v : BitVec 32) (i : Fin 8), key.transform v (i.val : Int) = .ok (f i v)

/-- The key object answers for each of the eight indices (it neither throws nor runs into undefined
behaviour). -/
def Usable (key : Key) : Prop :=
  ∀ (v : BitVec 32) (i : Fin 8), ∃ r, key.transform v (i.val : Int) = .ok r

/-- Eight native words as the 256-bit number they denote, the first word being the most significant. -/
def natOfWords (ws : List (BitVec 32)) : Nat := ws.foldl (fun n w => n * 2 ^ 32 + w.toNat) 0

/-- Runs a history of calls of one object: every call acts on the state left by the previous one, also
when that one failed. Returns the results of the calls and the final state. -/
def runCalls {γ S α : Type} (call : γ → S → Exec α × S) : List γ → S → List (Exec α) × S
  | [], s => ([], s)
  | c :: cs, s =>
    let (r, s) := call c s
    let (rs, s) := runCalls call cs s
    (r :: rs, s)

/-- Asks a source of key words (with hidden state) for the words 0 … 7 in order, up to the first
failure. -/
def readEight {Ω : Type} (kd : Ω → Int → Exec (BitVec 32) × Ω) (o : Ω) :
    Exec (List (BitVec 32)) × Ω :=
  go kd [0, 1, 2, 3, 4, 5, 6, 7] o
where
  go (kd : Ω → Int → Exec (BitVec 32) × Ω) : List Int → Ω → Exec (List (BitVec 32)) × Ω
    | [], o => (.ok [], o)
    | i :: is, o =>
      let (r, o) := kd o i
      match r with
      | .ok w => let (ws, o) := go kd is o; (ws >>= fun ws => .ok (w :: ws), o)
      | .throw e => (.throw e, o)
      | .ub u => (.ub u, o)
      | .diverge => (.diverge, o)

/-- The ideal memo: what has been computed successfully once is remembered and never computed
again; a failure is reported and nothing is remembered. -/
def memo {Ω β : Type} (compute : Ω → Exec β × Ω) (s : Option β × Ω) : Exec β × (Option β × Ω) :=
  match s with
  | (some b, o) => (.ok b, (some b, o))
  | (none, o) =>
    let (r, o) := compute o
    match r with
    | .ok b => (.ok b, (some b, o))
    | .throw e => (.throw e, (none, o))
    | .ub u => (.ub u, (none, o))
    | .diverge => (.diverge, (none, o))

end Spec
