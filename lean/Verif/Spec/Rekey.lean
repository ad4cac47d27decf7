import Verif.Model.Live
import Verif.Spec.Bytes
/-
Specification: streams whose key is changed between their calls. The key consults a state `Ω` outside of
the stream (a file, a token, a variable of the program), and the program changes that state when it likes.
-/
namespace Spec.Rekey
open Goost
variable {Ω V σ τ α : Type}

/-- What the program does: it changes the state that the key consults, or it calls the stream. -/
inductive Step (Ω α : Type) where
  | change (ω : Ω)
  | call (a : α)

/-- The key gives the answers that belong to the present state, and leaves the state as it is. -/
structure Follows (k : Live.Key (Ω × V)) (f : Ω → Fin 8 → BitVec 32 → BitVec 32) : Prop where
  isLazy : k.isLazy = true
  answers : ∀ x (i : Fin 8) ω v, k.transform x (i.val : Int) (ω, v) = (.ok (f ω i x), (ω, v))

/-- The state after the steps. -/
def stateAfter : Ω → List (Step Ω α) → Ω
  | ω, [] => ω
  | _, .change ω :: l => stateAfter ω l
  | ω, .call _ :: l => stateAfter ω l

/-- The bytes that are written, each with the state at that moment. -/
def written : Ω → List (Step Ω (List Byte)) → List (Byte × Ω)
  | _, [] => []
  | _, .change ω :: l => written ω l
  | ω, .call d :: l => d.map (fun b => (b, ω)) ++ written ω l

/-- The data that are written. -/
def dataOf : List (Step Ω (List Byte)) → List Byte
  | [] => []
  | .change _ :: l => dataOf l
  | .call d :: l => d ++ dataOf l

/-- For each byte that is asked for, the state at that moment. -/
def demanded : Ω → List (Step Ω Nat) → List Ω
  | _, [] => []
  | _, .change ω :: l => demanded ω l
  | ω, .call n :: l => List.replicate n ω ++ demanded ω l

/-- For each call, the state at that moment. -/
def called : Ω → List (Step Ω α) → List Ω
  | _, [] => []
  | _, .change ω :: l => called ω l
  | ω, .call _ :: l => ω :: called ω l

/-- The complete blocks of bytes with states; each has the state of its last byte. -/
def byLast : List (Byte × Ω) → List (Ω × BitVec 64)
  | b0 :: b1 :: b2 :: b3 :: b4 :: b5 :: b6 :: b7 :: rest =>
    (b7.2, block64 [b0.1, b1.1, b2.1, b3.1, b4.1, b5.1, b6.1, b7.1]) :: byLast rest
  | _ => []

/-- The states of the first bytes of blocks of eight. -/
def byFirst : List Ω → List Ω
  | [] => []
  | ω :: l => ω :: byFirst (l.drop 7)
termination_by l => l.length
decreasing_by simp only [List.length_drop, List.length_cons]; omega

/-- Cipher feedback where every block has a cipher of its own, encryption (see `Modes.cfbEnc`). -/
def cfbEncBy (E : Ω → BitVec 64 → BitVec 64) : List (BitVec 64) → List (Ω × BitVec 64) → List (BitVec 64)
  | r :: R, (ω, p) :: ps => (p ^^^ E ω r) :: cfbEncBy E (R ++ [p ^^^ E ω r]) ps
  | _, _ => []

/-- Cipher feedback where every block has a cipher of its own, decryption (see `Modes.cfbDec`). -/
def cfbDecBy (E : Ω → BitVec 64 → BitVec 64) : List (BitVec 64) → List (Ω × BitVec 64) → List (BitVec 64)
  | r :: R, (ω, c) :: cs => (c ^^^ E ω r) :: cfbDecBy E (R ++ [c]) cs
  | _, _ => []

/-- The steps are carried out on a sink. -/
def writeSteps (wr : τ → List Byte → Io (Ω × V) τ) : List (Step Ω (List Byte)) → τ → Io (Ω × V) τ
  | [], t => pure t
  | .change ω :: l, t => fun w => writeSteps wr l t (ω, w.2)
  | .call d :: l, t => do
    let t ← wr t d
    writeSteps wr l t

/-- The steps are carried out on a source; the result is all that has been read. -/
def readSteps (rd : σ → Nat → Io (Ω × V) (List Byte × σ)) :
    List (Step Ω Nat) → σ → Io (Ω × V) (List Byte × σ)
  | [], t => pure ([], t)
  | .change ω :: l, t => fun w => readSteps rd l t (ω, w.2)
  | .call n :: l, t => do
    let (x, t) ← rd t n
    let (y, t) ← readSteps rd l t
    pure (x ++ y, t)

/-- The steps of a reader who does what the writer did: the same changes, and for each piece written a read
of its size. -/
def mirror : List (Step Ω (List Byte)) → List (Step Ω Nat)
  | [] => []
  | .change ω :: l => .change ω :: mirror l
  | .call d :: l => .call d.length :: mirror l

end Spec.Rekey
