import Verif.Model.ScarceThreads
import Verif.Spec.Concurrent
/-
Specification: programs on a machine that may run out of memory.
-/
namespace Spec
open Goost Goost.Conc

/-- What a program may return if every request `o` is answered with some `x` such that `R o x`. -/
def MayReturn {Op Res α : Type} (R : Op → Res → Prop) : Prog Op Res α → α → Prop
  | .ret a, r => r = a
  | .op o k, r => ∃ x, R o x ∧ MayReturn R (k x) r

/-- All requests that the program may make then satisfy `P`. -/
def MayRequest {Op Res α : Type} (P : Op → Prop) (R : Op → Res → Prop) : Prog Op Res α → Prop
  | .ret _ => True
  | .op o k => P o ∧ ∀ x, R o x → MayRequest P R (k x)

/-- The answers to a request `(n, o)`, to do `o` with memory for `n` requests: `answer o`, or `bad_alloc`; the latter
only if `n` is less than `need o`. -/
def RightOrBadAlloc {Op R : Type} (need : Op → Nat) (answer : Op → Exec R) (o : Nat × Op) (x : Exec R) : Prop :=
  x = answer o.2 ∨ o.1 < need o.2 ∧ x = .throw .badAlloc

/-- The program that encrypts the blocks `vs` one after the other, each with memory for so many requests, whether the
others succeed or not, and returns what it has got for each. -/
def encryptEach (key : Kuz.Key) : List (Nat × (W64 × W64)) → Prog (Nat × Kuz.Blk) (Exec (W64 × W64)) (List (Exec (W64 × W64)))
  | [] => .ret []
  | v :: vs => .op (v.1, Kuz.BlkEncrypted (Kuz.BlkRaw.ofPair v.2) key) fun r =>
      (encryptEach key vs).bind fun rs => .ret (r :: rs)

/-- The program that encrypts the blocks `vs` with a key of the 64-bit cipher one after the other, each with some memory
(see `givenMemory`), whether the others succeed or not, and returns what it has got for each. -/
def encryptEach64 (sbox : Magma.Sbox) : List ((Nat → Option Nat) × (W32 × W32)) →
    Prog ((Nat → Option Nat) × KeyProg (W32 × W32)) (Exec (W32 × W32)) (List (Exec (W32 × W32)))
  | [] => .ret []
  | v :: vs => .op (v.1, askEncrypt sbox v.2) fun r => (encryptEach64 sbox vs).bind fun rs => .ret (r :: rs)

/-- There is not always memory for a block and for `n` requests of the key. -/
def Short (n : Nat) (memory : Nat → Option Nat) : Prop := ∃ j, ∀ k, memory j = some k → k < n

end Spec
