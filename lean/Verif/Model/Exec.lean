/-
Execution model: outcomes of C++ calls, external effects, checked vectors, little-endian
bytes.  This file models the C++ language and library facilities used in /repo, not a file of
/repo itself; every use site cites the code.
-/
namespace Goost

/-- `std::byte` / `uint8_t`. Used in all interfaces, e.g. goost/Source.h, goost/Sink.h. -/
abbrev Byte := BitVec 8
/-- `uint32_t`. Used in e.g. goost/magma/Block.h. -/
abbrev W32 := BitVec 32
/-- `uint64_t`. Used in e.g. goost/kuznyechik/Block.h. -/
abbrev W64 := BitVec 64

/-- The kinds of undefined behaviour that the code can run into. They are met in e.g.
goost/magma/BlkRaw.cpp:34-35 (`oobRead`), goost/magma/ECBSource.cpp:54 (`oobWrite`),
goost/kuznyechik/StMemory.cpp:63 (`nullDeref`), goost/magma/BlkShifted.cpp:19 (`badShift`). -/
inductive UB where
  /-- read outside a vector or buffer -/
  | oobRead
  /-- write outside a vector or buffer -/
  | oobWrite
  /-- member call through a null pointer -/
  | nullDeref
  /-- shift count negative or not smaller than the width -/
  | badShift
  /-- use of an uninitialised variable -/
  | uninit
  /-- load through a pointer that is not suitably aligned -/
  | misaligned
  /-- member call on an object that has been destroyed -/
  | useAfterFree
  /-- a signed result that its type does not have -/
  | overflow
  deriving DecidableEq, Repr

/-- The C++ exceptions that the code, or the library functions it calls, throw. They are thrown in e.g.
goost/magma/KeyDataString.cpp:20-25, goost/magma/BlkString.cpp:23. -/
inductive Exn where
  | runtimeError (what : String)
  | invalidArgument
  | outOfRange
  /-- `std::bad_alloc` (only in Model/Scarce) -/
  | badAlloc
  /-- `std::bad_weak_ptr` (only in Model/Bare) -/
  | badWeakPtr
  /-- any exception of a user-supplied object -/
  | user (n : Nat)
  deriving DecidableEq, Repr

/-- Outcome of a call. `diverge` is the outcome of a loop whose step budget is used up. Outcome of any
function of /repo, e.g. goost/magma/LazyKey.cpp:40-43. -/
inductive Exec (α : Type) where
  | ok (a : α)
  | throw (e : Exn)
  | ub (u : UB)
  | diverge
  deriving DecidableEq, Repr

namespace Exec
variable {α β : Type}

/-- Sequence of two calls, e.g. goost/magma/LazyKey.cpp:42: an exception of the first ends both. -/
def bind (x : Exec α) (f : α → Exec β) : Exec β :=
  match x with
  | ok a => f a
  | throw e => throw e
  | ub u => ub u
  | diverge => diverge

instance : Monad Exec where
  pure := ok
  bind := bind

@[simp] theorem pure_eq (a : α) : (pure a : Exec α) = ok a := rfl
@[simp] theorem ok_bind (a : α) (f : α → Exec β) : (ok a >>= f) = f a := rfl
@[simp] theorem throw_bind (e : Exn) (f : α → Exec β) : (throw e >>= f) = throw e := rfl
@[simp] theorem ub_bind (u : UB) (f : α → Exec β) : (ub u >>= f) = ub u := rfl
@[simp] theorem diverge_bind (f : α → Exec β) : (diverge >>= f) = diverge := rfl

instance : LawfulMonad Exec := LawfulMonad.mk'
  (id_map := by intro α x; cases x <;> rfl)
  (pure_bind := by intros; rfl)
  (bind_assoc := by intro α β γ x f g; cases x <;> rfl)

end Exec

/-- A call that also acts on an external world `W` (files, sockets, logs of user-supplied
sources and sinks). Effects made before an exception stay. Outcome of the functions of goost/Source.h and
goost/Sink.h. -/
def Io (W α : Type) := W → Exec α × W

namespace Io
variable {W α β : Type}

/-- Sequence of two calls that act on the world, e.g. goost/magma/ECBSink.cpp:35 in its loop. -/
def bind (x : Io W α) (f : α → Io W β) : Io W β := fun w =>
  match x w with
  | (.ok a, w') => f a w'
  | (.throw e, w') => (.throw e, w')
  | (.ub u, w') => (.ub u, w')
  | (.diverge, w') => (.diverge, w')

/-- A call without effect on the world. E.g. a computation of blocks in goost/magma/ECBSink.cpp:29-33. -/
def lift (x : Exec α) : Io W α := fun w => (x, w)

instance : Monad (Io W) where
  pure a := fun w => (.ok a, w)
  bind := bind

instance : MonadLift Exec (Io W) := ⟨lift⟩

theorem pure_def (a : α) : (pure a : Io W α) = lift (.ok a) := rfl
theorem bind_def (x : Io W α) (f : α → Io W β) : (x >>= f) = bind x f := rfl

instance : LawfulMonad (Io W) := LawfulMonad.mk'
  (id_map := by
    intro α x; funext w; simp only [Functor.map, bind]
    rcases h : x w with ⟨r, w'⟩; cases r <;> rfl)
  (pure_bind := by intros; rfl)
  (bind_assoc := by
    intro α β γ x f g; funext w; simp only [bind_def, bind]
    rcases h : x w with ⟨r, w'⟩; cases r <;> rfl)

@[simp] theorem lift_ok_bind (a : α) (f : α → Io W β) : (lift (.ok a) >>= f) = f a := rfl
@[simp] theorem lift_throw_bind (e : Exn) (f : α → Io W β) :
    ((lift (.throw e) : Io W α) >>= f) = lift (.throw e) := rfl
@[simp] theorem lift_ub_bind (u : UB) (f : α → Io W β) :
    ((lift (.ub u) : Io W α) >>= f) = lift (.ub u) := rfl
@[simp] theorem lift_diverge_bind (f : α → Io W β) :
    ((lift .diverge : Io W α) >>= f) = lift .diverge := rfl
@[simp] theorem pure_bind' (a : α) (f : α → Io W β) : ((pure a : Io W α) >>= f) = f a := rfl
@[simp] theorem monadLift_eq (x : Exec α) : (monadLift x : Io W α) = lift x := rfl
@[simp] theorem liftM_eq (x : Exec α) : (liftM x : Io W α) = lift x := rfl

theorem lift_bind (x : Exec α) (f : α → Exec β) :
    (lift (x >>= f) : Io W β) = (lift x >>= fun a => lift (f a)) := by
  cases x <;> rfl

/-- Running a call whose first part is known to succeed. -/
theorem bind_run_ok {x : Io W α} {f : α → Io W β} {w w' : W} {a : α}
    (h : x w = (.ok a, w')) : (x >>= f) w = f a w' := by
  simp only [bind_def, bind, h]

end Io

/-- `v[i]` for reading (`std::vector::operator[]`, `std::array::operator[]`, pointer
arithmetic): undefined outside the bounds. E.g. goost/magma/KeyDataNative.cpp:16-19,
goost/kuznyechik/BlkR.cpp:50-55. -/
def vget {α : Type} (v : List α) (i : Nat) : Exec α :=
  match v[i]? with
  | some x => .ok x
  | none => .ub .oobRead

/-- `v[i]` with an `int` index. E.g. goost/magma/KeyDataNative.cpp:16-19. -/
def vgetI {α : Type} (v : List α) (i : Int) : Exec α :=
  if i < 0 then .ub .oobRead else vget v i.toNat

/-- `v[i] ^= x` on bytes. E.g. goost/magma/CFBSink.cpp:52-53, 75-76. -/
def vxor (v : List Byte) (i : Nat) (x : Byte) : Exec (List Byte) :=
  match v[i]? with
  | some y => .ok (v.set i (y ^^^ x))
  | none => .ub .oobWrite

/-- Bytes of a `uint32_t` in memory order (little-endian target). Used for goost/magma/ECBSource.cpp:54,
goost/gost89/DataImit.cpp:34-35. -/
def bytes32 (x : W32) : List Byte :=
  [x.extractLsb' 0 8, x.extractLsb' 8 8, x.extractLsb' 16 8, x.extractLsb' 24 8]

/-- Bytes of a `uint64_t` in memory order (little-endian target). Used for goost/magma/ECBSink.cpp:33,
goost/kuznyechik/BlkR.cpp:48-49. -/
def bytes64 (x : W64) : List Byte :=
  [x.extractLsb' 0 8, x.extractLsb' 8 8, x.extractLsb' 16 8, x.extractLsb' 24 8,
   x.extractLsb' 32 8, x.extractLsb' 40 8, x.extractLsb' 48 8, x.extractLsb' 56 8]

/-- Load of a `uint32_t` at byte offset `off` of a buffer (little-endian target). Used for
goost/magma/BlkRaw.cpp:34-35, 42-43. -/
def load32 (v : List Byte) (off : Nat) : Exec W32 := do
  let b0 ← vget v off
  let b1 ← vget v (off + 1)
  let b2 ← vget v (off + 2)
  let b3 ← vget v (off + 3)
  return (b3 ++ b2 ++ b1 ++ b0 : BitVec 32)

/-- Load of a `uint64_t` at byte offset `off` of a buffer (little-endian target). Used for
goost/kuznyechik/BlkRaw.cpp:28-29, goost/magma/ECBSink.cpp:30. -/
def load64 (v : List Byte) (off : Nat) : Exec W64 := do
  let b0 ← vget v off
  let b1 ← vget v (off + 1)
  let b2 ← vget v (off + 2)
  let b3 ← vget v (off + 3)
  let b4 ← vget v (off + 4)
  let b5 ← vget v (off + 5)
  let b6 ← vget v (off + 6)
  let b7 ← vget v (off + 7)
  return (b7 ++ b6 ++ b5 ++ b4 ++ b3 ++ b2 ++ b1 ++ b0 : BitVec 64)

/-- What the target machine does in two places where ISO C++ leaves the behaviour
undefined. They are goost/magma/BlkShifted.cpp:19, and goost/kuznyechik/BlkR.cpp:55 with
goost/kuznyechik/BlkRaw.cpp:28-29. -/
structure Machine where
  /-- a 32-bit shift by a count outside 0..31 uses the count modulo 32 (x86 `shl`/`shr`,
  AArch64 `lsl`/`lsr`) instead of being undefined -/
  maskShift32 : Bool
  /-- a 64-bit load from an unaligned address works instead of being undefined -/
  unalignedLoad : Bool
  deriving DecidableEq, Repr

/-- ISO C++17, nothing assumed. No code of /repo; it decides goost/magma/BlkShifted.cpp:19 and
goost/kuznyechik/BlkR.cpp:55. -/
def Machine.iso : Machine := ⟨false, false⟩
/-- x86-64 (the platform on which the repository's tests pass). No code of /repo; it decides
goost/magma/BlkShifted.cpp:19 and goost/kuznyechik/BlkR.cpp:55. -/
def Machine.x86 : Machine := ⟨true, true⟩

/-- `x << n` on `uint32_t` with an `int` count. Used for goost/magma/BlkShifted.cpp:19. -/
def Machine.shl32 (m : Machine) (x : W32) (n : Int) : Exec W32 :=
  if 0 ≤ n ∧ n < 32 then .ok (x <<< n.toNat)
  else if m.maskShift32 then .ok (x <<< (n % 32).toNat)
  else .ub .badShift

/-- `x >> n` on `uint32_t` with an `int` count. Used for goost/magma/BlkShifted.cpp:19. -/
def Machine.shr32 (m : Machine) (x : W32) (n : Int) : Exec W32 :=
  if 0 ≤ n ∧ n < 32 then .ok (x >>> n.toNat)
  else if m.maskShift32 then .ok (x >>> (n % 32).toNat)
  else .ub .badShift

/-- `x << n` on `uint64_t` with an `int` count. Used for goost/kuznyechik/BlkShifted.cpp:16-20. -/
def shl64 (x : W64) (n : Int) : Exec W64 :=
  if 0 ≤ n ∧ n < 64 then .ok (x <<< n.toNat) else .ub .badShift

/-- `x >> n` on `uint64_t` with an `int` count. Used for goost/kuznyechik/BlkShifted.cpp:16-20. -/
def shr64 (x : W64) (n : Int) : Exec W64 :=
  if 0 ≤ n ∧ n < 64 then .ok (x >>> n.toNat) else .ub .badShift

end Goost
