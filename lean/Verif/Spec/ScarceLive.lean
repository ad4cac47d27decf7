import Verif.Model.ScarceLive
import Verif.Spec.Live
import Verif.Spec.Scarce
/-
Specification: running out of memory in a world with objects that have a state.
-/
namespace Spec
open Goost
variable {Ω V σ τ α β : Type}

/-- `x`, on a machine with limited memory and among objects whose state satisfies `I`, makes at most `N`
requests for memory, and needs no more than this to do what `y` does with unlimited memory. With less it may
also throw `bad_alloc`, and then leaves behind a world that `P` allows. In any case the objects are left in a
state that satisfies `I`. -/
def UnlessOutWith (I : Ω → Prop) (P : V → V → Prop) (R : α → β → Prop) (x : Io (Nat × Ω × V) α)
    (y : Io V β) : Prop :=
  ∀ v, ∃ N, ∀ ω n, I ω → ∃ r n' ω' v', x (n, ω, v) = (r, (n', ω', v')) ∧ I ω' ∧
    ((SameOutcome R r (y v).1 ∧ v' = (y v).2 ∧ n ≤ n' + N) ∨ (n < N ∧ r = .throw .badAlloc ∧ P v v'))

/-- The key `k`, whose state is a part of the world, always gives the answers of the key `q`, unless memory
runs out. -/
def AnswersUnlessOut (V : Type) (I : Ω → Prop) (k : Live.Key (Nat × Ω × V)) (q : Magma.Key) : Prop :=
  k.isLazy = q.isLazy ∧
    ∀ v i, UnlessOutWith I (fun v v' => v' = v) Eq (k.transform v i) (Io.lift (q.transform v i) : Io V _)

/-- The container `c` in a world with a further part. -/
def asideContainer (c : Magma.UserContainer V) : Magma.UserContainer (Ω × V) := ⟨aside c.key, aside c.mask, aside c.sbox⟩

/-- Nothing has been asked of the container `c` yet, or its key, or its key and its table. -/
def Asked (c : Magma.UserContainer V) (v v' : V) : Prop :=
  v' = v ∨ (∃ ik, c.key v = (.ok ik, v')) ∨ ∃ ik v1 is, c.key v = (.ok ik, v1) ∧ c.sbox v1 = (.ok is, v')

/-- Two `ECBSource`s over the source `s` whose keys give the same answers, unless memory runs out. -/
def SameSourceAndKey (I : Ω → Prop) (s : σ) (x : Live.ECBSource (Nat × Ω × V) σ) (y : Magma.ECBSource σ) : Prop :=
  ∃ k q, x = .ecb s k ∧ y = .ecb s q ∧ AnswersUnlessOut V I k q

/-- The `ECBSink` over the same sink as `t'`, with the key `k`. -/
def WithKey.ecbSink (k : Live.Key (Nat × Ω × V)) (t : Goost.Live.ECBSink (Nat × Ω × V) τ) (t' : Goost.Magma.ECBSink τ) : Prop :=
  t = ⟨t'.sink, k⟩

/-- The `CFBSink` in the same state as `t'`, with the key `k`. -/
def WithKey.cfbSink (k : Live.Key (Nat × Ω × V)) (t : Live.CFBSink (Nat × Ω × V) τ) (t' : Goost.Magma.CFBSink τ) : Prop :=
  t = ⟨t'.sink, k, t'.ivl, t'.ivr, t'.plain⟩

/-- The `gost89::CFBSink` in the same state as `t'`, with the key `k`. -/
def WithKey.gostSink (k : Live.Key (Nat × Ω × V)) (t : Live.Gost89.CFBSink (Nat × Ω × V) τ)
    (t' : Goost.Gost89.CFBSink τ) : Prop :=
  t = ⟨t'.sink, k, t'.iv, t'.plain⟩

/-- The same bytes, and the same kind of source, with the keys `k` and `q`. -/
def WithKey.ecbSource (k : Live.Key (Nat × Ω × V)) (q : Goost.Magma.Key) :
    List Byte × Goost.Live.ECBSource (Nat × Ω × V) σ → List Byte × Goost.Magma.ECBSource σ → Prop
  | (p, .ecb s k'), (p', .ecb s' q') => p = p' ∧ s = s' ∧ k' = k ∧ q' = q
  | (p, .bare s), (p', .bare s') => p = p' ∧ s = s'
  | _, _ => False

/-- The same bytes, and the `CFBSource` in the same state, with the keys `k` and `q`. -/
def WithKey.cfbSource (k : Live.Key (Nat × Ω × V)) (q : Goost.Magma.Key)
    (x : List Byte × Live.CFBSource (Nat × Ω × V) σ)
    (y : List Byte × Goost.Magma.CFBSource σ) : Prop :=
  x = (y.1, ⟨y.2.source, k, y.2.ivl, y.2.ivr, y.2.plain⟩) ∧ y.2.key = q

/-- The same bytes, and the `gost89::CFBSource` in the same state, with the keys `k` and `q`. -/
def WithKey.gostSource (k : Live.Key (Nat × Ω × V)) (q : Goost.Magma.Key)
    (x : List Byte × Live.Gost89.CFBSource (Nat × Ω × V) σ)
    (y : List Byte × Goost.Gost89.CFBSource σ) : Prop :=
  x = (y.1, ⟨y.2.source, k, y.2.iv, y.2.plain⟩) ∧ y.2.key = q

/-- What may be done with a key in memory. -/
inductive MagmaUse where
  /-- encrypt a block with `BlkEncrypted` -/
  | encrypt (x : BitVec 64)
  /-- decrypt a block with `BlkDecrypted` -/
  | decrypt (x : BitVec 64)
  /-- encrypt a block with `EncryptionBase` -/
  | base (x : BitVec 64)
  /-- write the pieces to a new `ECBSink` -/
  | ecbWrite (pieces : List (List Byte))
  /-- read pieces of these sizes from a new `ECBSource` over the data -/
  | ecbRead (data : List Byte) (sizes : List Nat)
  /-- write the pieces to a new `CFBSink`, and `finalize` it -/
  | cfbWrite (ivl ivr : BitVec 64) (pieces : List (List Byte))
  /-- read pieces of these sizes from a new `CFBSource` over the data -/
  | cfbRead (ivl ivr : BitVec 64) (data : List Byte) (sizes : List Nat)
  /-- the same with a `gost89::CFBSink` -/
  | gostWrite (iv : BitVec 64) (pieces : List (List Byte))
  /-- the same with a `gost89::CFBSource` -/
  | gostRead (iv : BitVec 64) (data : List Byte) (sizes : List Nat)
  /-- the code that `Imit` computes of the data -/
  | mac (data : List Byte)
  /-- the code that `DataImit` computes of the data -/
  | dataMac (data : List Byte)

/-- The bytes of a block that is given by its two words. -/
def wordBytes (v : BitVec 32 × BitVec 32) : List Byte := bytes32 v.1 ++ bytes32 v.2

/-- The result of a use with limited memory and a key that is an object in the world. -/
def MagmaUse.limited (m : Machine) (k : Live.Key (Nat × Ω × Unit)) : MagmaUse → Io (Nat × Ω × Unit) (List Byte)
  | encrypt x => do
    Scarce.alloc
    let v ← ScarceLive.Blk.value m (Live.BlkEncrypted (Live.BlkRaw.ofU64 x) (some k))
    return wordBytes v
  | decrypt x => do
    Scarce.alloc
    let v ← ScarceLive.Blk.value m (Live.BlkDecrypted (Live.BlkRaw.ofU64 x) (some k))
    return wordBytes v
  | base x => do
    let e ← Live.EncryptionBase.transform k x
    return bytes64 e
  | ecbWrite ds => do
    let t ← writeAll (ScarceLive.ECBSink.write fun s d => aside (memWrite s d)) ⟨[], k⟩ ds
    return t.sink
  | ecbRead data sizes => do
    let (xs, _) ← readAll (ScarceLive.ECBSource.read m fun s n => aside (memRead s n)) (.ecb data k) sizes
    return xs.flatten
  | cfbWrite ivl ivr ds => do
    let t ← writeAll (ScarceLive.CFBSink.write m fun s d => aside (memWrite s d)) ⟨[], k, ivl, ivr, []⟩ ds
    ScarceLive.CFBSink.finalize m (fun s d => aside (memWrite s d)) t
  | cfbRead ivl ivr data sizes => do
    let (xs, _) ← readAll (ScarceLive.CFBSource.read m fun s n => aside (memRead s n)) ⟨data, k, ivl, ivr, []⟩ sizes
    return xs.flatten
  | gostWrite iv ds => do
    let t ← writeAll (ScarceLive.Gost89.CFBSink.write m fun s d => aside (memWrite s d)) ⟨[], k, iv, []⟩ ds
    ScarceLive.Gost89.CFBSink.finalize m (fun s d => aside (memWrite s d)) t
  | gostRead iv data sizes => do
    let (xs, _) ← readAll (ScarceLive.Gost89.CFBSource.read m fun s n => aside (memRead s n)) ⟨data, k, iv, []⟩ sizes
    return xs.flatten
  | mac data => do
    let v ← ScarceLive.Imit.value m (fun s n => aside (memRead s n)) (data.length + 1) data (some k)
    return wordBytes v
  | dataMac data => ScarceLive.Gost89.DataImit.value m data (some k)

/-- The result of the same use with unlimited memory and a key without a state. -/
def MagmaUse.unlimited (m : Machine) (q : Magma.Key) : MagmaUse → Io Unit (List Byte)
  | encrypt x => do
    let v ← Io.lift ((Magma.BlkEncrypted (Magma.BlkRaw.ofU64 x) (some q)).value m)
    return wordBytes v
  | decrypt x => do
    let v ← Io.lift ((Magma.BlkDecrypted (Magma.BlkRaw.ofU64 x) (some q)).value m)
    return wordBytes v
  | base x => do
    let e ← Io.lift (Magma.EncryptionBase.transform q x)
    return bytes64 e
  | ecbWrite ds => do
    let t ← writeAll (Magma.ECBSink.write memWrite) ⟨[], q⟩ ds
    return t.sink
  | ecbRead data sizes => do
    let (xs, _) ← readAll (Magma.ECBSource.read m memRead) (.ecb data q) sizes
    return xs.flatten
  | cfbWrite ivl ivr ds => do
    let t ← writeAll (Magma.CFBSink.write m memWrite) ⟨[], q, ivl, ivr, []⟩ ds
    Magma.CFBSink.finalize m memWrite t
  | cfbRead ivl ivr data sizes => do
    let (xs, _) ← readAll (Magma.CFBSource.read m memRead) ⟨data, q, ivl, ivr, []⟩ sizes
    return xs.flatten
  | gostWrite iv ds => do
    let t ← writeAll (Gost89.CFBSink.write m memWrite) ⟨[], q, iv, []⟩ ds
    Gost89.CFBSink.finalize m memWrite t
  | gostRead iv data sizes => do
    let (xs, _) ← readAll (Gost89.CFBSource.read m memRead) ⟨data, q, iv, []⟩ sizes
    return xs.flatten
  | mac data => do
    let v ← Magma.Imit.value m memRead (data.length + 1) data (some q)
    return wordBytes v
  | dataMac data => Io.lift (Gost89.DataImit.value m data (some q))

/-- An attempt at a use, with the memory there is: its outcome, and the state in which it leaves the key. -/
def MagmaUse.attempt (m : Machine) (k : Live.Key (Nat × Ω × Unit)) (a : Nat × MagmaUse) (ω : Ω) :
    Exec (List Byte) × Ω :=
  ((a.2.limited m k (a.1, ω, ())).1, (a.2.limited m k (a.1, ω, ())).2.2.1)

end Spec
