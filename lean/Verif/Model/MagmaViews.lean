import Verif.Model.Live
/-
goost/magma: programs that make blocks and keys from each other, change the data behind blocks and keys of their own, and
use them, in any order. What a call of a key does is that of Model/Live.
-/
namespace Goost.MagmaViews
open Goost.Magma (CachedData SboxR3412 KeyDataNative)

/-- The value of a block, low half first (goost/magma/Block.h:16). -/
abbrev V := W32 × W32

/-- What a program keeps in its variables, values of blocks (goost/magma/Block.h:16) and words of keys
(goost/magma/KeyData.h:15), and the caches of the keys (goost/magma/KeyCachedData.h:18-24) by the numbers of the keys. -/
structure World where
  cells : Nat → V
  words : Nat → Nat → W32
  caches : Nat → CachedData

/-- How an object is made: a constructor call, or a class of the user deriving from goost/magma/Block.h:13-19. Objects are
numbered in the order in which they are made. The substitution of the keys is `SboxR3412`. -/
inductive How where
  /-- a block of the user that shows the variable `c` (a class deriving from goost/magma/Block.h:13-19) -/
  | own (c : Nat)
  /-- `BlkRaw(low, high)` (goost/magma/BlkRaw.cpp:12-15) -/
  | fixed (v : V)
  /-- `BlkRaw(block)` (goost/magma/BlkRaw.cpp:22-25) -/
  | copy (a : Nat)
  /-- `BlkXored(block, block)` (goost/magma/BlkXored.cpp:11-14) -/
  | xored (a b : Nat)
  /-- `BlkSwapped(block)` (goost/magma/BlkSwapped.cpp:11-14) -/
  | swapped (a : Nat)
  /-- `LazyKey(data, sbox)` with data of the user that show the words `c` (goost/magma/LazyKey.cpp:35-38) -/
  | key (c : Nat)
  /-- `LazyKey(KeyCachedData(data), sbox)` with such data (goost/magma/KeyCachedData.cpp:11-14) -/
  | cachedKey (c : Nat)
  /-- `LazyKey(vector, sbox)` with a vector of the words `c` (goost/magma/LazyKey.cpp:30-33) -/
  | nativeKey (c : Nat)
  /-- `BlkEncrypted(block, key)` (goost/magma/BlkEncrypted.cpp:14-33) -/
  | encrypted (block key : Nat)
  /-- `BlkDecrypted(block, key)` (goost/magma/BlkDecrypted.cpp:14-33) -/
  | decrypted (block key : Nat)
  deriving DecidableEq, Repr

/-- One step of a program: the calls are those of the constructors, of `Block::value()` (goost/magma/Block.h:16) and of
`EncryptionBase::transform` (goost/magma/EncryptionBase.h:18). -/
inductive Step where
  /-- assign to a variable that holds a block -/
  | change (c : Nat) (v : V)
  /-- assign to a variable that holds words of a key -/
  | rekey (c : Nat) (k : Nat → W32)
  /-- make an object -/
  | make (how : How)
  /-- call `value()` -/
  | ask (i : Nat)
  /-- call `EncryptionBase(key).transform(x)` -/
  | transform (k : Nat) (x : W64)

/-- Blocks (goost/magma/Block.h:13-19), as `Live.Blk`, with those of the user. -/
inductive Blk where
  /-- `BlkRaw` (goost/magma/BlkRaw.h:16-30) -/
  | raw (low high : W32)
  /-- `BlkSwapped` (goost/magma/BlkSwapped.h:13-19) -/
  | swapped (b : Blk)
  /-- `BlkXored` with two operands (goost/magma/BlkXored.h:13-31) -/
  | xored (a b : Blk)
  /-- `BlkForwarded` (goost/magma/BlkForwarded.h:16-26) -/
  | forwarded (b : Blk) (key : Live.Key World)
  /-- `BlkBackwarded` (goost/magma/BlkBackwarded.h:16-26) -/
  | backwarded (b : Blk) (key : Live.Key World)
  /-- a block class defined by the user -/
  | user (value : Io World V)

/-- `Block::value()`: goost/magma/BlkRaw.cpp:53-56, goost/magma/BlkSwapped.cpp:16-20, goost/magma/BlkXored.cpp:16-21,
goost/magma/BlkForwarded.cpp:18-34, goost/magma/BlkBackwarded.cpp:17-33. -/
def Blk.value : Blk → Io World V
  | .raw low high => pure (low, high)
  | .swapped b => do
    let v ← b.value
    return (v.2, v.1)
  | .xored a b => do
    let va ← a.value
    let vb ← b.value
    return (va.1 ^^^ vb.1, va.2 ^^^ vb.2)
  | .forwarded b key => do
    let v ← b.value
    Live.forwardRounds (some key) v
  | .backwarded b key => do
    let v ← b.value
    Live.backwardRounds (some key) v
  | .user value => value

/-- `BlkEncrypted` (goost/magma/BlkEncrypted.cpp:14-38). -/
def BlkEncrypted (block : Blk) (key : Live.Key World) : Blk :=
  .swapped (.backwarded (.forwarded (.forwarded (.forwarded block key) key) key) key)

/-- `BlkDecrypted` (goost/magma/BlkDecrypted.cpp:14-38). -/
def BlkDecrypted (block : Blk) (key : Live.Key World) : Blk :=
  .swapped (.backwarded (.backwarded (.backwarded (.forwarded block key) key) key) key)

/-- An object that a program has. (Classes deriving from goost/magma/Block.h:13-19; goost/magma/LazyKey.h:19-36.) -/
inductive Obj where
  | block (b : Blk)
  | key (k : Live.Key World)

/-- `value()` of the user's block that shows a variable (it implements goost/magma/Block.h:16). -/
def look (c : Nat) : Io World V := fun w => (.ok (w.cells c), w)

/-- `key(index)` of the user's key data that show a variable (they implement goost/magma/KeyData.h:15). -/
def shown (c : Nat) (index : Int) : Io World W32 := fun w => (.ok (w.words c index.toNat), w)

/-- `SboxR3412` (goost/magma/SboxR3412.cpp:14-35). -/
def substitution (x : W32) : Io World W32 := Io.lift (SboxR3412 x)

/-- The world with these data in the cache number `n` (goost/magma/KeyCachedData.cpp:20-22). -/
def store (n : Nat) (d : CachedData) (w : World) : World := { w with caches := fun i => if i = n then d else w.caches i }

/-- `KeyCachedData(data)` (goost/magma/KeyCachedData.cpp:11-25), the cache being that number `n`. -/
def cachedData (n c : Nat) : Int → Io World W32 := Live.KeyCachedData (fun w => w.caches n) (store n) (shown c)

/-- `LazyKey(KeyCachedData(data), sbox)` (goost/magma/LazyKey.cpp:35-43). -/
def cachedKey (n c : Nat) : Live.Key World := Live.LazyKey (cachedData n c) substitution

/-- A pointer to a block, as an argument (e.g. goost/magma/BlkXored.cpp:11-14). There are no programs that name objects they do
not have: here such a pointer is null. -/
def blockAt (o : List Obj) (a : Nat) : Exec Blk :=
  match o[a]? with
  | some (.block b) => .ok b
  | _ => .ub .nullDeref

/-- A pointer to a key, as an argument (goost/magma/BlkEncrypted.cpp:14); as `blockAt`. -/
def keyAt (o : List Obj) (a : Nat) : Exec (Live.Key World) :=
  match o[a]? with
  | some (.key k) => .ok k
  | _ => .ub .nullDeref

/-- The constructors (goost/magma/BlkRaw.cpp:12-25, goost/magma/LazyKey.cpp:30-38 and the other lines given with `How`).
`BlkRaw(block)` evaluates its block, and a vector is copied (goost/magma/KeyDataNative.cpp:11-14). -/
def build (o : List Obj) : How → Io World Obj
  | .own c => pure (.block (.user (look c)))
  | .fixed v => pure (.block (.raw v.1 v.2))
  | .copy a => do
    let b ← Io.lift (blockAt o a)
    let v ← b.value
    return .block (.raw v.1 v.2)
  | .xored a b => do
    let x ← Io.lift (blockAt o a)
    let y ← Io.lift (blockAt o b)
    return .block (.xored x y)
  | .swapped a => do
    let b ← Io.lift (blockAt o a)
    return .block (.swapped b)
  | .key c => pure (.key (Live.LazyKey (shown c) substitution))
  | .cachedKey c => pure (.key (cachedKey o.length c))
  | .nativeKey c => fun w =>
    (.ok (.key (Live.LazyKey (fun i => Io.lift (KeyDataNative ((List.range 8).map (w.words c)) i)) substitution)), w)
  | .encrypted b k => do
    let x ← Io.lift (blockAt o b)
    let y ← Io.lift (keyAt o k)
    return .block (BlkEncrypted x y)
  | .decrypted b k => do
    let x ← Io.lift (blockAt o b)
    let y ← Io.lift (keyAt o k)
    return .block (BlkDecrypted x y)

/-- What a program is given: the pair of `value()` (goost/magma/Block.h:16) or the word of `transform`
(goost/magma/EncryptionBase.h:18). -/
inductive Answer where
  | pair (v : V)
  | word (x : W64)

/-- `value()` of the object number `a` (goost/magma/Block.h:16). -/
def ask (o : List Obj) (a : Nat) : Io World Answer := do
  let b ← Io.lift (blockAt o a)
  let v ← b.value
  return .pair v

/-- `EncryptionBase(key).transform(x)` (goost/magma/EncryptionBase.cpp:12-59) with the object number `k`. -/
def transform (o : List Obj) (k : Nat) (x : W64) : Io World Answer := do
  let key ← Io.lift (keyAt o k)
  let y ← Live.EncryptionBase.transform key x
  return .word y

/-- A program, with the outcomes of its calls of `value()` and `transform`. A constructor that fails ends it. The program is
the user's; the calls are those of `build`, `ask` and `transform` (goost/magma/Block.h:13-19,
goost/magma/EncryptionBase.h:15-20). -/
def run : List Step → List Obj → World → List (Exec Answer)
  | [], _, _ => []
  | .change c v :: r, o, w => run r o { w with cells := fun d => if d = c then v else w.cells d }
  | .rekey c k :: r, o, w => run r o { w with words := fun d => if d = c then k else w.words d }
  | .make how :: r, o, w =>
    match build o how w with
    | (.ok x, w) => run r (o ++ [x]) w
    | (.throw e, _) => [.throw e]
    | (.ub u, _) => [.ub u]
    | (.diverge, _) => [.diverge]
  | .ask a :: r, o, w => (ask o a w).1 :: run r o (ask o a w).2
  | .transform k x :: r, o, w => (transform o k x w).1 :: run r o (transform o k x w).2

end Goost.MagmaViews
