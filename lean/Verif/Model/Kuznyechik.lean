import Verif.Model.Text
/-
goost/kuznyechik: blocks and keys.
-/
namespace Goost.Kuz

/-- Block objects (goost/kuznyechik/Block.h:13-19 and the classes deriving from it). Classes whose
`value()` builds other blocks and evaluates them (`BlkL`, `BlkIterKey`, `BlkEncrypted`) are
functions returning the block they build. -/
inductive Blk where
  /-- `BlkRaw` (goost/kuznyechik/BlkRaw.h:14-27) -/
  | raw (low high : W64)
  /-- `BlkString` (goost/kuznyechik/BlkString.h:13-19) -/
  | str (s : List Char)
  /-- `BlkXored` with two operands (goost/kuznyechik/BlkXored.h:13-31) -/
  | xored (a b : Blk)
  /-- `BlkS` (goost/kuznyechik/BlkS.h:13-19) -/
  | blkS (b : Blk)
  /-- `BlkR` (goost/kuznyechik/BlkR.h:13-20) -/
  | blkR (b : Blk)
  /-- `BlkIncremented` (goost/kuznyechik/BlkIncremented.h:13-19) -/
  | incremented (b : Blk)
  /-- `BlkShifted` (goost/kuznyechik/BlkShifted.h:13-20) -/
  | shifted (b : Blk) (n : Int)
  /-- `BlkXoredIfHighBit` (goost/kuznyechik/Imit.cpp:21-41) -/
  | xoredIfHighBit (a b : Blk)
  /-- `BlkCached` (goost/kuznyechik/BlkCached.h:13-21); `id` identifies the cache object -/
  | cached (id : Nat) (b : Blk)
  /-- a block class defined by the user -/
  | user (v : Exec (W64 × W64))

/-- The table of `BlkS::value` (goost/kuznyechik/BlkS.cpp:20-36). -/
def BlkS.sbox : List Byte :=
  [252, 238, 221, 17, 207, 110, 49, 22, 251, 196, 250, 218, 35, 197, 4, 77, 233,
   119, 240, 219, 147, 46, 153, 186, 23, 54, 241, 187, 20, 205, 95, 193, 249, 24, 101,
   90, 226, 92, 239, 33, 129, 28, 60, 66, 139, 1, 142, 79, 5, 132, 2, 174, 227, 106,
   143, 160, 6, 11, 237, 152, 127, 212, 211, 31, 235, 52, 44, 81, 234, 200, 72, 171,
   242, 42, 104, 162, 253, 58, 206, 204, 181, 112, 14, 86, 8, 12, 118, 18, 191, 114,
   19, 71, 156, 183, 93, 135, 21, 161, 150, 41, 16, 123, 154, 199, 243, 145, 120, 111,
   157, 158, 178, 177, 50, 117, 25, 61, 255, 53, 138, 126, 109, 84, 198, 128, 195, 189,
   13, 87, 223, 245, 36, 169, 62, 168, 67, 201, 215, 121, 214, 246, 124, 34, 185, 3,
   224, 15, 236, 222, 122, 148, 176, 188, 220, 232, 40, 80, 78, 51, 10, 74, 167, 151,
   96, 115, 30, 0, 98, 68, 26, 184, 56, 130, 100, 159, 38, 65, 173, 69, 70, 146, 39,
   94, 85, 47, 140, 163, 165, 125, 105, 213, 149, 59, 7, 88, 179, 64, 134, 172, 29,
   247, 48, 55, 107, 228, 136, 217, 231, 137, 225, 27, 131, 73, 76, 63, 248, 254, 141,
   83, 170, 144, 202, 216, 133, 97, 32, 113, 103, 164, 45, 43, 9, 91, 203, 155, 37,
   208, 190, 229, 108, 82, 89, 166, 116, 210, 230, 244, 180, 192, 209, 102, 175, 194,
   57, 75, 99, 182]

/-- `BlkS::value` after the inner value is known (goost/kuznyechik/BlkS.cpp:38-43): every byte of
the pair is replaced through the table. -/
def sValue (v : W64 × W64) : Exec (W64 × W64) := do
  let data ← (bytes64 v.1 ++ bytes64 v.2).mapM (fun b => vget BlkS.sbox b.toNat)
  let first ← load64 data 0
  let second ← load64 data 8
  return (first, second)

/-- The loop of `BlkR::gmul` (goost/kuznyechik/BlkR.cpp:24-36), `n` iterations. `0x1c3` is
truncated to `uint8_t`. -/
def gmulLoop : Nat → Byte → Byte → Byte → Byte
  | 0, p, _, _ => p
  | n + 1, p, a, b =>
    let p := if b &&& 1 = 1 then p ^^^ a else p
    let hi_bit_set := a &&& 0x80
    let a := a <<< 1
    let a := if hi_bit_set = 0x80 then a ^^^ 0xc3 else a
    gmulLoop n p a (b >>> 1)

/-- `BlkR::gmul` (goost/kuznyechik/BlkR.cpp:21-39). -/
def gmul (a b : Byte) : Byte := gmulLoop 8 0 a b

/-- The coefficients of `BlkR::value` (goost/kuznyechik/BlkR.cpp:43-45). -/
def BlkR.k : List Byte := [1, 148, 32, 133, 16, 194, 192, 1, 251, 1, 192, 194, 16, 133, 32, 148]

/-- `BlkR::value` after the inner value is known (goost/kuznyechik/BlkR.cpp:46-55). The 17-byte
array is the 16 bytes of the value followed by the sum; the result is loaded from `&data[1]`, a
64-bit load with no alignment guarantee. (`sum` is an `int` that only ever holds a byte.) -/
def rValue (m : Machine) (v : W64 × W64) : Exec (W64 × W64) := do
  let data := bytes64 v.1 ++ bytes64 v.2
  let sum : Byte := (List.zipWith gmul data BlkR.k).foldl (· ^^^ ·) 0
  let data := data ++ [sum]
  if m.unalignedLoad then do
    let low ← load64 data 1
    let high ← load64 data 9
    return (low, high)
  else .ub .misaligned

/-- `BlkIncremented::value` after the inner value is known
(goost/kuznyechik/BlkIncremented.cpp:20-23). -/
def incValue (v : W64 × W64) : W64 × W64 :=
  if v.1 = BitVec.allOnes 64 then (0, v.2 + 1) else (v.1 + 1, v.2)

/-- `BlkShifted::value` after the inner value is known (goost/kuznyechik/BlkShifted.cpp:19). -/
def shiftValue (v : W64 × W64) (n : Int) : Exec (W64 × W64) := do
  let lo ← shl64 v.1 n
  let hi ← shl64 v.2 n
  let carry ← shr64 v.1 (64 - n)
  return (lo, hi ||| carry)

/-- The padding loop of `BlkString::value` (goost/kuznyechik/BlkString.cpp:18-21). -/
def padZeros (width : Nat) (s : List Char) : List Char :=
  List.replicate (width - s.length) '0' ++ s

/-- `Block::value()` for every class.
* BlkRaw: goost/kuznyechik/BlkRaw.cpp:44-47
* BlkString: goost/kuznyechik/BlkString.cpp:16-24
* BlkXored: goost/kuznyechik/BlkXored.cpp:16-21
* BlkS: goost/kuznyechik/BlkS.cpp:18-44
* BlkR: goost/kuznyechik/BlkR.cpp:41-56
* BlkIncremented: goost/kuznyechik/BlkIncremented.cpp:17-24
* BlkShifted: goost/kuznyechik/BlkShifted.cpp:16-20
* BlkXoredIfHighBit: goost/kuznyechik/Imit.cpp:28-36
* BlkCached: goost/kuznyechik/BlkCached.cpp:18-25, 37-40, here as a first evaluation of the
  wrapped block; evaluation with the caches is `Blk.valueS`, and theorem `C41` shows that the
  caches do not show. -/
def Blk.value (m : Machine) : Blk → Exec (W64 × W64)
  | .raw low high => .ok (low, high)
  | .str txt => do
    let v := padZeros 32 txt
    let s1 ← substr v 16 16
    let first ← stoull16 s1
    let s0 ← substr v 0 16
    let second ← stoull16 s0
    return (first, second)
  | .xored a b => do
    let va ← a.value m
    let vb ← b.value m
    return (va.1 ^^^ vb.1, va.2 ^^^ vb.2)
  | .blkS b => do
    let v ← b.value m
    sValue v
  | .blkR b => do
    let v ← b.value m
    rValue m v
  | .incremented b => do
    let v ← b.value m
    return incValue v
  | .shifted b n => do
    let v ← b.value m
    shiftValue v n
  | .xoredIfHighBit a b => do
    let va ← a.value m
    if va.2 &&& 0x8000000000000000 = 0 then do
      let va' ← a.value m
      shiftValue va' 1
    else do
      let va' ← a.value m
      let s ← shiftValue va' 1
      let vb ← b.value m
      return (s.1 ^^^ vb.1, s.2 ^^^ vb.2)
  | .cached _ b => b.value m
  | .user v => v

/-- The contents of the caches: `state` if `loaded` (goost/kuznyechik/BlkCached.cpp:27-28), by
identity of the cache object. -/
abbrev Caches := Nat → Option (W64 × W64)

/-- `Block::value()` with the caches of all `BlkCached` objects as explicit state: as `Blk.value`,
but a loaded cache answers without evaluating its block, and a cache whose block returns
normally becomes loaded (goost/kuznyechik/BlkCached.cpp:18-25). -/
def Blk.valueS (m : Machine) : Blk → Caches → Exec (W64 × W64) × Caches
  | .raw low high, c => (.ok (low, high), c)
  | .str txt, c => ((Blk.str txt).value m, c)
  | .xored a b, c =>
    match a.valueS m c with
    | (.ok va, c) =>
      match b.valueS m c with
      | (.ok vb, c) => (.ok (va.1 ^^^ vb.1, va.2 ^^^ vb.2), c)
      | r => r
    | r => r
  | .blkS b, c =>
    match b.valueS m c with
    | (x, c) => (x >>= sValue, c)
  | .blkR b, c =>
    match b.valueS m c with
    | (x, c) => (x >>= rValue m, c)
  | .incremented b, c =>
    match b.valueS m c with
    | (x, c) => (x >>= fun v => .ok (incValue v), c)
  | .shifted b n, c =>
    match b.valueS m c with
    | (x, c) => (x >>= fun v => shiftValue v n, c)
  | .xoredIfHighBit a b, c =>
    match a.valueS m c with
    | (.ok va, c) =>
      match a.valueS m c with
      | (.ok va', c) =>
        if va.2 &&& 0x8000000000000000 = 0 then (shiftValue va' 1, c)
        else
          match shiftValue va' 1 with
          | .ok s =>
            match b.valueS m c with
            | (.ok vb, c) => (.ok (s.1 ^^^ vb.1, s.2 ^^^ vb.2), c)
            | r => r
          | e => (e, c)
      | r => r
    | r => r
  | .cached id b, c =>
    match c id with
    | some v => (.ok v, c)
    | none =>
      match b.valueS m c with
      | (.ok v, c) => (.ok v, fun i => if i = id then some v else c i)
      | r => r
  | .user v, c => (v, c)

/-- `BlkCached::BlockCache` without the pointer to the wrapped block
(goost/kuznyechik/BlkCached.cpp:11-30), as the constructor leaves it. -/
structure BlockCache where
  loaded : Bool := false
  state : W64 × W64 := (0, 0)
  deriving DecidableEq, Repr

/-- `BlkCached::value` (goost/kuznyechik/BlkCached.cpp:18-25, 37-40) over any wrapped block. The
wrapped block may have hidden state `Ω`, so that its answers may differ from call to call; an
exception leaves the cache as it was. -/
def BlkCached.value {Ω : Type} (block : Ω → Exec (W64 × W64) × Ω) (cache : BlockCache) (o : Ω) :
    Exec (W64 × W64) × BlockCache × Ω :=
  if cache.loaded then (.ok cache.state, cache, o)
  else
    match block o with
    | (.ok v, o') => (.ok v, { loaded := true, state := v }, o')
    | (.throw e, o') => (.throw e, cache, o')
    | (.ub u, o') => (.ub u, cache, o')
    | (.diverge, o') => (.diverge, cache, o')

/-- Nesting of the objects of a block: a bound for the nesting of `value()` calls while it is evaluated
(`Blk.recorded` has the nesting that is reached; `BlkXoredIfHighBit` may leave its second block alone, and
a loaded cache is not evaluated). The calls are e.g. goost/kuznyechik/BlkXored.cpp. -/
def Blk.depth : Blk → Nat
  | .raw _ _ => 1
  | .str _ => 1
  | .xored a b => max a.depth b.depth + 1
  | .blkS b => b.depth + 1
  | .blkR b => b.depth + 1
  | .incremented b => b.depth + 1
  | .shifted b _ => b.depth + 1
  | .xoredIfHighBit a b => max a.depth b.depth + 1
  | .cached _ b => b.depth + 1
  | .user _ => 1

/-- `BlkRaw(uint64_t)` (goost/kuznyechik/BlkRaw.cpp:34-37). -/
def BlkRaw.ofU64 (low : W64) : Blk := .raw low 0

/-- `BlkRaw()` (goost/kuznyechik/BlkRaw.cpp:39-42). -/
def BlkRaw.zero : Blk := BlkRaw.ofU64 0

/-- `BlkRaw(const pair &)` (goost/kuznyechik/BlkRaw.cpp:16-19). -/
def BlkRaw.ofPair (v : W64 × W64) : Blk := .raw v.1 v.2

/-- `BlkRaw(const shared_ptr<const Block> &)` (goost/kuznyechik/BlkRaw.cpp:21-24). -/
def BlkRaw.ofBlock (m : Machine) (b : Blk) : Exec Blk := do
  let v ← b.value m
  return BlkRaw.ofPair v

/-- `BlkRaw(const void *)` applied to element `i` of a `vector<uint64_t>`
(goost/kuznyechik/BlkRaw.cpp:26-32). -/
def BlkRaw.ofWords (data : List W64) (i : Nat) : Exec Blk := do
  let low ← vget data i
  let high ← vget data (i + 1)
  return .raw low high

/-- `BlkXored` with three or more operands (goost/kuznyechik/BlkXored.h:17-25). -/
def BlkXored.many (a b : Blk) : List Blk → Blk
  | [] => .xored a b
  | c :: d => BlkXored.many (.xored a b) c d

/-- `BlkL::transform` (goost/kuznyechik/BlkL.cpp:22-29). -/
def BlkL.transform (b : Blk) : Nat → Blk
  | 0 => b
  | n + 1 => BlkL.transform (.blkR b) n

/-- `BlkL` (goost/kuznyechik/BlkL.cpp:17-20): the block that `value()` evaluates. -/
def BlkL (block : Blk) : Blk := BlkL.transform block 16

/-- `BlkIterKey::generate` (goost/kuznyechik/BlkIterKey.cpp:28-47). `i` and `c2` are `int`;
`BlkRaw(i)` converts to `uint64_t` modulo 2^64. (`i + 1` would overflow only for
`c2 = INT_MAX`: see Model/Sizes.) -/
def BlkIterKey.generate (c2 : Int) (a b : Blk) (i : Int) : Blk :=
  if i > c2 then b
  else
    let cn := BlkL (BlkRaw.ofU64 (BitVec.ofInt 64 i))
    BlkIterKey.generate c2 b (.xored a (BlkL (.blkS (.xored b cn)))) (i + 1)
termination_by (c2 + 1 - i).toNat
decreasing_by omega

/-- `BlkIterKey` (goost/kuznyechik/BlkIterKey.cpp:15-26): the block that `value()` evaluates. -/
def BlkIterKey (ka kb : Blk) (c1 c2 : Int) : Blk := BlkIterKey.generate c2 kb ka c1

/-- `Key` (goost/kuznyechik/Key.h:30-39): the ten cached round keys. -/
structure Key where
  k1 : Blk
  k2 : Blk
  k3 : Blk
  k4 : Blk
  k5 : Blk
  k6 : Blk
  k7 : Blk
  k8 : Blk
  k9 : Blk
  k10 : Blk

/-- `Key(shared_ptr<const Data>)` (goost/kuznyechik/Key.cpp:23-35) from the blocks returned by
`high()` and `low()`. The caches of one key get ten distinct identities starting at `base`. -/
def Key.ofBlocks (high low : Blk) (base : Nat := 0) : Key :=
  let k1 := Blk.cached (base + 1) high
  let k2 := Blk.cached (base + 2) low
  let k3 := Blk.cached (base + 3) (BlkIterKey k1 k2 1 8)
  let k4 := Blk.cached (base + 4) (BlkIterKey k1 k2 1 7)
  let k5 := Blk.cached (base + 5) (BlkIterKey k3 k4 9 16)
  let k6 := Blk.cached (base + 6) (BlkIterKey k3 k4 9 15)
  let k7 := Blk.cached (base + 7) (BlkIterKey k5 k6 17 24)
  let k8 := Blk.cached (base + 8) (BlkIterKey k5 k6 17 23)
  let k9 := Blk.cached (base + 9) (BlkIterKey k7 k8 25 32)
  let k10 := Blk.cached (base + 10) (BlkIterKey k7 k8 25 31)
  ⟨k1, k2, k3, k4, k5, k6, k7, k8, k9, k10⟩

/-- `KeyDataString::high` (goost/kuznyechik/KeyDataString.cpp:23-26). -/
def KeyDataString.high (key_data : List Char) : Exec Blk := do
  let s ← substr key_data 0 32
  return .str s

/-- `KeyDataString::low` (goost/kuznyechik/KeyDataString.cpp:18-21). -/
def KeyDataString.low (key_data : List Char) : Exec Blk := do
  let s ← substr key_data 32 32
  return .str s

/-- `Key(string)` (goost/kuznyechik/Key.cpp:18-21): the halves are cut in the constructor, the
digits are read when the key is used. -/
def Key.ofString (key_data : List Char) (base : Nat := 0) : Exec Key := do
  let high ← KeyDataString.high key_data
  let low ← KeyDataString.low key_data
  return Key.ofBlocks high low base

/-- `Key::encryptStep` (goost/kuznyechik/Key.cpp:51-57). -/
def Key.encryptStep (block kn : Blk) : Blk := BlkL (.blkS (.xored block kn))

/-- `Key::encrypt` (goost/kuznyechik/Key.cpp:37-49). -/
def Key.encrypt (key : Key) (block : Blk) : Blk :=
  let t1 := Key.encryptStep block key.k1
  let t2 := Key.encryptStep t1 key.k2
  let t3 := Key.encryptStep t2 key.k3
  let t4 := Key.encryptStep t3 key.k4
  let t5 := Key.encryptStep t4 key.k5
  let t6 := Key.encryptStep t5 key.k6
  let t7 := Key.encryptStep t6 key.k7
  let t8 := Key.encryptStep t7 key.k8
  let t9 := Key.encryptStep t8 key.k9
  .xored t9 key.k10

/-- `BlkEncrypted` (goost/kuznyechik/BlkEncrypted.cpp:12-20): the block that `value()`
evaluates. -/
def BlkEncrypted (block : Blk) (key : Key) : Blk := key.encrypt block

end Goost.Kuz
