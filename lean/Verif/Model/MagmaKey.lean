import Verif.Model.Text
/-
goost/magma: S-boxes, key data, keys.
-/
namespace Goost.Magma

/-- `Sbox` (goost/magma/Sbox.h:12-16): an object with `transform(uint32_t)`. -/
abbrev Sbox := W32 → Exec W32

/-- `KeyData` (goost/magma/KeyData.h:12-16): an object with `key(int)`. Objects whose
answers change over time are modelled separately (`KeyCachedData.key`). -/
abbrev KeyData := Int → Exec W32

/-- `SboxNibble::transformN` (goost/magma/SboxNibble.cpp:30-34). The table is a
`vector<int>`. -/
def SboxNibble.transformN (value : W32) (p : List Int) (nidx : Nat) : Exec W32 := do
  let i := (value >>> (nidx * 4)) &&& 0xf
  let x ← vget p i.toNat
  return (BitVec.ofInt 32 x) <<< (nidx * 4)

/-- `SboxNibble::transform` (goost/magma/SboxNibble.cpp:11-28). The eight constructor
arguments `p0..p7` are passed as a function of their index. (The order of evaluation of the
operands of `|` is unspecified; they have no effects and the only failure is the same
out-of-bounds read.) -/
def SboxNibble (p : Fin 8 → List Int) : Sbox := fun value => do
  let t0 ← SboxNibble.transformN value (p 0) 0
  let t1 ← SboxNibble.transformN value (p 1) 1
  let t2 ← SboxNibble.transformN value (p 2) 2
  let t3 ← SboxNibble.transformN value (p 3) 3
  let t4 ← SboxNibble.transformN value (p 4) 4
  let t5 ← SboxNibble.transformN value (p 5) 5
  let t6 ← SboxNibble.transformN value (p 6) 6
  let t7 ← SboxNibble.transformN value (p 7) 7
  return t0 ||| t1 ||| t2 ||| t3 ||| t4 ||| t5 ||| t6 ||| t7

/-- `SboxTwisted::transform` (goost/magma/SboxTwisted.cpp:16-20). -/
def SboxTwisted (sbox : Sbox) : Sbox := fun value => do
  let tmp ← sbox value
  return (tmp <<< 11) ||| ((tmp >>> 21) &&& 0x7ff)

/-- The tables of `SboxR3412` (goost/magma/SboxR3412.cpp:18-25). -/
def SboxR3412.tables : Fin 8 → List Int
  | 0 => [12, 4, 6, 2, 10, 5, 11, 9, 14, 8, 13, 7, 0, 3, 15, 1]
  | 1 => [6, 8, 2, 3, 9, 10, 5, 12, 1, 14, 4, 7, 11, 13, 0, 15]
  | 2 => [11, 3, 5, 8, 2, 15, 10, 13, 14, 1, 7, 4, 12, 9, 6, 0]
  | 3 => [12, 8, 2, 1, 13, 4, 15, 6, 7, 0, 10, 5, 3, 14, 9, 11]
  | 4 => [7, 15, 5, 10, 8, 1, 6, 13, 0, 9, 3, 14, 11, 4, 2, 12]
  | 5 => [5, 13, 15, 6, 9, 2, 12, 10, 11, 7, 8, 1, 4, 3, 14, 0]
  | 6 => [8, 14, 2, 5, 6, 9, 1, 12, 15, 4, 11, 0, 13, 10, 3, 7]
  | 7 => [1, 7, 14, 13, 0, 5, 8, 3, 4, 15, 10, 6, 9, 12, 11, 2]

/-- `SboxR3412` (goost/magma/SboxR3412.cpp:14-35). -/
def SboxR3412 : Sbox := fun value => SboxTwisted (SboxNibble SboxR3412.tables) value

/-- `SboxByte::Tab` (goost/magma/SboxByte.h:18-22): `translate(int)`, the `int` as 32 bits. -/
abbrev SboxByteTab := BitVec 32 → Exec W32

/-- `SboxByte64Tab::translate` (goost/magma/SboxByte64Tab.cpp:11-20). `index >> 4` is the
arithmetic shift of an `int`. The sum of two disjoint nibbles is an `int` below 256. -/
def SboxByte64Tab (uz : List Byte) (offset : Nat) : SboxByteTab := fun index => do
  let hi ← vget uz (((index.sshiftRight 4) &&& 0xf).toNat * 4 + offset)
  let lo ← vget uz ((index &&& 0xf).toNat * 4 + offset)
  return ((hi &&& 0xf0).setWidth 32) + ((lo &&& 0x0f).setWidth 32)

/-- `SboxByte::transform`, primary constructor (goost/magma/SboxByte.cpp:22-38). The
`uint32_t` argument is converted to `int`, which keeps the 32 bits. -/
def SboxByte.ofTabs (tab1 tab2 tab3 tab4 : SboxByteTab) : Sbox := fun v => do
  let t1 ← tab1 v
  let t2 ← tab2 (v >>> 8)
  let t3 ← tab3 (v >>> 16)
  let t4 ← tab4 (v >>> 24)
  return t1 ||| (t2 <<< 8) ||| (t3 <<< 16) ||| (t4 <<< 24)

/-- `SboxByte(const vector<uint8_t> &)` (goost/magma/SboxByte.cpp:12-20). -/
def SboxByte (uz : List Byte) : Sbox :=
  SboxByte.ofTabs (SboxByte64Tab uz 0) (SboxByte64Tab uz 1) (SboxByte64Tab uz 2)
    (SboxByte64Tab uz 3)

/-- `KeyDataNative::key` (goost/magma/KeyDataNative.cpp:11-19): unchecked vector access. -/
def KeyDataNative (key_data : List W32) : KeyData := fun index => vgetI key_data index

/-- `KeyDataString::key` (goost/magma/KeyDataString.cpp:13-31). -/
def KeyDataString (key_data : List Char) : KeyData := fun index =>
  if key_data.length ≠ 64 then .throw (.runtimeError "Wrong key size")
  else if index < 0 ∨ index > 7 then .throw (.runtimeError "Wrong key index")
  else do
    let s ← substr key_data (index.toNat * 8) 8
    istreamHex32 s

/-- `KeyCachedData::CachedData` (goost/magma/KeyCachedData.h:18-21), value-initialised by
`make_unique` (goost/magma/KeyCachedData.cpp:12). -/
structure CachedData where
  cached : Bool := false
  key : List W32 := List.replicate 8 0
  deriving DecidableEq, Repr

/-- The loop of `KeyCachedData::key` (goost/magma/KeyCachedData.cpp:19-21) from index `i` on,
`n` iterations left. The wrapped object may have hidden state `Ω`, so that its answers may
differ from call to call; elements stored before an exception stay stored. -/
def KeyCachedData.fill {Ω : Type} (keydata : Ω → Int → Exec W32 × Ω) :
    Nat → Nat → List W32 → Ω → Exec Unit × List W32 × Ω
  | 0, _, key, o => (.ok (), key, o)
  | n + 1, i, key, o =>
    match keydata o i with
    | (.ok k, o') => KeyCachedData.fill keydata n (i + 1) (key.set i k) o'
    | (.throw e, o') => (.throw e, key, o')
    | (.ub u, o') => (.ub u, key, o')
    | (.diverge, o') => (.diverge, key, o')

/-- `KeyCachedData::key` (goost/magma/KeyCachedData.cpp:16-25), acting on its cache and on the
hidden state of the wrapped object. -/
def KeyCachedData.key {Ω : Type} (keydata : Ω → Int → Exec W32 × Ω) (index : Int)
    (cache : CachedData) (o : Ω) : Exec W32 × CachedData × Ω :=
  if cache.cached then (vgetI cache.key index, cache, o)
  else
    match KeyCachedData.fill keydata cache.key.length 0 cache.key o with
    | (.ok _, key, o') => (vgetI key index, { cached := true, key := key }, o')
    | (.throw e, key, o') => (.throw e, { cached := false, key := key }, o')
    | (.ub u, key, o') => (.ub u, { cached := false, key := key }, o')
    | (.diverge, key, o') => (.diverge, { cached := false, key := key }, o')

/-- The first call of `KeyCachedData::key` on a fresh cache over a `KeyData` whose answers do
not change: all eight words are read, then one is returned. That later calls return the same
is theorem `C10`. goost/magma/KeyCachedData.cpp:16-25. -/
def KeyCachedData (keydata : KeyData) : KeyData := fun index => do
  let k0 ← keydata 0
  let k1 ← keydata 1
  let k2 ← keydata 2
  let k3 ← keydata 3
  let k4 ← keydata 4
  let k5 ← keydata 5
  let k6 ← keydata 6
  let k7 ← keydata 7
  vgetI [k0, k1, k2, k3, k4, k5, k6, k7] index

/-- A `Key` object (goost/magma/Key.h:11-15). `isLazy` says whether its dynamic type is
`LazyKey`, which `dynamic_pointer_cast` observes. -/
structure Key where
  isLazy : Bool
  transform : W32 → Int → Exec W32

/-- `LazyKey::transform`, primary constructor (goost/magma/LazyKey.cpp:35-43). -/
def LazyKey (key_data : KeyData) (sbox : Sbox) : Key where
  isLazy := true
  transform v index := do
    let k ← key_data index
    sbox (k + v)

/-- `LazyKey(string, sbox)` (goost/magma/LazyKey.cpp:22-28). -/
def LazyKey.ofStringSbox (key_data : List Char) (sbox : Sbox) : Key :=
  LazyKey (KeyCachedData (KeyDataString key_data)) sbox

/-- `LazyKey(string)` (goost/magma/LazyKey.cpp:17-20). -/
def LazyKey.ofString (key_data : List Char) : Key :=
  LazyKey.ofStringSbox key_data SboxR3412

/-- `LazyKey(vector<uint32_t>, sbox)` (goost/magma/LazyKey.cpp:30-33). -/
def LazyKey.ofNative (key_data : List W32) (sbox : Sbox) : Key :=
  LazyKey (KeyDataNative key_data) sbox

/-- `dynamic_pointer_cast<const LazyKey>(key)`: null unless the object is a `LazyKey`. E.g.
goost/magma/CFBSink.cpp:47, 71. -/
def Key.asLazy (k : Key) : Option Key := if k.isLazy then some k else none

/-- `key->transform(v, i)` through a possibly null pointer. E.g. goost/magma/BlkForwarded.cpp:24-31. -/
def callKey (k : Option Key) (v : W32) (i : Int) : Exec W32 :=
  match k with
  | some k => k.transform v i
  | none => .ub .nullDeref

/-- `Container` (goost/magma/Container.h:15-24): its `key()` and `sbox()`. (`mask()` is not
used by the code.) -/
structure Container where
  key : List Byte
  sbox : List Byte

/-- `memcpy(&dst[0], &src[0], src.size())` into a zero-filled buffer of `n` bytes: taking
`&src[0]` of an empty vector and copying more than `n` bytes are undefined.
goost/magma/ECBSource.cpp:63-64, 70-71. -/
def copyInto (n : Nat) (src : List Byte) : Exec (List Byte) :=
  if src = [] then .ub .oobRead
  else if src.length ≤ n then .ok (src ++ List.replicate (n - src.length) 0)
  else .ub .oobWrite

/-- `htonl` on a little-endian target: reverses the bytes of a word. Used for
goost/magma/ECBSource.cpp:66. -/
def htonl (x : W32) : W32 :=
  x.extractLsb' 0 8 ++ x.extractLsb' 8 8 ++ x.extractLsb' 16 8 ++ x.extractLsb' 24 8

/-- `ECBSource::makeKey` (goost/magma/ECBSource.cpp:59-74). -/
def ECBSource.makeKey (c : Container) : Exec Key := do
  let kb ← copyInto 32 c.key
  let k0 ← load32 kb 0
  let k1 ← load32 kb 4
  let k2 ← load32 kb 8
  let k3 ← load32 kb 12
  let k4 ← load32 kb 16
  let k5 ← load32 kb 20
  let k6 ← load32 kb 24
  let k7 ← load32 kb 28
  let key := [k0, k1, k2, k3, k4, k5, k6, k7].map htonl
  let sbox ← copyInto 64 c.sbox
  return LazyKey.ofNative key (SboxTwisted (SboxByte sbox))

end Goost.Magma
