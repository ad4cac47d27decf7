import Verif.Model.Gost89
import Verif.Model.Kuznyechik
import Verif.Spec.ByteOrder
/-
The parts of the code that reinterpret bytes in memory as numbers or numbers as bytes, for a machine of
either byte order. The rest of the model is for a little-endian machine; theorem
`C90_little_endian_is_the_model` shows that the functions here agree with it there. Everything else in
the code (the shifts of the CFB classes, the texts of keys and blocks, the substitution tables) does not
depend on the byte order.
-/
namespace Goost
open Spec (ByteOrder)

/-- Bytes of a `uint32_t` in memory order. Used for goost/magma/ECBSource.cpp:54,
goost/gost89/DataImit.cpp:34-35. -/
def bytes32In : ByteOrder → W32 → List Byte
  | .little, x => bytes32 x
  | .big, x => [x.extractLsb' 24 8, x.extractLsb' 16 8, x.extractLsb' 8 8, x.extractLsb' 0 8]

/-- Bytes of a `uint64_t` in memory order. Used for goost/magma/ECBSink.cpp:33,
goost/kuznyechik/BlkR.cpp:48-49. -/
def bytes64In : ByteOrder → W64 → List Byte
  | .little, x => bytes64 x
  | .big, x => [x.extractLsb' 56 8, x.extractLsb' 48 8, x.extractLsb' 40 8, x.extractLsb' 32 8,
      x.extractLsb' 24 8, x.extractLsb' 16 8, x.extractLsb' 8 8, x.extractLsb' 0 8]

/-- Load of a `uint32_t` at byte offset `off` of a buffer. Used for goost/magma/BlkRaw.cpp:34-35, 42-43. -/
def load32In : ByteOrder → List Byte → Nat → Exec W32
  | .little, v, off => load32 v off
  | .big, v, off => do
    let b0 ← vget v off
    let b1 ← vget v (off + 1)
    let b2 ← vget v (off + 2)
    let b3 ← vget v (off + 3)
    return (b0 ++ b1 ++ b2 ++ b3 : BitVec 32)

/-- Load of a `uint64_t` at byte offset `off` of a buffer. Used for goost/kuznyechik/BlkRaw.cpp:28-29,
goost/magma/ECBSink.cpp:30. -/
def load64In : ByteOrder → List Byte → Nat → Exec W64
  | .little, v, off => load64 v off
  | .big, v, off => do
    let b0 ← vget v off
    let b1 ← vget v (off + 1)
    let b2 ← vget v (off + 2)
    let b3 ← vget v (off + 3)
    let b4 ← vget v (off + 4)
    let b5 ← vget v (off + 5)
    let b6 ← vget v (off + 6)
    let b7 ← vget v (off + 7)
    return (b0 ++ b1 ++ b2 ++ b3 ++ b4 ++ b5 ++ b6 ++ b7 : BitVec 64)

/-- `htonl`: reverses the bytes of a word on a little-endian machine and does nothing on a big-endian
one. Used for goost/magma/ECBSource.cpp:66. -/
def htonlIn : ByteOrder → W32 → W32
  | .little, x => Magma.htonl x
  | .big, x => x

namespace Magma
variable {W σ τ : Type}

/-- `BlkRaw(const void *)` and `BlkRaw(const vector<uint8_t> &)` (goost/magma/BlkRaw.cpp:32-46). -/
def BlkRaw.ofBytesIn (o : ByteOrder) (buf : List Byte) : Exec Blk := do
  let low ← load32In o buf 0
  let high ← load32In o buf 4
  return .raw low high

/-- `ECBSource::makeKey` (goost/magma/ECBSource.cpp:59-74). -/
def ECBSource.makeKeyIn (o : ByteOrder) (c : Container) : Exec Key := do
  let kb ← copyInto 32 c.key
  let k0 ← load32In o kb 0
  let k1 ← load32In o kb 4
  let k2 ← load32In o kb 8
  let k3 ← load32In o kb 12
  let k4 ← load32In o kb 16
  let k5 ← load32In o kb 20
  let k6 ← load32In o kb 24
  let k7 ← load32In o kb 28
  let key := [k0, k1, k2, k3, k4, k5, k6, k7].map (htonlIn o)
  let sbox ← copyInto 64 c.sbox
  return LazyKey.ofNative key (SboxTwisted (SboxByte sbox))

/-- The loop of `ECBSink::write` and the code after it (goost/magma/ECBSink.cpp:26-42). -/
def ECBSink.loopIn (o : ByteOrder) (wr : τ → List Byte → Io W τ) (key : Key) :
    List Byte → List Byte → τ → Io W (ECBSink τ)
  | [], p, s =>
    if p ≠ [] then Io.lift (.throw (.runtimeError "Unaligned ECB encryption"))
    else pure ⟨s, key⟩
  | b :: data, p, s =>
    let p := p ++ [b]
    if p.length = 8 then do
      let x ← Io.lift (load64In o p 0)
      let e ← Io.lift (EncryptionBase.transform key x)
      let p ← Io.lift (overwrite8 p (bytes64In o e))
      let s ← wr s p
      ECBSink.loopIn o wr key data [] s
    else
      ECBSink.loopIn o wr key data p s

/-- `ECBSink::write` (goost/magma/ECBSink.cpp:22-43). -/
def ECBSink.writeIn (o : ByteOrder) (wr : τ → List Byte → Io W τ) (t : ECBSink τ) (data : List Byte) :
    Io W (ECBSink τ) :=
  ECBSink.loopIn o wr t.key data [] t.sink

/-- `ECBSource::read` (goost/magma/ECBSource.cpp:35-57); for the bare source, its own `read`. -/
def ECBSource.readIn (o : ByteOrder) (m : Machine) (rd : σ → Nat → Io W (List Byte × σ)) :
    ECBSource σ → Nat → Io W (List Byte × ECBSource σ)
  | .bare source, size => do
    let (p, s) ← rd source size
    return (p, .bare s)
  | .ecb source key, size =>
    if size < 8 then Io.lift (.throw (.runtimeError "Unaligned ECB decryption"))
    else do
      let (p, s) ← rd source 8
      if p = [] then
        return (p, .bare s)
      else do
        let b ← Io.lift (BlkRaw.ofBytesIn o p)
        let e ← Io.lift ((BlkDecrypted b key.asLazy).value m)
        let p ← Io.lift (overwrite8 p (bytes32In o e.1 ++ bytes32In o e.2))
        return (p, .ecb s key)

/-- The loop of `CFBSink::write` (goost/magma/CFBSink.cpp:42-62). -/
def CFBSink.loopIn (o : ByteOrder) (m : Machine) (wr : τ → List Byte → Io W τ) (key : Key) :
    List Byte → τ → List Byte → W64 → W64 → Io W (CFBSink τ)
  | [], s, p, rl, rr => pure ⟨s, key, rl, rr, p⟩
  | b :: data, s, p, rl, rr =>
    let p := p ++ [b]
    if p.length = 8 then do
      let e ← Io.lift ((BlkEncrypted (BlkRaw.ofU64 rl) key.asLazy).value m)
      let c ← Io.lift (xorWords p e.1 e.2)
      let s ← wr s c
      let rl := rr
      let rr ← Io.lift (load64In o c 0)
      CFBSink.loopIn o m wr key data s [] rl rr
    else
      CFBSink.loopIn o m wr key data s p rl rr

/-- `CFBSink::write` (goost/magma/CFBSink.cpp:36-63). -/
def CFBSink.writeIn (o : ByteOrder) (m : Machine) (wr : τ → List Byte → Io W τ) (t : CFBSink τ)
    (data : List Byte) : Io W (CFBSink τ) :=
  CFBSink.loopIn o m wr t.key data t.sink t.plain t.ivl t.ivr

/-- `memcpy(&r, &p[0], max(sizeof(r), p.size()))` (goost/magma/CFBSource.cpp:64,
goost/gost89/CFBSource.cpp:61). -/
def copyMaxIn (o : ByteOrder) (p : List Byte) : Exec W64 :=
  let n := max 8 p.length
  if p.length < n then .ub .oobRead
  else if 8 < n then .ub .oobWrite
  else load64In o p 0

/-- The outer loop of `CFBSource::read` (goost/magma/CFBSource.cpp:43-76), with a budget of
iterations. -/
def CFBSource.loopIn (o : ByteOrder) (m : Machine) (rd : σ → Nat → Io W (List Byte × σ)) (key : Key)
    (size : Nat) : Nat → σ → List Byte → W64 → W64 → List Byte → Io W (List Byte × CFBSource σ)
  | 0, _, _, _, _, _ => Io.lift .diverge
  | fuel + 1, s, p, rl, rr, res =>
    if res.length < size then
      let (p, res) := drain size p res
      if res.length = size then
        pure (res, ⟨s, key, rl, rr, p⟩)
      else do
        let e ← Io.lift ((BlkEncrypted (BlkRaw.ofU64 rl) key.asLazy).value m)
        let (p, s) ← rd s 8
        if p = [] then
          pure (res, ⟨s, key, rl, rr, p⟩)
        else do
          let rl := rr
          let rr ← Io.lift (copyMaxIn o p)
          let p ← Io.lift (condXorWords p e.1 e.2)
          CFBSource.loopIn o m rd key size fuel s p rl rr res
    else
      pure (res, ⟨s, key, rl, rr, p⟩)

/-- `CFBSource::read` (goost/magma/CFBSource.cpp:35-77). -/
def CFBSource.readIn (o : ByteOrder) (m : Machine) (rd : σ → Nat → Io W (List Byte × σ))
    (t : CFBSource σ) (size : Nat) : Io W (List Byte × CFBSource σ) :=
  CFBSource.loopIn o m rd t.key size (size + 1) t.source t.plain t.ivl t.ivr []

/-- `uint64_t v = 0; memcpy(&v, &b[0], b.size());` (goost/magma/Imit.cpp:89-90): the bytes go to the
lowest addresses of `v`. -/
def Imit.loadPartialIn (o : ByteOrder) (b : List Byte) : Exec W64 := do
  let buf ← copyInto 8 b
  load64In o buf 0

/-- The loop of `Imit::value` (goost/magma/Imit.cpp:87-100) with a budget of iterations; returns
`block` and `k`. -/
def Imit.loopIn (o : ByteOrder) (rd : σ → Nat → Io W (List Byte × σ)) (key : Option Key) :
    Nat → σ → List Byte → Blk → Io W (Blk × Blk)
  | 0, _, _, _ => Io.lift .diverge
  | fuel + 1, s, b, block => do
    let k := BlkImitFinalKey key b.length
    let v ← Io.lift (Imit.loadPartialIn o b)
    let block := Blk.xored block (BlkRaw.ofU64 v)
    if b.length < 8 then
      pure (block, k)
    else do
      let (b, s) ← rd s 8
      if b = [] then
        pure (block, k)
      else
        Imit.loopIn o rd key fuel s b (BlkEncrypted block key)

/-- `Imit::value` (goost/magma/Imit.cpp:79-103). -/
def Imit.valueIn (o : ByteOrder) (m : Machine) (rd : σ → Nat → Io W (List Byte × σ)) (fuel : Nat)
    (data : σ) (key : Option Key) : Io W (W32 × W32) := do
  let (b, s) ← rd data 8
  let (block, k) ← Imit.loopIn o rd key fuel s b BlkRaw.zero
  Io.lift ((BlkEncrypted (.xored block k) key).value m)

end Magma

namespace Gost89
open Goost.Magma
variable {W σ τ : Type}

/-- The loop of `CFBSink::write` (goost/gost89/CFBSink.cpp:42-61). -/
def CFBSink.loopIn (o : ByteOrder) (m : Machine) (wr : τ → List Byte → Io W τ) (key : Key) :
    List Byte → τ → List Byte → W64 → Io W (CFBSink τ)
  | [], s, p, l => pure ⟨s, key, l, p⟩
  | b :: data, s, p, l =>
    let p := p ++ [b]
    if p.length = 8 then do
      let e ← Io.lift ((BlkEncrypted (BlkRaw.ofU64 l) key.asLazy).value m)
      let c ← Io.lift (xorWords p e.1 e.2)
      let s ← wr s c
      let l ← Io.lift (load64In o c 0)
      CFBSink.loopIn o m wr key data s [] l
    else
      CFBSink.loopIn o m wr key data s p l

/-- `CFBSink::write` (goost/gost89/CFBSink.cpp:37-62). -/
def CFBSink.writeIn (o : ByteOrder) (m : Machine) (wr : τ → List Byte → Io W τ) (t : CFBSink τ)
    (data : List Byte) : Io W (CFBSink τ) :=
  CFBSink.loopIn o m wr t.key data t.sink t.plain t.iv

/-- The outer loop of `CFBSource::read` (goost/gost89/CFBSource.cpp:41-73), with a budget of
iterations. -/
def CFBSource.loopIn (o : ByteOrder) (m : Machine) (rd : σ → Nat → Io W (List Byte × σ)) (key : Key)
    (size : Nat) : Nat → σ → List Byte → W64 → List Byte → Io W (List Byte × CFBSource σ)
  | 0, _, _, _, _ => Io.lift .diverge
  | fuel + 1, s, p, r, res =>
    if res.length < size then
      let (p, res) := drain size p res
      if res.length = size then
        pure (res, ⟨s, key, r, p⟩)
      else do
        let e ← Io.lift ((BlkEncrypted (BlkRaw.ofU64 r) key.asLazy).value m)
        let (p, s) ← rd s 8
        if p = [] then
          pure (res, ⟨s, key, r, p⟩)
        else do
          let r ← Io.lift (copyMaxIn o p)
          let p ← Io.lift (condXorWords p e.1 e.2)
          CFBSource.loopIn o m rd key size fuel s p r res
    else
      pure (res, ⟨s, key, r, p⟩)

/-- `CFBSource::read` (goost/gost89/CFBSource.cpp:34-74). -/
def CFBSource.readIn (o : ByteOrder) (m : Machine) (rd : σ → Nat → Io W (List Byte × σ))
    (t : CFBSource σ) (size : Nat) : Io W (List Byte × CFBSource σ) :=
  CFBSource.loopIn o m rd t.key size (size + 1) t.source t.plain t.iv []

/-- The loop of `DataImit::value` (goost/gost89/DataImit.cpp:28-36) on the bytes not yet consumed. -/
def DataImit.loopIn (o : ByteOrder) (m : Machine) (key : Option Key) :
    List Byte → List Byte → Exec (List Byte)
  | b0 :: b1 :: b2 :: b3 :: b4 :: b5 :: b6 :: b7 :: rest, state => do
    let state := List.zipWith (· ^^^ ·) state [b0, b1, b2, b3, b4, b5, b6, b7]
    let raw ← BlkRaw.ofBytesIn o state
    let r ← ImitedBlock.value m raw key
    let b ← r.value m
    let state ← overwrite8 state (bytes32In o b.1 ++ bytes32In o b.2)
    DataImit.loopIn o m key rest state
  | [], state => .ok state
  | _, _ => .ub .oobRead

/-- `DataImit::value` (goost/gost89/DataImit.cpp:18-38). -/
def DataImit.valueIn (o : ByteOrder) (m : Machine) (data : List Byte) (key : Option Key) :
    Exec (List Byte) :=
  DataImit.loopIn o m key (DataImit.pad data) (List.replicate 8 0)

end Gost89

namespace Kuz

/-- `BlkS::value` after the inner value is known (goost/kuznyechik/BlkS.cpp:38-43). -/
def sValueIn (o : ByteOrder) (v : W64 × W64) : Exec (W64 × W64) := do
  let data ← (bytes64In o v.1 ++ bytes64In o v.2).mapM (fun b => vget BlkS.sbox b.toNat)
  let first ← load64In o data 0
  let second ← load64In o data 8
  return (first, second)

/-- `BlkR::value` after the inner value is known (goost/kuznyechik/BlkR.cpp:46-55,
goost/kuznyechik/BlkRaw.cpp:26-32). -/
def rValueIn (o : ByteOrder) (m : Machine) (v : W64 × W64) : Exec (W64 × W64) := do
  let data := bytes64In o v.1 ++ bytes64In o v.2
  let sum : Byte := (List.zipWith gmul data BlkR.k).foldl (· ^^^ ·) 0
  let data := data ++ [sum]
  if m.unalignedLoad then do
    let low ← load64In o data 1
    let high ← load64In o data 9
    return (low, high)
  else .ub .misaligned

/-- `Block::value()` for every class, as `Blk.value`; only BlkS (goost/kuznyechik/BlkS.cpp:18-44) and
BlkR (goost/kuznyechik/BlkR.cpp:41-56) look at bytes in memory. -/
def Blk.valueIn (o : ByteOrder) (m : Machine) : Blk → Exec (W64 × W64)
  | .raw low high => .ok (low, high)
  | .str txt => (Blk.str txt).value m
  | .xored a b => do
    let va ← a.valueIn o m
    let vb ← b.valueIn o m
    return (va.1 ^^^ vb.1, va.2 ^^^ vb.2)
  | .blkS b => do
    let v ← b.valueIn o m
    sValueIn o v
  | .blkR b => do
    let v ← b.valueIn o m
    rValueIn o m v
  | .incremented b => do
    let v ← b.valueIn o m
    return incValue v
  | .shifted b n => do
    let v ← b.valueIn o m
    shiftValue v n
  | .xoredIfHighBit a b => do
    let va ← a.valueIn o m
    if va.2 &&& 0x8000000000000000 = 0 then do
      let va' ← a.valueIn o m
      shiftValue va' 1
    else do
      let va' ← a.valueIn o m
      let s ← shiftValue va' 1
      let vb ← b.valueIn o m
      return (s.1 ^^^ vb.1, s.2 ^^^ vb.2)
  | .cached _ b => b.valueIn o m
  | .user v => v

end Kuz
end Goost
