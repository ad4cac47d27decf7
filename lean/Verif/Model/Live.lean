import Verif.Model.Gost89
/-
goost/magma and goost/gost89 once more, with keys, key data and substitutions that act on the outside
world when they are asked: a token, a file, a cache. `Key`, `KeyData` and `Sbox` are abstract classes
(goost/magma/Key.h:11-15, KeyData.h:12-16, Sbox.h:12-16), so they may be implemented by the user in any way.
The definitions of Model/MagmaKey, MagmaBlock, MagmaModes and Gost89 are those for objects whose answers
never change; theorem C105 relates the two. The cited lines are the same.
-/
namespace Goost.Live
open Goost.Magma

variable {W σ τ : Type}

/-- A `Key` object (goost/magma/Key.h:11-15). -/
structure Key (W : Type) where
  isLazy : Bool
  transform : W32 → Int → Io W W32

/-- `LazyKey::transform`, primary constructor (goost/magma/LazyKey.cpp:35-43). -/
def LazyKey (key_data : Int → Io W W32) (sbox : W32 → Io W W32) : Key W where
  isLazy := true
  transform v index := do
    let k ← key_data index
    sbox (k + v)

/-- The loop of `KeyCachedData::key` (goost/magma/KeyCachedData.cpp:19-21) from index `i` on, `n`
iterations left; `get` and `put` access the cache, which is a part of the world. -/
def KeyCachedData.fill (get : W → CachedData) (put : CachedData → W → W) (keydata : Int → Io W W32) :
    Nat → Nat → Io W Unit
  | 0, _ => pure ()
  | n + 1, i => do
    let k ← keydata i
    fun w => (.ok (), put { get w with key := (get w).key.set i k } w)
    KeyCachedData.fill get put keydata n (i + 1)

/-- `KeyCachedData::key` (goost/magma/KeyCachedData.cpp:16-25). -/
def KeyCachedData (get : W → CachedData) (put : CachedData → W → W) (keydata : Int → Io W W32)
    (index : Int) : Io W W32 := fun w =>
  (do
    if (get w).cached then
      pure ()
    else do
      KeyCachedData.fill get put keydata (get w).key.length 0
      fun w => (.ok (), put { get w with cached := true } w)
    fun w => (vgetI (get w).key index, w)) w

/-- `dynamic_pointer_cast<const LazyKey>(key)`: null unless the object is a `LazyKey`. E.g.
goost/magma/CFBSink.cpp:47, 71. -/
def Key.asLazy (k : Key W) : Option (Key W) := if k.isLazy then some k else none

/-- `key->transform(v, i)` through a possibly null pointer. E.g. goost/magma/BlkForwarded.cpp:24-31. -/
def callKey (k : Option (Key W)) (v : W32) (i : Int) : Io W W32 :=
  match k with
  | some k => k.transform v i
  | none => Io.lift (.ub .nullDeref)

/-- The classes of blocks that the streams use (goost/magma/Block.h:13-19). -/
inductive Blk (W : Type) where
  /-- `BlkRaw` (goost/magma/BlkRaw.h:16-30) -/
  | raw (low high : W32)
  /-- `BlkSwapped` (goost/magma/BlkSwapped.h:13-19) -/
  | swapped (b : Blk W)
  /-- `BlkXored` with two operands (goost/magma/BlkXored.h:13-31) -/
  | xored (a b : Blk W)
  /-- `BlkForwarded` (goost/magma/BlkForwarded.h:16-26) -/
  | forwarded (b : Blk W) (key : Option (Key W))
  /-- `BlkBackwarded` (goost/magma/BlkBackwarded.h:16-26) -/
  | backwarded (b : Blk W) (key : Option (Key W))
  /-- `BlkImitShifted` (goost/magma/Imit.cpp:21-27) -/
  | imitShifted (b : Blk W)

/-- `BlkRaw(uint64_t)` (goost/magma/BlkRaw.cpp:27-30). -/
def BlkRaw.ofU64 (x : W64) : Blk W := .raw (x.setWidth 32) ((x >>> 32).setWidth 32)

/-- `BlkRaw(const void *)` (goost/magma/BlkRaw.cpp:40-46). -/
def BlkRaw.ofBytes (buf : List Byte) : Exec (Blk W) := do
  let low ← load32 buf 0
  let high ← load32 buf 4
  return .raw low high

/-- `BlkForwarded::value` after the inner value is known (goost/magma/BlkForwarded.cpp:21-33). -/
def forwardRounds (key : Option (Key W)) (v : W32 × W32) : Io W (W32 × W32) := do
  let (a, b) := v
  let b := b ^^^ (← callKey key a 0)
  let a := a ^^^ (← callKey key b 1)
  let b := b ^^^ (← callKey key a 2)
  let a := a ^^^ (← callKey key b 3)
  let b := b ^^^ (← callKey key a 4)
  let a := a ^^^ (← callKey key b 5)
  let b := b ^^^ (← callKey key a 6)
  let a := a ^^^ (← callKey key b 7)
  return (a, b)

/-- `BlkBackwarded::value` after the inner value is known (goost/magma/BlkBackwarded.cpp:20-32). -/
def backwardRounds (key : Option (Key W)) (v : W32 × W32) : Io W (W32 × W32) := do
  let (a, b) := v
  let b := b ^^^ (← callKey key a 7)
  let a := a ^^^ (← callKey key b 6)
  let b := b ^^^ (← callKey key a 5)
  let a := a ^^^ (← callKey key b 4)
  let b := b ^^^ (← callKey key a 3)
  let a := a ^^^ (← callKey key b 2)
  let b := b ^^^ (← callKey key a 1)
  let a := a ^^^ (← callKey key b 0)
  return (a, b)

/-- `Block::value()`: goost/magma/BlkRaw.cpp:53-56, goost/magma/BlkSwapped.cpp:16-20,
goost/magma/BlkXored.cpp:16-21, goost/magma/BlkForwarded.cpp:18-34, goost/magma/BlkBackwarded.cpp:17-33,
goost/magma/Imit.cpp:46-53 (evaluates its block twice). -/
def Blk.value (m : Machine) : Blk W → Io W (W32 × W32)
  | .raw low high => pure (low, high)
  | .swapped b => do
    let v ← b.value m
    return (v.2, v.1)
  | .xored a b => do
    let va ← a.value m
    let vb ← b.value m
    return (va.1 ^^^ vb.1, va.2 ^^^ vb.2)
  | .forwarded b key => do
    let v ← b.value m
    forwardRounds key v
  | .backwarded b key => do
    let v ← b.value m
    backwardRounds key v
  | .imitShifted b => do
    let v ← b.value m
    if v.2 &&& 0x80000000 = 0 then do
      let v' ← b.value m
      Io.lift (shiftValue m v' 1)
    else do
      let v' ← b.value m
      let s ← Io.lift (shiftValue m v' 1)
      return (s.1 ^^^ 0x1b, s.2 ^^^ 0)

/-- `BlkEncrypted` (goost/magma/BlkEncrypted.cpp:14-38). -/
def BlkEncrypted (block : Blk W) (key : Option (Key W)) : Blk W :=
  .swapped (.backwarded (.forwarded (.forwarded (.forwarded block key) key) key) key)

/-- `BlkDecrypted` (goost/magma/BlkDecrypted.cpp:14-38). -/
def BlkDecrypted (block : Blk W) (key : Option (Key W)) : Blk W :=
  .swapped (.backwarded (.backwarded (.backwarded (.forwarded block key) key) key) key)

/-- `EncryptionBase::transform` (goost/magma/EncryptionBase.cpp:17-59). -/
def EncryptionBase.transform (key : Key W) (block : W64) : Io W W64 := do
  let a : W32 := (block &&& 0xffffffff).setWidth 32
  let b : W32 := ((block >>> 32) &&& 0xffffffff).setWidth 32
  let b := b ^^^ (← key.transform a 0)
  let a := a ^^^ (← key.transform b 1)
  let b := b ^^^ (← key.transform a 2)
  let a := a ^^^ (← key.transform b 3)
  let b := b ^^^ (← key.transform a 4)
  let a := a ^^^ (← key.transform b 5)
  let b := b ^^^ (← key.transform a 6)
  let a := a ^^^ (← key.transform b 7)

  let b := b ^^^ (← key.transform a 0)
  let a := a ^^^ (← key.transform b 1)
  let b := b ^^^ (← key.transform a 2)
  let a := a ^^^ (← key.transform b 3)
  let b := b ^^^ (← key.transform a 4)
  let a := a ^^^ (← key.transform b 5)
  let b := b ^^^ (← key.transform a 6)
  let a := a ^^^ (← key.transform b 7)

  let b := b ^^^ (← key.transform a 0)
  let a := a ^^^ (← key.transform b 1)
  let b := b ^^^ (← key.transform a 2)
  let a := a ^^^ (← key.transform b 3)
  let b := b ^^^ (← key.transform a 4)
  let a := a ^^^ (← key.transform b 5)
  let b := b ^^^ (← key.transform a 6)
  let a := a ^^^ (← key.transform b 7)

  let b := b ^^^ (← key.transform a 7)
  let a := a ^^^ (← key.transform b 6)
  let b := b ^^^ (← key.transform a 5)
  let a := a ^^^ (← key.transform b 4)
  let b := b ^^^ (← key.transform a 3)
  let a := a ^^^ (← key.transform b 2)
  let b := b ^^^ (← key.transform a 1)
  let a := a ^^^ (← key.transform b 0)
  return ((a.setWidth 64) <<< 32) ||| b.setWidth 64

/-! ### ECBSink and ECBSource -/

/-- `ECBSink` (goost/magma/ECBSink.h:14-27). -/
structure ECBSink (W τ : Type) where
  sink : τ
  key : Key W

/-- The loop of `ECBSink::write` and the code after it (goost/magma/ECBSink.cpp:26-42). -/
def ECBSink.loop (wr : τ → List Byte → Io W τ) (key : Key W) :
    List Byte → List Byte → τ → Io W (ECBSink W τ)
  | [], p, s =>
    if p ≠ [] then Io.lift (.throw (.runtimeError "Unaligned ECB encryption"))
    else pure ⟨s, key⟩
  | b :: data, p, s =>
    let p := p ++ [b]
    if p.length = 8 then do
      let x ← Io.lift (load64 p 0)
      let e ← EncryptionBase.transform key x
      let p ← Io.lift (overwrite8 p (bytes64 e))
      let s ← wr s p
      ECBSink.loop wr key data [] s
    else
      ECBSink.loop wr key data p s

/-- `ECBSink::write` (goost/magma/ECBSink.cpp:22-43). -/
def ECBSink.write (wr : τ → List Byte → Io W τ) (t : ECBSink W τ) (data : List Byte) :
    Io W (ECBSink W τ) :=
  ECBSink.loop wr t.key data [] t.sink

/-- What `ECBSource::read` returns (goost/magma/ECBSource.h:15-38). -/
inductive ECBSource (W σ : Type) where
  | ecb (source : σ) (key : Key W)
  | bare (source : σ)

/-- `ECBSource::read` (goost/magma/ECBSource.cpp:35-57). -/
def ECBSource.read (m : Machine) (rd : σ → Nat → Io W (List Byte × σ)) :
    ECBSource W σ → Nat → Io W (List Byte × ECBSource W σ)
  | .bare source, size => do
    let (p, s) ← rd source size
    return (p, .bare s)
  | .ecb source key, size =>
    if size < 8 then Io.lift (.throw (.runtimeError "Unaligned ECB decryption"))
    else do
      let (p, s) ← rd source 8
      if p = [] then
        return (p, .bare s)
      else do
        let b ← Io.lift (BlkRaw.ofBytes p)
        let e ← (BlkDecrypted b key.asLazy).value m
        let p ← Io.lift (overwrite8 p (bytes32 e.1 ++ bytes32 e.2))
        return (p, .ecb s key)

/-! ### CFBSink and CFBSource -/

/-- `CFBSink` (goost/magma/CFBSink.h:14-40). -/
structure CFBSink (W τ : Type) where
  sink : τ
  key : Key W
  ivl : W64
  ivr : W64
  plain : List Byte

/-- The loop of `CFBSink::write` (goost/magma/CFBSink.cpp:42-62). -/
def CFBSink.loop (m : Machine) (wr : τ → List Byte → Io W τ) (key : Key W) :
    List Byte → τ → List Byte → W64 → W64 → Io W (CFBSink W τ)
  | [], s, p, rl, rr => pure ⟨s, key, rl, rr, p⟩
  | b :: data, s, p, rl, rr =>
    let p := p ++ [b]
    if p.length = 8 then do
      let e ← (BlkEncrypted (BlkRaw.ofU64 rl) key.asLazy).value m
      let c ← Io.lift (xorWords p e.1 e.2)
      let s ← wr s c
      let rl := rr
      let rr ← Io.lift (load64 c 0)
      CFBSink.loop m wr key data s [] rl rr
    else
      CFBSink.loop m wr key data s p rl rr

/-- `CFBSink::write` (goost/magma/CFBSink.cpp:36-63). -/
def CFBSink.write (m : Machine) (wr : τ → List Byte → Io W τ) (t : CFBSink W τ)
    (data : List Byte) : Io W (CFBSink W τ) :=
  CFBSink.loop m wr t.key data t.sink t.plain t.ivl t.ivr

/-- `CFBSink::finalize` (goost/magma/CFBSink.cpp:65-81). -/
def CFBSink.finalize (m : Machine) (wr : τ → List Byte → Io W τ) (t : CFBSink W τ) : Io W τ :=
  if t.plain ≠ [] then do
    let e ← (BlkEncrypted (BlkRaw.ofU64 t.ivl) t.key.asLazy).value m
    let c ← Io.lift (xorWords t.plain e.2 e.1)
    wr t.sink c
  else
    pure t.sink

/-- `CFBSource` (goost/magma/CFBSource.h:14-41). -/
structure CFBSource (W σ : Type) where
  source : σ
  key : Key W
  ivl : W64
  ivr : W64
  plain : List Byte

/-- The outer loop of `CFBSource::read` (goost/magma/CFBSource.cpp:43-76), with a budget of
iterations. -/
def CFBSource.loop (m : Machine) (rd : σ → Nat → Io W (List Byte × σ)) (key : Key W) (size : Nat) :
    Nat → σ → List Byte → W64 → W64 → List Byte → Io W (List Byte × CFBSource W σ)
  | 0, _, _, _, _, _ => Io.lift .diverge
  | fuel + 1, s, p, rl, rr, res =>
    if res.length < size then
      let (p, res) := drain size p res
      if res.length = size then
        pure (res, ⟨s, key, rl, rr, p⟩)
      else do
        let e ← (BlkEncrypted (BlkRaw.ofU64 rl) key.asLazy).value m
        let (p, s) ← rd s 8
        if p = [] then
          pure (res, ⟨s, key, rl, rr, p⟩)
        else do
          let rl := rr
          let rr ← Io.lift (copyMax p)
          let p ← Io.lift (condXorWords p e.1 e.2)
          CFBSource.loop m rd key size fuel s p rl rr res
    else
      pure (res, ⟨s, key, rl, rr, p⟩)

/-- `CFBSource::read` (goost/magma/CFBSource.cpp:35-77). -/
def CFBSource.read (m : Machine) (rd : σ → Nat → Io W (List Byte × σ)) (t : CFBSource W σ)
    (size : Nat) : Io W (List Byte × CFBSource W σ) :=
  CFBSource.loop m rd t.key size (size + 1) t.source t.plain t.ivl t.ivr []

/-! ### Imit -/

/-- `BlkImitFinalKey` (goost/magma/Imit.cpp:55-71). -/
def BlkImitFinalKey (key : Option (Key W)) (block_size : Nat) : Blk W :=
  let K1 := Blk.imitShifted (BlkEncrypted (BlkRaw.ofU64 0) key)
  if block_size = 8 then K1 else .imitShifted K1

/-- The loop of `Imit::value` (goost/magma/Imit.cpp:87-100) with a budget of iterations. -/
def Imit.loop (rd : σ → Nat → Io W (List Byte × σ)) (key : Option (Key W)) :
    Nat → σ → List Byte → Blk W → Io W (Blk W × Blk W)
  | 0, _, _, _ => Io.lift .diverge
  | fuel + 1, s, b, block => do
    let k := BlkImitFinalKey key b.length
    let v ← Io.lift (Imit.loadPartial b)
    let block := Blk.xored block (BlkRaw.ofU64 v)
    if b.length < 8 then
      pure (block, k)
    else do
      let (b, s) ← rd s 8
      if b = [] then
        pure (block, k)
      else
        Imit.loop rd key fuel s b (BlkEncrypted block key)

/-- `Imit::value` (goost/magma/Imit.cpp:79-103). -/
def Imit.value (m : Machine) (rd : σ → Nat → Io W (List Byte × σ)) (fuel : Nat) (data : σ)
    (key : Option (Key W)) : Io W (W32 × W32) := do
  let (b, s) ← rd data 8
  let (block, k) ← Imit.loop rd key fuel s b (BlkRaw.ofU64 0)
  (BlkEncrypted (.xored block k) key).value m

/-! ### gost89 -/

namespace Gost89

/-- `gost89::CFBSink` (goost/gost89/CFBSink.h:15-38). -/
structure CFBSink (W τ : Type) where
  sink : τ
  key : Key W
  iv : W64
  plain : List Byte

/-- The loop of `CFBSink::write` (goost/gost89/CFBSink.cpp:42-61). -/
def CFBSink.loop (m : Machine) (wr : τ → List Byte → Io W τ) (key : Key W) :
    List Byte → τ → List Byte → W64 → Io W (CFBSink W τ)
  | [], s, p, l => pure ⟨s, key, l, p⟩
  | b :: data, s, p, l =>
    let p := p ++ [b]
    if p.length = 8 then do
      let e ← (BlkEncrypted (BlkRaw.ofU64 l) key.asLazy).value m
      let c ← Io.lift (xorWords p e.1 e.2)
      let s ← wr s c
      let l ← Io.lift (load64 c 0)
      CFBSink.loop m wr key data s [] l
    else
      CFBSink.loop m wr key data s p l

/-- `CFBSink::write` (goost/gost89/CFBSink.cpp:37-62). -/
def CFBSink.write (m : Machine) (wr : τ → List Byte → Io W τ) (t : CFBSink W τ)
    (data : List Byte) : Io W (CFBSink W τ) :=
  CFBSink.loop m wr t.key data t.sink t.plain t.iv

/-- `CFBSink::finalize` (goost/gost89/CFBSink.cpp:64-80). -/
def CFBSink.finalize (m : Machine) (wr : τ → List Byte → Io W τ) (t : CFBSink W τ) : Io W τ :=
  if t.plain ≠ [] then do
    let e ← (BlkEncrypted (BlkRaw.ofU64 t.iv) t.key.asLazy).value m
    let c ← Io.lift (xorWords t.plain e.2 e.1)
    wr t.sink c
  else
    pure t.sink

/-- `gost89::CFBSource` (goost/gost89/CFBSource.h:13-37). -/
structure CFBSource (W σ : Type) where
  source : σ
  key : Key W
  iv : W64
  plain : List Byte

/-- The outer loop of `CFBSource::read` (goost/gost89/CFBSource.cpp:41-73), with a budget of
iterations. -/
def CFBSource.loop (m : Machine) (rd : σ → Nat → Io W (List Byte × σ)) (key : Key W) (size : Nat) :
    Nat → σ → List Byte → W64 → List Byte → Io W (List Byte × CFBSource W σ)
  | 0, _, _, _, _ => Io.lift .diverge
  | fuel + 1, s, p, r, res =>
    if res.length < size then
      let (p, res) := drain size p res
      if res.length = size then
        pure (res, ⟨s, key, r, p⟩)
      else do
        let e ← (BlkEncrypted (BlkRaw.ofU64 r) key.asLazy).value m
        let (p, s) ← rd s 8
        if p = [] then
          pure (res, ⟨s, key, r, p⟩)
        else do
          let r ← Io.lift (copyMax p)
          let p ← Io.lift (condXorWords p e.1 e.2)
          CFBSource.loop m rd key size fuel s p r res
    else
      pure (res, ⟨s, key, r, p⟩)

/-- `CFBSource::read` (goost/gost89/CFBSource.cpp:34-74). -/
def CFBSource.read (m : Machine) (rd : σ → Nat → Io W (List Byte × σ)) (t : CFBSource W σ)
    (size : Nat) : Io W (List Byte × CFBSource W σ) :=
  CFBSource.loop m rd t.key size (size + 1) t.source t.plain t.iv []

/-- `ImitedBlock::value` (goost/gost89/ImitedBlock.cpp:18-29). -/
def ImitedBlock.value (m : Machine) (block : Blk W) (key : Option (Key W)) : Io W (Blk W) := do
  let v ← block.value m
  let v ← (Blk.forwarded (.forwarded (.raw v.1 v.2) key) key).value m
  return .raw v.1 v.2

/-- The loop of `DataImit::value` (goost/gost89/DataImit.cpp:28-36). -/
def DataImit.loop (m : Machine) (key : Option (Key W)) : List Byte → List Byte → Io W (List Byte)
  | b0 :: b1 :: b2 :: b3 :: b4 :: b5 :: b6 :: b7 :: rest, state => do
    let state := List.zipWith (· ^^^ ·) state [b0, b1, b2, b3, b4, b5, b6, b7]
    let raw ← Io.lift (BlkRaw.ofBytes state)
    let r ← ImitedBlock.value m raw key
    let b ← r.value m
    let state ← Io.lift (overwrite8 state (bytes32 b.1 ++ bytes32 b.2))
    DataImit.loop m key rest state
  | [], state => pure state
  | _, _ => Io.lift (.ub .oobRead)

/-- `DataImit::value` (goost/gost89/DataImit.cpp:18-38). -/
def DataImit.value (m : Machine) (data : List Byte) (key : Option (Key W)) : Io W (List Byte) :=
  DataImit.loop m key (Goost.Gost89.DataImit.pad data) (List.replicate 8 0)

end Gost89
end Goost.Live
