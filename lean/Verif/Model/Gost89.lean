import Verif.Model.MagmaModes
/-
goost/gost89: CFBSink, CFBSource, ImitedBlock, DataImit. (`gost89::ECBSink` and
`gost89::ECBSource` are aliases of the magma classes: goost/gost89/ECBSink.h:12,
goost/gost89/ECBSource.h:12.)
-/
namespace Goost.Gost89
open Goost.Magma

variable {W σ τ : Type}

/-- `gost89::CFBSink` (goost/gost89/CFBSink.h:15-38). -/
structure CFBSink (τ : Type) where
  sink : τ
  key : Key
  iv : W64
  plain : List Byte

/-- The three-argument constructor (goost/gost89/CFBSink.cpp:29-35). -/
def CFBSink.new (sink : τ) (key : Key) (iv : W64) : CFBSink τ := ⟨sink, key, iv, []⟩

/-- The loop of `CFBSink::write` (goost/gost89/CFBSink.cpp:42-61). -/
def CFBSink.loop (m : Machine) (wr : τ → List Byte → Io W τ) (key : Key) :
    List Byte → τ → List Byte → W64 → Io W (CFBSink τ)
  | [], s, p, l => pure ⟨s, key, l, p⟩
  | b :: data, s, p, l =>
    let p := p ++ [b]
    if p.length = 8 then do
      let e ← Io.lift ((BlkEncrypted (BlkRaw.ofU64 l) key.asLazy).value m)
      let c ← Io.lift (xorWords p e.1 e.2)
      let s ← wr s c
      let l ← Io.lift (load64 c 0)
      CFBSink.loop m wr key data s [] l
    else
      CFBSink.loop m wr key data s p l

/-- `CFBSink::write` (goost/gost89/CFBSink.cpp:37-62). -/
def CFBSink.write (m : Machine) (wr : τ → List Byte → Io W τ) (t : CFBSink τ)
    (data : List Byte) : Io W (CFBSink τ) :=
  CFBSink.loop m wr t.key data t.sink t.plain t.iv

/-- `CFBSink::finalize` (goost/gost89/CFBSink.cpp:64-80). -/
def CFBSink.finalize (m : Machine) (wr : τ → List Byte → Io W τ) (t : CFBSink τ) : Io W τ :=
  if t.plain ≠ [] then do
    let e ← Io.lift ((BlkEncrypted (BlkRaw.ofU64 t.iv) t.key.asLazy).value m)
    let c ← Io.lift (xorWords t.plain e.2 e.1)
    wr t.sink c
  else
    pure t.sink

/-- `gost89::CFBSource` (goost/gost89/CFBSource.h:13-37). -/
structure CFBSource (σ : Type) where
  source : σ
  key : Key
  iv : W64
  plain : List Byte

/-- The three-argument constructor (goost/gost89/CFBSource.cpp:26-32). -/
def CFBSource.new (source : σ) (key : Key) (iv : W64) : CFBSource σ := ⟨source, key, iv, []⟩

/-- The outer loop of `CFBSource::read` (goost/gost89/CFBSource.cpp:41-73), with a budget of
iterations. -/
def CFBSource.loop (m : Machine) (rd : σ → Nat → Io W (List Byte × σ)) (key : Key) (size : Nat) :
    Nat → σ → List Byte → W64 → List Byte → Io W (List Byte × CFBSource σ)
  | 0, _, _, _, _ => Io.lift .diverge
  | fuel + 1, s, p, r, res =>
    if res.length < size then
      let (p, res) := drain size p res
      if res.length = size then
        pure (res, ⟨s, key, r, p⟩)
      else do
        let e ← Io.lift ((BlkEncrypted (BlkRaw.ofU64 r) key.asLazy).value m)
        let (p, s) ← rd s 8
        if p = [] then
          pure (res, ⟨s, key, r, p⟩)
        else do
          let r ← Io.lift (copyMax p)
          let p ← Io.lift (condXorWords p e.1 e.2)
          CFBSource.loop m rd key size fuel s p r res
    else
      pure (res, ⟨s, key, r, p⟩)

/-- `CFBSource::read` (goost/gost89/CFBSource.cpp:34-74). -/
def CFBSource.read (m : Machine) (rd : σ → Nat → Io W (List Byte × σ)) (t : CFBSource σ)
    (size : Nat) : Io W (List Byte × CFBSource σ) :=
  CFBSource.loop m rd t.key size (size + 1) t.source t.plain t.iv []

/-- `ImitedBlock::value` (goost/gost89/ImitedBlock.cpp:18-29). `block` is a `BlkRaw`. -/
def ImitedBlock.value (m : Machine) (block : Blk) (key : Option Key) : Exec Blk := do
  let v ← block.value m
  BlkRaw.ofBlock m (.forwarded (.forwarded (BlkRaw.ofPair v) key) key)

/-- Padding in `DataImit::value` (goost/gost89/DataImit.cpp:21-27): zeros up to 16 bytes, then
zeros up to a multiple of 8. -/
def DataImit.pad (data : List Byte) : List Byte :=
  let p := data ++ List.replicate (16 - data.length) 0
  p ++ List.replicate ((8 - p.length % 8) % 8) 0

/-- The loop of `DataImit::value` (goost/gost89/DataImit.cpp:28-36) on the bytes not yet
consumed; dereferencing the iterator past the end is undefined. -/
def DataImit.loop (m : Machine) (key : Option Key) : List Byte → List Byte → Exec (List Byte)
  | b0 :: b1 :: b2 :: b3 :: b4 :: b5 :: b6 :: b7 :: rest, state => do
    let state := List.zipWith (· ^^^ ·) state [b0, b1, b2, b3, b4, b5, b6, b7]
    let raw ← BlkRaw.ofBytes state
    let r ← ImitedBlock.value m raw key
    let b ← r.value m
    let state ← overwrite8 state (bytes32 b.1 ++ bytes32 b.2)
    DataImit.loop m key rest state
  | [], state => .ok state
  | _, _ => .ub .oobRead

/-- `DataImit::value` (goost/gost89/DataImit.cpp:18-38). -/
def DataImit.value (m : Machine) (data : List Byte) (key : Option Key) : Exec (List Byte) :=
  DataImit.loop m key (DataImit.pad data) (List.replicate 8 0)

end Goost.Gost89
