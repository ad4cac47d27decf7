import Verif.Model.Live
import Verif.Model.Scarce
import Verif.Model.UserContainer
/-
goost/magma and goost/gost89 once more, on a machine that may run out of memory (`alloc`, as in Model/Scarce),
with keys that are objects in this world (as in Model/Live): they need memory themselves, and a cache keeps
what they have learnt. The cited lines are the same. Theorem C114 relates these definitions to those of
Model/MagmaModes and Model/Gost89.
-/
namespace Goost.ScarceLive
open Goost.Magma Goost.Scarce Goost.Live
open Goost.Live (Key Blk BlkEncrypted BlkDecrypted callKey forwardRounds backwardRounds ECBSink ECBSource
  CFBSink CFBSource)

variable {W V σ τ : Type}

/-- `KeyDataString::key` (goost/magma/KeyDataString.cpp:18-31): memory for the text of an exception, or for
the string and the stream that it is read from. -/
def KeyDataString (key_data : List Char) (index : Int) : Io (Nat × W) W32 := do
  alloc
  Io.lift (Magma.KeyDataString key_data index)

/-- `LazyKey(string, sbox)` (goost/magma/LazyKey.cpp:22-28) once it is made: its cache is the first part of
the world. The substitutions of the library need no memory (goost/magma/SboxNibble.cpp:18-34,
goost/magma/SboxTwisted.cpp:16-20, goost/magma/SboxByte.cpp:27-38). -/
def textKey (key_data : List Char) (sbox : Sbox) : Key (Nat × CachedData × V) :=
  LazyKey (KeyCachedData (·.2.1) (fun c w => (w.1, c, w.2.2)) (KeyDataString key_data))
    fun v => Io.lift (sbox v)

/-- The constructor `LazyKey(string, sbox)` (goost/magma/LazyKey.cpp:22-28,
goost/magma/KeyCachedData.cpp:11-14, goost/magma/KeyDataString.cpp:13-16): memory for the copy of the text and
for the objects, the new cache among them. -/
def LazyKey.ofStringSbox (key_data : List Char) (sbox : Sbox) :
    Io (Nat × CachedData × V) (Key (Nat × CachedData × V)) := do
  alloc
  fun w => (.ok (), (w.1, {}, w.2.2))
  return textKey key_data sbox

/-- `LazyKey(vector<uint32_t>, sbox)` (goost/magma/LazyKey.cpp:30-33) once it is made: using it needs no memory
(goost/magma/KeyDataNative.cpp:16-19, goost/magma/LazyKey.cpp:40-43). -/
def nativeKey (key_data : List W32) (sbox : Sbox) : Key (Nat × W) :=
  LazyKey (fun i => Io.lift (KeyDataNative key_data i)) fun v => Io.lift (sbox v)

/-- The constructor `LazyKey(vector<uint32_t>, sbox)` (goost/magma/LazyKey.cpp:30-33,
goost/magma/KeyDataNative.cpp:11-14): memory for the copy of the words and for the objects. -/
def LazyKey.ofNative (key_data : List W32) (sbox : Sbox) : Io (Nat × W) (Key (Nat × W)) := do
  alloc
  return nativeKey key_data sbox

/-- `ECBSource::makeKey` (goost/magma/ECBSource.cpp:59-74): memory for `key`, for `sbox`, and for the substitution
with its four copies of the table and the key. What the container returns is its own memory. -/
def ECBSource.makeKey (container : UserContainer W) : Io (Nat × W) (Key (Nat × W)) := do
  alloc
  let ik ← below container.key
  let kb ← Io.lift (copyInto 32 ik)
  let k0 ← Io.lift (load32 kb 0)
  let k1 ← Io.lift (load32 kb 4)
  let k2 ← Io.lift (load32 kb 8)
  let k3 ← Io.lift (load32 kb 12)
  let k4 ← Io.lift (load32 kb 16)
  let k5 ← Io.lift (load32 kb 20)
  let k6 ← Io.lift (load32 kb 24)
  let k7 ← Io.lift (load32 kb 28)
  let key := [k0, k1, k2, k3, k4, k5, k6, k7].map htonl
  alloc
  let is ← below container.sbox
  let sbox ← Io.lift (copyInto 64 is)
  alloc
  LazyKey.ofNative key (SboxTwisted (SboxByte sbox))

/-- `ECBSource(source, container)` (goost/magma/ECBSource.cpp:28-33). -/
def ECBSource.ofContainer (source : σ) (container : UserContainer W) :
    Io (Nat × W) (ECBSource (Nat × W) σ) := do
  let key ← ECBSource.makeKey container
  return .ecb source key

/-- `Block::value()` (the lines cited at `Live.Blk.value`): memory for the blocks that `BlkImitShifted` and
`BlkImitFinalKey` make when they are evaluated (goost/magma/Imit.cpp:46-53, 62-71). -/
def Blk.value (m : Machine) : Blk (Nat × W) → Io (Nat × W) (W32 × W32)
  | .raw low high => pure (low, high)
  | .swapped b => do
    let v ← Blk.value m b
    return (v.2, v.1)
  | .xored a b => do
    let va ← Blk.value m a
    let vb ← Blk.value m b
    return (va.1 ^^^ vb.1, va.2 ^^^ vb.2)
  | .forwarded b key => do
    let v ← Blk.value m b
    forwardRounds key v
  | .backwarded b key => do
    let v ← Blk.value m b
    backwardRounds key v
  | .imitShifted b => do
    alloc
    let v ← Blk.value m b
    if v.2 &&& 0x80000000 = 0 then do
      let v' ← Blk.value m b
      Io.lift (shiftValue m v' 1)
    else do
      alloc
      let v' ← Blk.value m b
      let s ← Io.lift (shiftValue m v' 1)
      return (s.1 ^^^ 0x1b, s.2 ^^^ 0)

/-- The loop of `ECBSink::write` and the code after it (goost/magma/ECBSink.cpp:26-42): memory for
`push_back`, for the key, for the text of the exception, for the new object. -/
def ECBSink.loop (wr : τ → List Byte → Io W τ) (key : Key (Nat × W)) :
    List Byte → List Byte → τ → Io (Nat × W) (ECBSink (Nat × W) τ)
  | [], p, s => do
    alloc
    if p ≠ [] then Io.lift (.throw (.runtimeError "Unaligned ECB encryption"))
    else pure ⟨s, key⟩
  | b :: data, p, s => do
    alloc
    let p := p ++ [b]
    if p.length = 8 then do
      let x ← Io.lift (load64 p 0)
      alloc
      let e ← Live.EncryptionBase.transform key x
      let p ← Io.lift (overwrite8 p (bytes64 e))
      let s ← below (wr s p)
      ECBSink.loop wr key data [] s
    else
      ECBSink.loop wr key data p s

/-- `ECBSink::write` (goost/magma/ECBSink.cpp:22-43). -/
def ECBSink.write (wr : τ → List Byte → Io W τ) (t : ECBSink (Nat × W) τ) (data : List Byte) :
    Io (Nat × W) (ECBSink (Nat × W) τ) :=
  ECBSink.loop wr t.key data [] t.sink

/-- `ECBSource::read` (goost/magma/ECBSource.cpp:35-57): memory for the text of the exception, for the
blocks, for the copy of `p` and the new object. -/
def ECBSource.read (m : Machine) (rd : σ → Nat → Io W (List Byte × σ)) :
    ECBSource (Nat × W) σ → Nat → Io (Nat × W) (List Byte × ECBSource (Nat × W) σ)
  | .bare source, size => do
    let (p, s) ← below (rd source size)
    return (p, .bare s)
  | .ecb source key, size =>
    if size < 8 then do
      alloc
      Io.lift (.throw (.runtimeError "Unaligned ECB decryption"))
    else do
      let (p, s) ← below (rd source 8)
      if p = [] then
        return (p, .bare s)
      else do
        alloc
        let b ← Io.lift (Live.BlkRaw.ofBytes p)
        let e ← Blk.value m (BlkDecrypted b key.asLazy)
        let p ← Io.lift (overwrite8 p (bytes32 e.1 ++ bytes32 e.2))
        alloc
        return (p, .ecb s key)

/-- The loop of `CFBSink::write` (goost/magma/CFBSink.cpp:42-62): memory for `push_back`, for the blocks,
for the copy `c`, for the new object. -/
def CFBSink.loop (m : Machine) (wr : τ → List Byte → Io W τ) (key : Key (Nat × W)) :
    List Byte → τ → List Byte → W64 → W64 → Io (Nat × W) (CFBSink (Nat × W) τ)
  | [], s, p, rl, rr => do
    alloc
    return ⟨s, key, rl, rr, p⟩
  | b :: data, s, p, rl, rr => do
    alloc
    let p := p ++ [b]
    if p.length = 8 then do
      alloc
      let e ← Blk.value m (BlkEncrypted (Live.BlkRaw.ofU64 rl) key.asLazy)
      alloc
      let c ← Io.lift (xorWords p e.1 e.2)
      let s ← below (wr s c)
      let rl := rr
      let rr ← Io.lift (load64 c 0)
      CFBSink.loop m wr key data s [] rl rr
    else
      CFBSink.loop m wr key data s p rl rr

/-- `CFBSink::write` (goost/magma/CFBSink.cpp:36-63): memory for the copy of `plain`. -/
def CFBSink.write (m : Machine) (wr : τ → List Byte → Io W τ) (t : CFBSink (Nat × W) τ)
    (data : List Byte) : Io (Nat × W) (CFBSink (Nat × W) τ) := do
  alloc
  CFBSink.loop m wr t.key data t.sink t.plain t.ivl t.ivr

/-- `CFBSink::finalize` (goost/magma/CFBSink.cpp:65-81): memory for the blocks and for the copy `c`. -/
def CFBSink.finalize (m : Machine) (wr : τ → List Byte → Io W τ) (t : CFBSink (Nat × W) τ) : Io (Nat × W) τ :=
  if t.plain ≠ [] then do
    alloc
    let e ← Blk.value m (BlkEncrypted (Live.BlkRaw.ofU64 t.ivl) t.key.asLazy)
    alloc
    let c ← Io.lift (xorWords t.plain e.2 e.1)
    below (wr t.sink c)
  else
    pure t.sink

/-- The outer loop of `CFBSource::read` (goost/magma/CFBSource.cpp:43-76), with a budget of iterations:
memory for `push_back`, for the blocks, for the copy of `res` and the new object. -/
def CFBSource.loop (m : Machine) (rd : σ → Nat → Io W (List Byte × σ)) (key : Key (Nat × W)) (size : Nat) :
    Nat → σ → List Byte → W64 → W64 → List Byte → Io (Nat × W) (List Byte × CFBSource (Nat × W) σ)
  | 0, _, _, _, _, _ => Io.lift .diverge
  | fuel + 1, s, p, rl, rr, res =>
    if res.length < size then do
      alloc
      let (p, res) := drain size p res
      if res.length = size then do
        alloc
        return (res, ⟨s, key, rl, rr, p⟩)
      else do
        alloc
        let e ← Blk.value m (BlkEncrypted (Live.BlkRaw.ofU64 rl) key.asLazy)
        let (p, s) ← below (rd s 8)
        if p = [] then do
          alloc
          return (res, ⟨s, key, rl, rr, p⟩)
        else do
          let rl := rr
          let rr ← Io.lift (copyMax p)
          let p ← Io.lift (condXorWords p e.1 e.2)
          CFBSource.loop m rd key size fuel s p rl rr res
    else do
      alloc
      return (res, ⟨s, key, rl, rr, p⟩)

/-- `CFBSource::read` (goost/magma/CFBSource.cpp:35-77): memory for the copy of `plain`. -/
def CFBSource.read (m : Machine) (rd : σ → Nat → Io W (List Byte × σ)) (t : CFBSource (Nat × W) σ)
    (size : Nat) : Io (Nat × W) (List Byte × CFBSource (Nat × W) σ) := do
  alloc
  CFBSource.loop m rd t.key size (size + 1) t.source t.plain t.ivl t.ivr []

/-- The loop of `Imit::value` (goost/magma/Imit.cpp:87-100) with a budget of iterations: memory for the
blocks. -/
def Imit.loop (rd : σ → Nat → Io W (List Byte × σ)) (key : Option (Key (Nat × W))) :
    Nat → σ → List Byte → Blk (Nat × W) → Io (Nat × W) (Blk (Nat × W) × Blk (Nat × W))
  | 0, _, _, _ => Io.lift .diverge
  | fuel + 1, s, b, block => do
    alloc
    let k := Live.BlkImitFinalKey key b.length
    let v ← Io.lift (Magma.Imit.loadPartial b)
    let block := Blk.xored block (Live.BlkRaw.ofU64 v)
    if b.length < 8 then
      pure (block, k)
    else do
      let (b, s) ← below (rd s 8)
      if b = [] then
        pure (block, k)
      else do
        alloc
        Imit.loop rd key fuel s b (BlkEncrypted block key)

/-- `Imit::value` (goost/magma/Imit.cpp:79-103): memory for the blocks. -/
def Imit.value (m : Machine) (rd : σ → Nat → Io W (List Byte × σ)) (fuel : Nat) (data : σ)
    (key : Option (Key (Nat × W))) : Io (Nat × W) (W32 × W32) := do
  alloc
  let (b, s) ← below (rd data 8)
  let (block, k) ← Imit.loop rd key fuel s b (Live.BlkRaw.ofU64 0)
  alloc
  Blk.value m (BlkEncrypted (.xored block k) key)

namespace Gost89

/-- `ImitedBlock::value` (goost/gost89/ImitedBlock.cpp:18-29): memory for the blocks. -/
def ImitedBlock.value (m : Machine) (block : Blk (Nat × W)) (key : Option (Key (Nat × W))) :
    Io (Nat × W) (Blk (Nat × W)) := do
  let v ← Blk.value m block
  alloc
  let v ← Blk.value m (.forwarded (.forwarded (.raw v.1 v.2) key) key)
  return .raw v.1 v.2

/-- The loop of `CFBSink::write` (goost/gost89/CFBSink.cpp:42-61). -/
def CFBSink.loop (m : Machine) (wr : τ → List Byte → Io W τ) (key : Key (Nat × W)) :
    List Byte → τ → List Byte → W64 → Io (Nat × W) (Live.Gost89.CFBSink (Nat × W) τ)
  | [], s, p, l => do
    alloc
    return ⟨s, key, l, p⟩
  | b :: data, s, p, l => do
    alloc
    let p := p ++ [b]
    if p.length = 8 then do
      alloc
      let e ← Blk.value m (BlkEncrypted (Live.BlkRaw.ofU64 l) key.asLazy)
      alloc
      let c ← Io.lift (xorWords p e.1 e.2)
      let s ← below (wr s c)
      let l ← Io.lift (load64 c 0)
      CFBSink.loop m wr key data s [] l
    else
      CFBSink.loop m wr key data s p l

/-- `CFBSink::write` (goost/gost89/CFBSink.cpp:37-62). -/
def CFBSink.write (m : Machine) (wr : τ → List Byte → Io W τ) (t : Live.Gost89.CFBSink (Nat × W) τ)
    (data : List Byte) : Io (Nat × W) (Live.Gost89.CFBSink (Nat × W) τ) := do
  alloc
  CFBSink.loop m wr t.key data t.sink t.plain t.iv

/-- `CFBSink::finalize` (goost/gost89/CFBSink.cpp:64-80). -/
def CFBSink.finalize (m : Machine) (wr : τ → List Byte → Io W τ) (t : Live.Gost89.CFBSink (Nat × W) τ) :
    Io (Nat × W) τ :=
  if t.plain ≠ [] then do
    alloc
    let e ← Blk.value m (BlkEncrypted (Live.BlkRaw.ofU64 t.iv) t.key.asLazy)
    alloc
    let c ← Io.lift (xorWords t.plain e.2 e.1)
    below (wr t.sink c)
  else
    pure t.sink

/-- The outer loop of `CFBSource::read` (goost/gost89/CFBSource.cpp:41-73), with a budget of iterations. -/
def CFBSource.loop (m : Machine) (rd : σ → Nat → Io W (List Byte × σ)) (key : Key (Nat × W)) (size : Nat) :
    Nat → σ → List Byte → W64 → List Byte → Io (Nat × W) (List Byte × Live.Gost89.CFBSource (Nat × W) σ)
  | 0, _, _, _, _ => Io.lift .diverge
  | fuel + 1, s, p, r, res =>
    if res.length < size then do
      alloc
      let (p, res) := drain size p res
      if res.length = size then do
        alloc
        return (res, ⟨s, key, r, p⟩)
      else do
        alloc
        let e ← Blk.value m (BlkEncrypted (Live.BlkRaw.ofU64 r) key.asLazy)
        let (p, s) ← below (rd s 8)
        if p = [] then do
          alloc
          return (res, ⟨s, key, r, p⟩)
        else do
          let r ← Io.lift (copyMax p)
          let p ← Io.lift (condXorWords p e.1 e.2)
          CFBSource.loop m rd key size fuel s p r res
    else do
      alloc
      return (res, ⟨s, key, r, p⟩)

/-- `CFBSource::read` (goost/gost89/CFBSource.cpp:34-74). -/
def CFBSource.read (m : Machine) (rd : σ → Nat → Io W (List Byte × σ)) (t : Live.Gost89.CFBSource (Nat × W) σ)
    (size : Nat) : Io (Nat × W) (List Byte × Live.Gost89.CFBSource (Nat × W) σ) := do
  alloc
  CFBSource.loop m rd t.key size (size + 1) t.source t.plain t.iv []

/-- The loop of `DataImit::value` (goost/gost89/DataImit.cpp:28-36): memory for the blocks. -/
def DataImit.loop (m : Machine) (key : Option (Key (Nat × W))) : List Byte → List Byte → Io (Nat × W) (List Byte)
  | b0 :: b1 :: b2 :: b3 :: b4 :: b5 :: b6 :: b7 :: rest, state => do
    let state := List.zipWith (· ^^^ ·) state [b0, b1, b2, b3, b4, b5, b6, b7]
    alloc
    let raw ← Io.lift (Live.BlkRaw.ofBytes state)
    let r ← ImitedBlock.value m raw key
    let b ← Blk.value m r
    let state ← Io.lift (overwrite8 state (bytes32 b.1 ++ bytes32 b.2))
    DataImit.loop m key rest state
  | [], state => pure state
  | _, _ => Io.lift (.ub .oobRead)

/-- `DataImit::value` (goost/gost89/DataImit.cpp:18-38): memory for the padded copy and the result. -/
def DataImit.value (m : Machine) (data : List Byte) (key : Option (Key (Nat × W))) : Io (Nat × W) (List Byte) := do
  alloc
  DataImit.loop m key (Goost.Gost89.DataImit.pad data) (List.replicate 8 0)

end Gost89
end Goost.ScarceLive
