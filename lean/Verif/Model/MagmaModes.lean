import Verif.Model.MagmaBlock
/-
goost/magma: ECBSink, ECBSource, CFBSink, CFBSource, Imit.

A `Source` (goost/Source.h:14-19) over a state type `σ` is its `read`:
`rd : σ → Nat → Io W (List Byte × σ)`; a `Sink` (goost/Sink.h:13-21) over a state type `τ` is its
`write`: `wr : τ → List Byte → Io W τ`. Both are arbitrary: they may throw, act on the world `W`,
return short reads or break every contract.
-/
namespace Goost.Magma

variable {W σ τ : Type}

/-- The loop of `CFBSink::write` and `CFBSink::finalize` that xors a vector with two words
(goost/magma/CFBSink.cpp:51-54, 74-77; goost/gost89/CFBSink.cpp:51-54, 73-76):
`for i < 4: c[0+i] ^= byte(x >> (i*8)); c[4+i] ^= byte(y >> (i*8));`. -/
def xorWords (c : List Byte) (x y : W32) : Exec (List Byte) := do
  let c ← vxor c 0 ((x >>> (0 * 8)).setWidth 8)
  let c ← vxor c 4 ((y >>> (0 * 8)).setWidth 8)
  let c ← vxor c 1 ((x >>> (1 * 8)).setWidth 8)
  let c ← vxor c 5 ((y >>> (1 * 8)).setWidth 8)
  let c ← vxor c 2 ((x >>> (2 * 8)).setWidth 8)
  let c ← vxor c 6 ((y >>> (2 * 8)).setWidth 8)
  let c ← vxor c 3 ((x >>> (3 * 8)).setWidth 8)
  vxor c 7 ((y >>> (3 * 8)).setWidth 8)

/-! ### ECBSink -/

/-- `ECBSink` (goost/magma/ECBSink.h:14-27). -/
structure ECBSink (τ : Type) where
  sink : τ
  key : Key

/-- `memcpy(&p[0], &e, 8)` (goost/magma/ECBSink.cpp:33, goost/magma/ECBSource.cpp:54) for 8 bytes
`e`: undefined if `p` is shorter than 8. -/
def overwrite8 (p e : List Byte) : Exec (List Byte) :=
  if p.length < 8 then .ub .oobWrite else .ok (e ++ p.drop 8)

/-- The loop of `ECBSink::write` and the code after it (goost/magma/ECBSink.cpp:26-42). -/
def ECBSink.loop (wr : τ → List Byte → Io W τ) (key : Key) :
    List Byte → List Byte → τ → Io W (ECBSink τ)
  | [], p, s =>
    if p ≠ [] then Io.lift (.throw (.runtimeError "Unaligned ECB encryption"))
    else pure ⟨s, key⟩
  | b :: data, p, s =>
    let p := p ++ [b]
    if p.length = 8 then do
      let x ← Io.lift (load64 p 0)
      let e ← Io.lift (EncryptionBase.transform key x)
      let p ← Io.lift (overwrite8 p (bytes64 e))
      let s ← wr s p
      ECBSink.loop wr key data [] s
    else
      ECBSink.loop wr key data p s

/-- `ECBSink::write` (goost/magma/ECBSink.cpp:22-43). -/
def ECBSink.write (wr : τ → List Byte → Io W τ) (t : ECBSink τ) (data : List Byte) :
    Io W (ECBSink τ) :=
  ECBSink.loop wr t.key data [] t.sink

/-- `ECBSink::finalize` (goost/magma/ECBSink.cpp:45-48). -/
def ECBSink.finalize (t : ECBSink τ) : Io W τ := pure t.sink

/-! ### ECBSource -/

/-- The object returned by `ECBSource::read`: another `ECBSource`
(goost/magma/ECBSource.h:15-38) or, at the end of the data, the underlying source itself. -/
inductive ECBSource (σ : Type) where
  | ecb (source : σ) (key : Key)
  | bare (source : σ)

/-- `ECBSource::read` (goost/magma/ECBSource.cpp:35-57); for the bare source, its own `read`. -/
def ECBSource.read (m : Machine) (rd : σ → Nat → Io W (List Byte × σ)) :
    ECBSource σ → Nat → Io W (List Byte × ECBSource σ)
  | .bare source, size => do
    let (p, s) ← rd source size
    return (p, .bare s)
  | .ecb source key, size =>
    if size < 8 then Io.lift (.throw (.runtimeError "Unaligned ECB decryption"))
    else do
      let (p, s) ← rd source 8
      if p = [] then
        return (p, .bare s)
      else do
        let b ← Io.lift (BlkRaw.ofBytes p)
        let e ← Io.lift ((BlkDecrypted b key.asLazy).value m)
        let p ← Io.lift (overwrite8 p (bytes32 e.1 ++ bytes32 e.2))
        return (p, .ecb s key)

/-- `ECBSource(source, container)` (goost/magma/ECBSource.cpp:28-33). -/
def ECBSource.ofContainer (source : σ) (c : Container) : Exec (ECBSource σ) := do
  let key ← ECBSource.makeKey c
  return .ecb source key

/-! ### CFBSink -/

/-- `CFBSink` (goost/magma/CFBSink.h:14-40). -/
structure CFBSink (τ : Type) where
  sink : τ
  key : Key
  ivl : W64
  ivr : W64
  plain : List Byte

/-- The four-argument constructor (goost/magma/CFBSink.cpp:27-34). -/
def CFBSink.new (sink : τ) (key : Key) (ivl ivr : W64) : CFBSink τ := ⟨sink, key, ivl, ivr, []⟩

/-- The loop of `CFBSink::write` (goost/magma/CFBSink.cpp:42-62). -/
def CFBSink.loop (m : Machine) (wr : τ → List Byte → Io W τ) (key : Key) :
    List Byte → τ → List Byte → W64 → W64 → Io W (CFBSink τ)
  | [], s, p, rl, rr => pure ⟨s, key, rl, rr, p⟩
  | b :: data, s, p, rl, rr =>
    let p := p ++ [b]
    if p.length = 8 then do
      let e ← Io.lift ((BlkEncrypted (BlkRaw.ofU64 rl) key.asLazy).value m)
      let c ← Io.lift (xorWords p e.1 e.2)
      let s ← wr s c
      let rl := rr
      let rr ← Io.lift (load64 c 0)
      CFBSink.loop m wr key data s [] rl rr
    else
      CFBSink.loop m wr key data s p rl rr

/-- `CFBSink::write` (goost/magma/CFBSink.cpp:36-63). -/
def CFBSink.write (m : Machine) (wr : τ → List Byte → Io W τ) (t : CFBSink τ)
    (data : List Byte) : Io W (CFBSink τ) :=
  CFBSink.loop m wr t.key data t.sink t.plain t.ivl t.ivr

/-- `CFBSink::finalize` (goost/magma/CFBSink.cpp:65-81). Note that `e.second` is applied to the
first four bytes here. -/
def CFBSink.finalize (m : Machine) (wr : τ → List Byte → Io W τ) (t : CFBSink τ) : Io W τ :=
  if t.plain ≠ [] then do
    let e ← Io.lift ((BlkEncrypted (BlkRaw.ofU64 t.ivl) t.key.asLazy).value m)
    let c ← Io.lift (xorWords t.plain e.2 e.1)
    wr t.sink c
  else
    pure t.sink

/-! ### CFBSource -/

/-- `CFBSource` (goost/magma/CFBSource.h:14-41). -/
structure CFBSource (σ : Type) where
  source : σ
  key : Key
  ivl : W64
  ivr : W64
  plain : List Byte

/-- The four-argument constructor (goost/magma/CFBSource.cpp:26-33). -/
def CFBSource.new (source : σ) (key : Key) (ivl ivr : W64) : CFBSource σ :=
  ⟨source, key, ivl, ivr, []⟩

/-- The inner loop of `CFBSource::read` (goost/magma/CFBSource.cpp:44-47,
goost/gost89/CFBSource.cpp:42-45): moves bytes from `p` to `res` while there are any and `res` is
too short. Returns the new `p` and `res`. -/
def drain (size : Nat) : List Byte → List Byte → List Byte × List Byte
  | [], res => ([], res)
  | x :: p, res => if res.length < size then drain size p (res ++ [x]) else (x :: p, res)

/-- `memcpy(&r, &p[0], max(sizeof(r), p.size()))` (goost/magma/CFBSource.cpp:64,
goost/gost89/CFBSource.cpp:61): reads `max(8, size)` bytes of `p` and writes as many to an 8-byte
variable. -/
def copyMax (p : List Byte) : Exec W64 :=
  let n := max 8 p.length
  if p.length < n then .ub .oobRead
  else if 8 < n then .ub .oobWrite
  else load64 p 0

/-- `if (p.size() >= i) p[i] ^= x;` (goost/magma/CFBSource.cpp:67-72). -/
def condXor (p : List Byte) (i : Nat) (x : Byte) : Exec (List Byte) :=
  if p.length ≥ i then vxor p i x else .ok p

/-- The decryption loop of `CFBSource::read` (goost/magma/CFBSource.cpp:66-73,
goost/gost89/CFBSource.cpp:63-70). -/
def condXorWords (p : List Byte) (x y : W32) : Exec (List Byte) := do
  let p ← condXor p 0 ((x >>> (0 * 8)).setWidth 8)
  let p ← condXor p 4 ((y >>> (0 * 8)).setWidth 8)
  let p ← condXor p 1 ((x >>> (1 * 8)).setWidth 8)
  let p ← condXor p 5 ((y >>> (1 * 8)).setWidth 8)
  let p ← condXor p 2 ((x >>> (2 * 8)).setWidth 8)
  let p ← condXor p 6 ((y >>> (2 * 8)).setWidth 8)
  let p ← condXor p 3 ((x >>> (3 * 8)).setWidth 8)
  condXor p 7 ((y >>> (3 * 8)).setWidth 8)

/-- The outer loop of `CFBSource::read` (goost/magma/CFBSource.cpp:43-76), with a budget of
iterations. -/
def CFBSource.loop (m : Machine) (rd : σ → Nat → Io W (List Byte × σ)) (key : Key) (size : Nat) :
    Nat → σ → List Byte → W64 → W64 → List Byte → Io W (List Byte × CFBSource σ)
  | 0, _, _, _, _, _ => Io.lift .diverge
  | fuel + 1, s, p, rl, rr, res =>
    if res.length < size then
      let (p, res) := drain size p res
      if res.length = size then
        pure (res, ⟨s, key, rl, rr, p⟩)
      else do
        let e ← Io.lift ((BlkEncrypted (BlkRaw.ofU64 rl) key.asLazy).value m)
        let (p, s) ← rd s 8
        if p = [] then
          pure (res, ⟨s, key, rl, rr, p⟩)
        else do
          let rl := rr
          let rr ← Io.lift (copyMax p)
          let p ← Io.lift (condXorWords p e.1 e.2)
          CFBSource.loop m rd key size fuel s p rl rr res
    else
      pure (res, ⟨s, key, rl, rr, p⟩)

/-- `CFBSource::read` (goost/magma/CFBSource.cpp:35-77). A budget of `size + 1` iterations is
enough: theorem `CFBSource.loop_fuel`. -/
def CFBSource.read (m : Machine) (rd : σ → Nat → Io W (List Byte × σ)) (t : CFBSource σ)
    (size : Nat) : Io W (List Byte × CFBSource σ) :=
  CFBSource.loop m rd t.key size (size + 1) t.source t.plain t.ivl t.ivr []

/-! ### Imit -/

/-- `BlkImitFinalKey` (goost/magma/Imit.cpp:55-71): the block its `value()` builds and
evaluates. -/
def BlkImitFinalKey (key : Option Key) (block_size : Nat) : Blk :=
  let K1 := Blk.imitShifted (BlkEncrypted BlkRaw.zero key)
  if block_size = 8 then K1 else .imitShifted K1

/-- `uint64_t v = 0; memcpy(&v, &b[0], b.size());` (goost/magma/Imit.cpp:89-90): `&b[0]` of an
empty vector and more than 8 bytes are undefined. -/
def Imit.loadPartial (b : List Byte) : Exec W64 := do
  let buf ← copyInto 8 b
  load64 buf 0

/-- The loop of `Imit::value` (goost/magma/Imit.cpp:87-100) with a budget of iterations; returns
`block` and `k`. -/
def Imit.loop (rd : σ → Nat → Io W (List Byte × σ)) (key : Option Key) :
    Nat → σ → List Byte → Blk → Io W (Blk × Blk)
  | 0, _, _, _ => Io.lift .diverge
  | fuel + 1, s, b, block => do
    let k := BlkImitFinalKey key b.length
    let v ← Io.lift (Imit.loadPartial b)
    let block := Blk.xored block (BlkRaw.ofU64 v)
    if b.length < 8 then
      pure (block, k)
    else do
      let (b, s) ← rd s 8
      if b = [] then
        pure (block, k)
      else
        Imit.loop rd key fuel s b (BlkEncrypted block key)

/-- The block that `Imit::value` finally evaluates (goost/magma/Imit.cpp:79-102). -/
def Imit.build (rd : σ → Nat → Io W (List Byte × σ)) (fuel : Nat) (data : σ) (key : Option Key) :
    Io W Blk := do
  let (b, s) ← rd data 8
  let (block, k) ← Imit.loop rd key fuel s b BlkRaw.zero
  return BlkEncrypted (.xored block k) key

/-- `Imit::value` (goost/magma/Imit.cpp:79-103). -/
def Imit.value (m : Machine) (rd : σ → Nat → Io W (List Byte × σ)) (fuel : Nat) (data : σ)
    (key : Option Key) : Io W (W32 × W32) := do
  let b ← Imit.build rd fuel data key
  Io.lift (b.value m)

end Goost.Magma
