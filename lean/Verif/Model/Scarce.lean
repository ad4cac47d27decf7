import Verif.Model.Gost89
/-
goost/magma and goost/gost89 once more, on a machine that may run out of memory. Where the code may allocate
memory (a vector is copied or grows, an object is made with `make_shared`, blocks are built and evaluated,
an exception gets its text) the definitions here have `alloc`. Whether an implementation allocates at each of
these places does not matter: places that follow each other without a call of the underlying stream in
between are taken together, and a place where memory is in fact not needed is one that never fails.
Which of them fails first is arbitrary; nothing is run after that. The definitions of Model/MagmaModes and
Model/Gost89 are those for unlimited memory; theorem C108 relates the two. The cited lines are the same.
-/
namespace Goost.Scarce
open Goost.Magma

variable {W σ τ α : Type}

/-- Memory is requested: `n` is the number of requests that are still granted. E.g. `push_back` and
`make_shared` in goost/magma/ECBSink.cpp:24-42. -/
def alloc : Io (Nat × W) Unit
  | (0, w) => (.throw .badAlloc, (0, w))
  | (n + 1, w) => (.ok (), (n, w))

/-- A call of the underlying sink or source. (If it runs out of memory itself, this is one of its
exceptions: C68.) E.g. goost/magma/ECBSink.cpp:35, goost/magma/CFBSource.cpp:58. -/
def below (x : Io W α) : Io (Nat × W) α := fun w => ((x w.2).1, (w.1, (x w.2).2))

/-- The loop of `ECBSink::write` and the code after it (goost/magma/ECBSink.cpp:26-42): memory for
`push_back`, for the key, for the text of the exception, for the new object. -/
def ECBSink.loop (wr : τ → List Byte → Io W τ) (key : Key) :
    List Byte → List Byte → τ → Io (Nat × W) (ECBSink τ)
  | [], p, s => do
    alloc
    if p ≠ [] then Io.lift (.throw (.runtimeError "Unaligned ECB encryption"))
    else pure ⟨s, key⟩
  | b :: data, p, s => do
    alloc
    let p := p ++ [b]
    if p.length = 8 then do
      let x ← Io.lift (load64 p 0)
      alloc
      let e ← Io.lift (EncryptionBase.transform key x)
      let p ← Io.lift (overwrite8 p (bytes64 e))
      let s ← below (wr s p)
      ECBSink.loop wr key data [] s
    else
      ECBSink.loop wr key data p s

/-- `ECBSink::write` (goost/magma/ECBSink.cpp:22-43). -/
def ECBSink.write (wr : τ → List Byte → Io W τ) (t : ECBSink τ) (data : List Byte) :
    Io (Nat × W) (ECBSink τ) :=
  ECBSink.loop wr t.key data [] t.sink

/-- `ECBSource::read` (goost/magma/ECBSource.cpp:35-57): memory for the text of the exception, for the
blocks, for the copy of `p` and the new object. -/
def ECBSource.read (m : Machine) (rd : σ → Nat → Io W (List Byte × σ)) :
    ECBSource σ → Nat → Io (Nat × W) (List Byte × ECBSource σ)
  | .bare source, size => do
    let (p, s) ← below (rd source size)
    return (p, .bare s)
  | .ecb source key, size =>
    if size < 8 then do
      alloc
      Io.lift (.throw (.runtimeError "Unaligned ECB decryption"))
    else do
      let (p, s) ← below (rd source 8)
      if p = [] then
        return (p, .bare s)
      else do
        alloc
        let b ← Io.lift (BlkRaw.ofBytes p)
        let e ← Io.lift ((BlkDecrypted b key.asLazy).value m)
        let p ← Io.lift (overwrite8 p (bytes32 e.1 ++ bytes32 e.2))
        alloc
        return (p, .ecb s key)

/-- The loop of `CFBSink::write` (goost/magma/CFBSink.cpp:42-62): memory for `push_back`, for the blocks,
for the copy `c`, for the new object. -/
def CFBSink.loop (m : Machine) (wr : τ → List Byte → Io W τ) (key : Key) :
    List Byte → τ → List Byte → W64 → W64 → Io (Nat × W) (CFBSink τ)
  | [], s, p, rl, rr => do
    alloc
    return ⟨s, key, rl, rr, p⟩
  | b :: data, s, p, rl, rr => do
    alloc
    let p := p ++ [b]
    if p.length = 8 then do
      alloc
      let e ← Io.lift ((BlkEncrypted (BlkRaw.ofU64 rl) key.asLazy).value m)
      alloc
      let c ← Io.lift (xorWords p e.1 e.2)
      let s ← below (wr s c)
      let rl := rr
      let rr ← Io.lift (load64 c 0)
      CFBSink.loop m wr key data s [] rl rr
    else
      CFBSink.loop m wr key data s p rl rr

/-- `CFBSink::write` (goost/magma/CFBSink.cpp:36-63): memory for the copy of `plain`. -/
def CFBSink.write (m : Machine) (wr : τ → List Byte → Io W τ) (t : CFBSink τ)
    (data : List Byte) : Io (Nat × W) (CFBSink τ) := do
  alloc
  CFBSink.loop m wr t.key data t.sink t.plain t.ivl t.ivr

/-- `CFBSink::finalize` (goost/magma/CFBSink.cpp:65-81): memory for the blocks and for the copy `c`. -/
def CFBSink.finalize (m : Machine) (wr : τ → List Byte → Io W τ) (t : CFBSink τ) : Io (Nat × W) τ :=
  if t.plain ≠ [] then do
    alloc
    let e ← Io.lift ((BlkEncrypted (BlkRaw.ofU64 t.ivl) t.key.asLazy).value m)
    alloc
    let c ← Io.lift (xorWords t.plain e.2 e.1)
    below (wr t.sink c)
  else
    pure t.sink

/-- The outer loop of `CFBSource::read` (goost/magma/CFBSource.cpp:43-76), with a budget of iterations:
memory for `push_back`, for the blocks, for the copy of `res` and the new object. -/
def CFBSource.loop (m : Machine) (rd : σ → Nat → Io W (List Byte × σ)) (key : Key) (size : Nat) :
    Nat → σ → List Byte → W64 → W64 → List Byte → Io (Nat × W) (List Byte × CFBSource σ)
  | 0, _, _, _, _, _ => Io.lift .diverge
  | fuel + 1, s, p, rl, rr, res =>
    if res.length < size then do
      alloc
      let (p, res) := drain size p res
      if res.length = size then do
        alloc
        return (res, ⟨s, key, rl, rr, p⟩)
      else do
        alloc
        let e ← Io.lift ((BlkEncrypted (BlkRaw.ofU64 rl) key.asLazy).value m)
        let (p, s) ← below (rd s 8)
        if p = [] then do
          alloc
          return (res, ⟨s, key, rl, rr, p⟩)
        else do
          let rl := rr
          let rr ← Io.lift (copyMax p)
          let p ← Io.lift (condXorWords p e.1 e.2)
          CFBSource.loop m rd key size fuel s p rl rr res
    else do
      alloc
      return (res, ⟨s, key, rl, rr, p⟩)

/-- `CFBSource::read` (goost/magma/CFBSource.cpp:35-77): memory for the copy of `plain`. -/
def CFBSource.read (m : Machine) (rd : σ → Nat → Io W (List Byte × σ)) (t : CFBSource σ)
    (size : Nat) : Io (Nat × W) (List Byte × CFBSource σ) := do
  alloc
  CFBSource.loop m rd t.key size (size + 1) t.source t.plain t.ivl t.ivr []

/-- The loop of `Imit::value` (goost/magma/Imit.cpp:87-100) with a budget of iterations: memory for the
blocks. -/
def Imit.loop (rd : σ → Nat → Io W (List Byte × σ)) (key : Option Key) :
    Nat → σ → List Byte → Blk → Io (Nat × W) (Blk × Blk)
  | 0, _, _, _ => Io.lift .diverge
  | fuel + 1, s, b, block => do
    alloc
    let k := BlkImitFinalKey key b.length
    let v ← Io.lift (Imit.loadPartial b)
    let block := Blk.xored block (BlkRaw.ofU64 v)
    if b.length < 8 then
      pure (block, k)
    else do
      let (b, s) ← below (rd s 8)
      if b = [] then
        pure (block, k)
      else do
        alloc
        Imit.loop rd key fuel s b (BlkEncrypted block key)

/-- `Imit::value` (goost/magma/Imit.cpp:79-103): memory for the blocks. -/
def Imit.value (m : Machine) (rd : σ → Nat → Io W (List Byte × σ)) (fuel : Nat) (data : σ)
    (key : Option Key) : Io (Nat × W) (W32 × W32) := do
  alloc
  let (b, s) ← below (rd data 8)
  let (block, k) ← Imit.loop rd key fuel s b BlkRaw.zero
  alloc
  Io.lift ((BlkEncrypted (.xored block k) key).value m)

namespace Gost89
open Goost.Gost89 (ImitedBlock.value)

/-- The loop of `CFBSink::write` (goost/gost89/CFBSink.cpp:42-61). -/
def CFBSink.loop (m : Machine) (wr : τ → List Byte → Io W τ) (key : Key) :
    List Byte → τ → List Byte → W64 → Io (Nat × W) (Goost.Gost89.CFBSink τ)
  | [], s, p, l => do
    alloc
    return ⟨s, key, l, p⟩
  | b :: data, s, p, l => do
    alloc
    let p := p ++ [b]
    if p.length = 8 then do
      alloc
      let e ← Io.lift ((BlkEncrypted (BlkRaw.ofU64 l) key.asLazy).value m)
      alloc
      let c ← Io.lift (xorWords p e.1 e.2)
      let s ← below (wr s c)
      let l ← Io.lift (load64 c 0)
      CFBSink.loop m wr key data s [] l
    else
      CFBSink.loop m wr key data s p l

/-- `CFBSink::write` (goost/gost89/CFBSink.cpp:37-62). -/
def CFBSink.write (m : Machine) (wr : τ → List Byte → Io W τ) (t : Goost.Gost89.CFBSink τ)
    (data : List Byte) : Io (Nat × W) (Goost.Gost89.CFBSink τ) := do
  alloc
  CFBSink.loop m wr t.key data t.sink t.plain t.iv

/-- `CFBSink::finalize` (goost/gost89/CFBSink.cpp:64-80). -/
def CFBSink.finalize (m : Machine) (wr : τ → List Byte → Io W τ) (t : Goost.Gost89.CFBSink τ) :
    Io (Nat × W) τ :=
  if t.plain ≠ [] then do
    alloc
    let e ← Io.lift ((BlkEncrypted (BlkRaw.ofU64 t.iv) t.key.asLazy).value m)
    alloc
    let c ← Io.lift (xorWords t.plain e.2 e.1)
    below (wr t.sink c)
  else
    pure t.sink

/-- The outer loop of `CFBSource::read` (goost/gost89/CFBSource.cpp:41-73), with a budget of iterations. -/
def CFBSource.loop (m : Machine) (rd : σ → Nat → Io W (List Byte × σ)) (key : Key) (size : Nat) :
    Nat → σ → List Byte → W64 → List Byte → Io (Nat × W) (List Byte × Goost.Gost89.CFBSource σ)
  | 0, _, _, _, _ => Io.lift .diverge
  | fuel + 1, s, p, r, res =>
    if res.length < size then do
      alloc
      let (p, res) := drain size p res
      if res.length = size then do
        alloc
        return (res, ⟨s, key, r, p⟩)
      else do
        alloc
        let e ← Io.lift ((BlkEncrypted (BlkRaw.ofU64 r) key.asLazy).value m)
        let (p, s) ← below (rd s 8)
        if p = [] then do
          alloc
          return (res, ⟨s, key, r, p⟩)
        else do
          let r ← Io.lift (copyMax p)
          let p ← Io.lift (condXorWords p e.1 e.2)
          CFBSource.loop m rd key size fuel s p r res
    else do
      alloc
      return (res, ⟨s, key, r, p⟩)

/-- `CFBSource::read` (goost/gost89/CFBSource.cpp:34-74). -/
def CFBSource.read (m : Machine) (rd : σ → Nat → Io W (List Byte × σ)) (t : Goost.Gost89.CFBSource σ)
    (size : Nat) : Io (Nat × W) (List Byte × Goost.Gost89.CFBSource σ) := do
  alloc
  CFBSource.loop m rd t.key size (size + 1) t.source t.plain t.iv []

/-- The loop of `DataImit::value` (goost/gost89/DataImit.cpp:28-36): memory for the blocks. -/
def DataImit.loop (m : Machine) (key : Option Key) : List Byte → List Byte → Io (Nat × W) (List Byte)
  | b0 :: b1 :: b2 :: b3 :: b4 :: b5 :: b6 :: b7 :: rest, state => do
    let state := List.zipWith (· ^^^ ·) state [b0, b1, b2, b3, b4, b5, b6, b7]
    alloc
    let raw ← Io.lift (BlkRaw.ofBytes state)
    let r ← Io.lift (ImitedBlock.value m raw key)
    let b ← Io.lift (r.value m)
    let state ← Io.lift (overwrite8 state (bytes32 b.1 ++ bytes32 b.2))
    DataImit.loop m key rest state
  | [], state => pure state
  | _, _ => Io.lift (.ub .oobRead)

/-- `DataImit::value` (goost/gost89/DataImit.cpp:18-38): memory for the padded copy and the result. -/
def DataImit.value (m : Machine) (data : List Byte) (key : Option Key) : Io (Nat × W) (List Byte) := do
  alloc
  DataImit.loop m key (Goost.Gost89.DataImit.pad data) (List.replicate 8 0)

end Gost89
end Goost.Scarce
