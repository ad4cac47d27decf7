import Verif.Model.Concurrent
import Verif.Model.Gost89
import Verif.Model.KuzStream
/-
The modes of operation as programs of a thread that shares its key with other threads.

The streams of Model/MagmaModes and Model/Gost89 take the words of the key at once. Here they ask for them, one by one,
so that other threads may use the key in between; everything else (their data, the sink or the source below, the world
`W` that these act on) belongs to the thread. A field `key` of a stream only names the shared key.

Simplification: threads share nothing but the key.
-/
namespace Goost.Conc
open Goost.Magma

/-- Code of a thread that acts on the thread's own world and makes requests to a shared key. As `Io`, e.g.
goost/magma/CFBSink.cpp:36-63. -/
def Ask (Op Res W α : Type) := W → Prog Op Res (Exec α × W)

/-- Such code over the words of a shared `KeyData` (goost/magma/KeyData.h). -/
abbrev AskKey (W α : Type) := Ask Int (Exec W32) W α

/-- Such code over blocks whose caches are shared (goost/kuznyechik/BlkCached.cpp:18-25). -/
abbrev AskBlk (W α : Type) := Ask Kuz.Blk (Exec (W64 × W64)) W α

namespace Ask
variable {Op Res W α β : Type}

/-- Sequence of two calls. As `Io.bind`, e.g. goost/magma/CFBSink.cpp:46-56. -/
def bind (x : Ask Op Res W α) (f : α → Ask Op Res W β) : Ask Op Res W β := fun w =>
  (x w).bind fun r =>
    match r with
    | (.ok a, w') => f a w'
    | (.throw e, w') => .ret (.throw e, w')
    | (.ub u, w') => .ret (.ub u, w')
    | (.diverge, w') => .ret (.diverge, w')

/-- A call that does not use the key: of the sink or the source below (goost/magma/CFBSink.cpp:55,
goost/magma/CFBSource.cpp:55). -/
def io (x : Io W α) : Ask Op Res W α := fun w => .ret (x w)

/-- A computation without effects, e.g. goost/magma/CFBSink.cpp:51-54. -/
def lift (x : Exec α) : Ask Op Res W α := fun w => .ret (x, w)

/-- A use of the key, e.g. goost/magma/CFBSink.cpp:46-48. -/
def use (p : Prog Op Res (Exec α)) : Ask Op Res W α := fun w => p.bind fun r => .ret (r, w)

instance : Monad (Ask Op Res W) where
  pure a := fun w => .ret (.ok a, w)
  bind := bind

end Ask

/-- `EncryptionBase::transform` (goost/magma/EncryptionBase.cpp:17-59). -/
def askBase (sbox : Sbox) (block : W64) : KeyProg W64 :=
  (askRounds sbox [0, 1, 2, 3, 4, 5, 6, 7, 0, 1, 2, 3, 4, 5, 6, 7, 0, 1, 2, 3, 4, 5, 6, 7, 7, 6, 5, 4, 3, 2, 1, 0]
    ((block &&& 0xffffffff).setWidth 32, ((block >>> 32) &&& 0xffffffff).setWidth 32)).bindE fun v =>
      .ret (.ok (((v.1.setWidth 64) <<< 32) ||| v.2.setWidth 64))

/-- `Block::value()` of a tree of blocks (as `Blk.value`: goost/magma/BlkRaw.cpp:53-56, goost/magma/BlkSwapped.cpp:16-20,
goost/magma/BlkXored.cpp:16-21, goost/magma/BlkShifted.cpp:16-20, goost/magma/BlkForwarded.cpp:18-34,
goost/magma/BlkBackwarded.cpp:17-33, goost/magma/Imit.cpp:46-53). All keys of the tree are the shared one. -/
def askBlk (m : Machine) (sbox : Sbox) : Magma.Blk → KeyProg (W32 × W32)
  | .swapped b => (askBlk m sbox b).bindE fun v => .ret (.ok (v.2, v.1))
  | .xored a b =>
    (askBlk m sbox a).bindE fun va => (askBlk m sbox b).bindE fun vb =>
      .ret (.ok (va.1 ^^^ vb.1, va.2 ^^^ vb.2))
  | .shifted b n => (askBlk m sbox b).bindE fun v => .ret (shiftValue m v n)
  | .forwarded b _ => (askBlk m sbox b).bindE fun v => askRounds sbox [0, 1, 2, 3, 4, 5, 6, 7] v
  | .backwarded b _ => (askBlk m sbox b).bindE fun v => askRounds sbox [7, 6, 5, 4, 3, 2, 1, 0] v
  | .imitShifted b =>
    (askBlk m sbox b).bindE fun v =>
      if v.2 &&& 0x80000000 = 0 then
        (askBlk m sbox b).bindE fun v' => .ret (shiftValue m v' 1)
      else
        (askBlk m sbox b).bindE fun v' =>
          (Prog.ret (shiftValue m v' 1)).bindE fun s => .ret (.ok (s.1 ^^^ 0x1b, s.2 ^^^ 0))
  | .raw low high => .ret (.ok (low, high))
  | .str s => .ret (Magma.Blk.value m (.str s))
  | .user v => .ret v

variable {W σ τ : Type}

/-! ### magma -/

/-- The loop of `ECBSink::write` and the code after it (goost/magma/ECBSink.cpp:26-42). -/
def askECBSink.loop (wr : τ → List Byte → Io W τ) (sbox : Sbox) (key : Key) :
    List Byte → List Byte → τ → AskKey W (ECBSink τ)
  | [], p, s =>
    if p ≠ [] then Ask.lift (.throw (.runtimeError "Unaligned ECB encryption"))
    else pure ⟨s, key⟩
  | b :: data, p, s =>
    let p := p ++ [b]
    if p.length = 8 then do
      let x ← Ask.lift (load64 p 0)
      let e ← Ask.use (askBase sbox x)
      let p ← Ask.lift (overwrite8 p (bytes64 e))
      let s ← Ask.io (wr s p)
      askECBSink.loop wr sbox key data [] s
    else
      askECBSink.loop wr sbox key data p s

/-- `ECBSink::write` (goost/magma/ECBSink.cpp:22-43). -/
def askECBSink.write (wr : τ → List Byte → Io W τ) (sbox : Sbox) (t : ECBSink τ) (data : List Byte) :
    AskKey W (ECBSink τ) :=
  askECBSink.loop wr sbox t.key data [] t.sink

/-- `ECBSource::read` (goost/magma/ECBSource.cpp:35-57); for the bare source, its own `read`. -/
def askECBSource.read (m : Machine) (rd : σ → Nat → Io W (List Byte × σ)) (sbox : Sbox) :
    ECBSource σ → Nat → AskKey W (List Byte × ECBSource σ)
  | .bare source, size => do
    let (p, s) ← Ask.io (rd source size)
    return (p, .bare s)
  | .ecb source key, size =>
    if size < 8 then Ask.lift (.throw (.runtimeError "Unaligned ECB decryption"))
    else do
      let (p, s) ← Ask.io (rd source 8)
      if p = [] then
        return (p, .bare s)
      else do
        let b ← Ask.lift (BlkRaw.ofBytes p)
        let e ← Ask.use (askBlk m sbox (BlkDecrypted b key.asLazy))
        let p ← Ask.lift (overwrite8 p (bytes32 e.1 ++ bytes32 e.2))
        return (p, .ecb s key)

/-- The loop of `CFBSink::write` (goost/magma/CFBSink.cpp:42-62). -/
def askCFBSink.loop (m : Machine) (wr : τ → List Byte → Io W τ) (sbox : Sbox) (key : Key) :
    List Byte → τ → List Byte → W64 → W64 → AskKey W (CFBSink τ)
  | [], s, p, rl, rr => pure ⟨s, key, rl, rr, p⟩
  | b :: data, s, p, rl, rr =>
    let p := p ++ [b]
    if p.length = 8 then do
      let e ← Ask.use (askBlk m sbox (BlkEncrypted (BlkRaw.ofU64 rl) key.asLazy))
      let c ← Ask.lift (xorWords p e.1 e.2)
      let s ← Ask.io (wr s c)
      let rl := rr
      let rr ← Ask.lift (load64 c 0)
      askCFBSink.loop m wr sbox key data s [] rl rr
    else
      askCFBSink.loop m wr sbox key data s p rl rr

/-- `CFBSink::write` (goost/magma/CFBSink.cpp:36-63). -/
def askCFBSink.write (m : Machine) (wr : τ → List Byte → Io W τ) (sbox : Sbox) (t : CFBSink τ) (data : List Byte) :
    AskKey W (CFBSink τ) :=
  askCFBSink.loop m wr sbox t.key data t.sink t.plain t.ivl t.ivr

/-- `CFBSink::finalize` (goost/magma/CFBSink.cpp:65-81). -/
def askCFBSink.finalize (m : Machine) (wr : τ → List Byte → Io W τ) (sbox : Sbox) (t : CFBSink τ) : AskKey W τ :=
  if t.plain ≠ [] then do
    let e ← Ask.use (askBlk m sbox (BlkEncrypted (BlkRaw.ofU64 t.ivl) t.key.asLazy))
    let c ← Ask.lift (xorWords t.plain e.2 e.1)
    Ask.io (wr t.sink c)
  else
    pure t.sink

/-- The outer loop of `CFBSource::read` (goost/magma/CFBSource.cpp:43-76), with a budget of iterations. -/
def askCFBSource.loop (m : Machine) (rd : σ → Nat → Io W (List Byte × σ)) (sbox : Sbox) (key : Key) (size : Nat) :
    Nat → σ → List Byte → W64 → W64 → List Byte → AskKey W (List Byte × CFBSource σ)
  | 0, _, _, _, _, _ => Ask.lift .diverge
  | fuel + 1, s, p, rl, rr, res =>
    if res.length < size then
      let (p, res) := drain size p res
      if res.length = size then
        pure (res, ⟨s, key, rl, rr, p⟩)
      else do
        let e ← Ask.use (askBlk m sbox (BlkEncrypted (BlkRaw.ofU64 rl) key.asLazy))
        let (p, s) ← Ask.io (rd s 8)
        if p = [] then
          pure (res, ⟨s, key, rl, rr, p⟩)
        else do
          let rl := rr
          let rr ← Ask.lift (copyMax p)
          let p ← Ask.lift (condXorWords p e.1 e.2)
          askCFBSource.loop m rd sbox key size fuel s p rl rr res
    else
      pure (res, ⟨s, key, rl, rr, p⟩)

/-- `CFBSource::read` (goost/magma/CFBSource.cpp:35-77). -/
def askCFBSource.read (m : Machine) (rd : σ → Nat → Io W (List Byte × σ)) (sbox : Sbox) (t : CFBSource σ) (size : Nat) :
    AskKey W (List Byte × CFBSource σ) :=
  askCFBSource.loop m rd sbox t.key size (size + 1) t.source t.plain t.ivl t.ivr []

/-- `Imit::value` (goost/magma/Imit.cpp:79-103): builds a block without using the key, then evaluates it. -/
def askImit.value (m : Machine) (rd : σ → Nat → Io W (List Byte × σ)) (sbox : Sbox) (fuel : Nat) (data : σ)
    (key : Option Key) : AskKey W (W32 × W32) := do
  let b ← Ask.io (Imit.build rd fuel data key)
  Ask.use (askBlk m sbox b)

/-! ### gost89 -/

/-- The loop of `gost89::CFBSink::write` (goost/gost89/CFBSink.cpp:42-61). -/
def askGost89CFBSink.loop (m : Machine) (wr : τ → List Byte → Io W τ) (sbox : Sbox) (key : Key) :
    List Byte → τ → List Byte → W64 → AskKey W (Gost89.CFBSink τ)
  | [], s, p, l => pure ⟨s, key, l, p⟩
  | b :: data, s, p, l =>
    let p := p ++ [b]
    if p.length = 8 then do
      let e ← Ask.use (askBlk m sbox (BlkEncrypted (BlkRaw.ofU64 l) key.asLazy))
      let c ← Ask.lift (xorWords p e.1 e.2)
      let s ← Ask.io (wr s c)
      let l ← Ask.lift (load64 c 0)
      askGost89CFBSink.loop m wr sbox key data s [] l
    else
      askGost89CFBSink.loop m wr sbox key data s p l

/-- `gost89::CFBSink::write` (goost/gost89/CFBSink.cpp:37-62). -/
def askGost89CFBSink.write (m : Machine) (wr : τ → List Byte → Io W τ) (sbox : Sbox) (t : Gost89.CFBSink τ)
    (data : List Byte) : AskKey W (Gost89.CFBSink τ) :=
  askGost89CFBSink.loop m wr sbox t.key data t.sink t.plain t.iv

/-- `gost89::CFBSink::finalize` (goost/gost89/CFBSink.cpp:64-80). -/
def askGost89CFBSink.finalize (m : Machine) (wr : τ → List Byte → Io W τ) (sbox : Sbox) (t : Gost89.CFBSink τ) : AskKey W τ :=
  if t.plain ≠ [] then do
    let e ← Ask.use (askBlk m sbox (BlkEncrypted (BlkRaw.ofU64 t.iv) t.key.asLazy))
    let c ← Ask.lift (xorWords t.plain e.2 e.1)
    Ask.io (wr t.sink c)
  else
    pure t.sink

/-- The outer loop of `gost89::CFBSource::read` (goost/gost89/CFBSource.cpp:41-73), with a budget of iterations. -/
def askGost89CFBSource.loop (m : Machine) (rd : σ → Nat → Io W (List Byte × σ)) (sbox : Sbox) (key : Key) (size : Nat) :
    Nat → σ → List Byte → W64 → List Byte → AskKey W (List Byte × Gost89.CFBSource σ)
  | 0, _, _, _, _ => Ask.lift .diverge
  | fuel + 1, s, p, r, res =>
    if res.length < size then
      let (p, res) := drain size p res
      if res.length = size then
        pure (res, ⟨s, key, r, p⟩)
      else do
        let e ← Ask.use (askBlk m sbox (BlkEncrypted (BlkRaw.ofU64 r) key.asLazy))
        let (p, s) ← Ask.io (rd s 8)
        if p = [] then
          pure (res, ⟨s, key, r, p⟩)
        else do
          let r ← Ask.lift (copyMax p)
          let p ← Ask.lift (condXorWords p e.1 e.2)
          askGost89CFBSource.loop m rd sbox key size fuel s p r res
    else
      pure (res, ⟨s, key, r, p⟩)

/-- `gost89::CFBSource::read` (goost/gost89/CFBSource.cpp:34-74). -/
def askGost89CFBSource.read (m : Machine) (rd : σ → Nat → Io W (List Byte × σ)) (sbox : Sbox) (t : Gost89.CFBSource σ)
    (size : Nat) : AskKey W (List Byte × Gost89.CFBSource σ) :=
  askGost89CFBSource.loop m rd sbox t.key size (size + 1) t.source t.plain t.iv []

/-- The loop of `DataImit::value` (goost/gost89/DataImit.cpp:28-36) with `ImitedBlock::value`
(goost/gost89/ImitedBlock.cpp:18-29). -/
def askDataImit.loop (m : Machine) (sbox : Sbox) (key : Option Key) : List Byte → List Byte → KeyProg (List Byte)
  | b0 :: b1 :: b2 :: b3 :: b4 :: b5 :: b6 :: b7 :: rest, state =>
    let state := List.zipWith (· ^^^ ·) state [b0, b1, b2, b3, b4, b5, b6, b7]
    (Prog.ret (BlkRaw.ofBytes state)).bindE fun raw =>
      (askBlk m sbox raw).bindE fun v =>
        (askBlk m sbox (.forwarded (.forwarded (BlkRaw.ofPair v) key) key)).bindE fun b =>
          (Prog.ret (overwrite8 state (bytes32 b.1 ++ bytes32 b.2))).bindE fun state =>
            askDataImit.loop m sbox key rest state
  | [], state => .ret (.ok state)
  | _, _ => .ret (.ub .oobRead)

/-- `DataImit::value` (goost/gost89/DataImit.cpp:18-38). -/
def askDataImit.value (m : Machine) (sbox : Sbox) (data : List Byte) (key : Option Key) : KeyProg (List Byte) :=
  askDataImit.loop m sbox key (Gost89.DataImit.pad data) (List.replicate 8 0)

/-! ### kuznyechik -/

section
open Goost.Kuz

/-- The methods of an iterator, as `IterImpl` (goost/kuznyechik/Iterator.h); only `value()` uses the shared key. -/
structure AskIter (ι : Type) where
  value : ι → Prog Kuz.Blk (Exec (W64 × W64)) (Exec (W64 × W64))
  last : ι → Exec Bool
  size : ι → Exec Nat
  next : ι → Exec (Option ι)

/-- An iterator of the thread's own (e.g. of a `StMemory`: goost/kuznyechik/StMemory.cpp:16-32). -/
def AskIter.own {ι : Type} (it : IterImpl ι) : AskIter ι := ⟨fun i => .ret (it.value i), it.last, it.size, it.next⟩

/-- A call of `value()` through a possibly null pointer, as `deref` (goost/kuznyechik/StCTREncrypted.cpp:45). -/
def askDeref {ι : Type} (i : Option ι) (f : ι → Prog Kuz.Blk (Exec (W64 × W64)) (Exec (W64 × W64))) :
    Prog Kuz.Blk (Exec (W64 × W64)) (Exec (W64 × W64)) :=
  match i with
  | some i => f i
  | none => .ret (deref (none : Option ι) fun _ => .diverge)

/-- The methods of `ItCTREncrypted` (goost/kuznyechik/StCTREncrypted.cpp:43-61). -/
def AskIter.ctr {ι : Type} (it : AskIter ι) : AskIter (ItCTR ι) where
  value i := (askDeref i.iter it.value).bindE fun p =>
    .op (Kuz.BlkEncrypted i.ctr i.key) fun g =>
      (Prog.ret g).bindE fun g => .ret (.ok (p.1 ^^^ g.1, p.2 ^^^ g.2))
  last i := deref i.iter it.last
  size i := deref i.iter it.size
  next i := do
    let n ← deref i.iter it.next
    return some ⟨n, i.key, .incremented i.ctr⟩

/-- The loop of `Imit::value` (goost/kuznyechik/Imit.cpp:56-62) with a budget of iterations. -/
def askKuzImit.loop {ι : Type} (it : AskIter ι) (key : Kuz.Key) :
    Nat → Option ι → Kuz.Blk → Prog Kuz.Blk (Exec (W64 × W64)) (Exec (Kuz.Blk × Option ι))
  | 0, _, _ => .ret .diverge
  | fuel + 1, iter, block =>
    (Prog.ret (deref iter it.last)).bindE fun l =>
      if !l then
        (askDeref iter it.value).bindE fun v =>
          (Prog.ret (deref iter it.next)).bindE fun next =>
            askKuzImit.loop it key fuel next (Kuz.BlkEncrypted (.xored block (Kuz.BlkRaw.ofPair v)) key)
      else .ret (.ok (block, iter))

/-- `Imit::value` (goost/kuznyechik/Imit.cpp:51-79). -/
def askKuzImit.value {ι : Type} (it : AskIter ι) (streamIter : Exec (Option ι)) (fuel : Nat) (key : Kuz.Key) :
    Prog Kuz.Blk (Exec (W64 × W64)) (Exec (W64 × W64)) :=
  (Prog.ret streamIter).bindE fun iter =>
    (askKuzImit.loop it key fuel iter Kuz.BlkRaw.zero).bindE fun r =>
      let B := Kuz.BlkRaw.ofU64 0x87
      let K1 := Kuz.Blk.xoredIfHighBit (Kuz.BlkEncrypted Kuz.BlkRaw.zero key) B
      (askDeref r.2 it.value).bindE fun v =>
        let xblock := Kuz.Blk.xored r.1 (Kuz.BlkRaw.ofPair v)
        (Prog.ret (deref r.2 it.size)).bindE fun size =>
          if size = 16 then .op (Kuz.BlkEncrypted (.xored xblock K1) key) .ret
          else .op (Kuz.BlkEncrypted (.xored xblock (.xoredIfHighBit K1 B)) key) .ret
end

/-! ### A mutex around every call -/

/-- A thread that makes calls one after the other on what it owns (`s` and its world `w`), each with the mutex locked,
and stops at the first that fails. The user's thread; no code of /repo (the calls are those above, e.g.
goost/magma/CFBSink.cpp:36-63). -/
def lockedCalls {Op Res S : Type} : List (S → Ask Op Res W S) → S → W →
    Prog (Prog Op Res (Exec S × W)) (Exec S × W) (Exec S × W)
  | [], s, w => .ret (.ok s, w)
  | call :: calls, s, w => .op (call s w) fun r =>
    match r with
    | (.ok s', w') => lockedCalls calls s' w'
    | (.throw e, w') => .ret (.throw e, w')
    | (.ub u, w') => .ret (.ub u, w')
    | (.diverge, w') => .ret (.diverge, w')

end Goost.Conc
