import Verif.Model.MagmaKey
/-
goost/magma: blocks. A `Block` object is a node of an expression tree; `value()` evaluates it.
-/
namespace Goost.Magma

/-- Block objects (goost/magma/Block.h:13-19 and the classes deriving from it). -/
inductive Blk where
  /-- `BlkRaw` (goost/magma/BlkRaw.h:16-30) -/
  | raw (low high : W32)
  /-- `BlkString` (goost/magma/BlkString.h:13-19) -/
  | str (s : List Char)
  /-- `BlkSwapped` (goost/magma/BlkSwapped.h:13-19) -/
  | swapped (b : Blk)
  /-- `BlkXored` with two operands (goost/magma/BlkXored.h:13-31) -/
  | xored (a b : Blk)
  /-- `BlkShifted` (goost/magma/BlkShifted.h:13-20) -/
  | shifted (b : Blk) (n : Int)
  /-- `BlkForwarded` (goost/magma/BlkForwarded.h:16-26); the key pointer may be null -/
  | forwarded (b : Blk) (key : Option Key)
  /-- `BlkBackwarded` (goost/magma/BlkBackwarded.h:16-26) -/
  | backwarded (b : Blk) (key : Option Key)
  /-- `BlkImitShifted` (goost/magma/Imit.cpp:21-27) -/
  | imitShifted (b : Blk)
  /-- a block class defined by the user -/
  | user (v : Exec (W32 × W32))

/-- `BlkRaw(uint64_t)` (goost/magma/BlkRaw.cpp:27-30): the arguments of the delegated
constructor are truncated to 32 bits. -/
def BlkRaw.ofU64 (x : W64) : Blk := .raw (x.setWidth 32) ((x >>> 32).setWidth 32)

/-- `BlkRaw()` (goost/magma/BlkRaw.cpp:48-51). -/
def BlkRaw.zero : Blk := BlkRaw.ofU64 0

/-- `BlkRaw(const pair &)` (goost/magma/BlkRaw.cpp:17-20). -/
def BlkRaw.ofPair (v : W32 × W32) : Blk := .raw v.1 v.2

/-- `BlkRaw(const void *)` (goost/magma/BlkRaw.cpp:40-46) applied to the start of a buffer;
also `BlkRaw(const vector<uint8_t> &)` (goost/magma/BlkRaw.cpp:32-38), which does the same
with `&block[0]`. The words are read in the constructor. -/
def BlkRaw.ofBytes (buf : List Byte) : Exec Blk := do
  let low ← load32 buf 0
  let high ← load32 buf 4
  return .raw low high

/-- `BlkForwarded::value` after the inner value is known
(goost/magma/BlkForwarded.cpp:21-33). -/
def forwardRounds (key : Option Key) (v : W32 × W32) : Exec (W32 × W32) := do
  let (a, b) := v
  let b := b ^^^ (← callKey key a 0)
  let a := a ^^^ (← callKey key b 1)
  let b := b ^^^ (← callKey key a 2)
  let a := a ^^^ (← callKey key b 3)
  let b := b ^^^ (← callKey key a 4)
  let a := a ^^^ (← callKey key b 5)
  let b := b ^^^ (← callKey key a 6)
  let a := a ^^^ (← callKey key b 7)
  return (a, b)

/-- `BlkBackwarded::value` after the inner value is known
(goost/magma/BlkBackwarded.cpp:20-32). -/
def backwardRounds (key : Option Key) (v : W32 × W32) : Exec (W32 × W32) := do
  let (a, b) := v
  let b := b ^^^ (← callKey key a 7)
  let a := a ^^^ (← callKey key b 6)
  let b := b ^^^ (← callKey key a 5)
  let a := a ^^^ (← callKey key b 4)
  let b := b ^^^ (← callKey key a 3)
  let a := a ^^^ (← callKey key b 2)
  let b := b ^^^ (← callKey key a 1)
  let a := a ^^^ (← callKey key b 0)
  return (a, b)

/-- `BlkShifted::value` after the inner value is known (goost/magma/BlkShifted.cpp:19).
`<<` and `>>` bind tighter than `|`. The second count is `64 - n` although the operand has 32
bits. -/
def shiftValue (m : Machine) (v : W32 × W32) (n : Int) : Exec (W32 × W32) := do
  let lo ← m.shl32 v.1 n
  let hi ← m.shl32 v.2 n
  let carry ← m.shr32 v.1 (64 - n)
  return (lo, hi ||| carry)

/-- The padding loop of `BlkString::value` (goost/magma/BlkString.cpp:18-21). -/
def padZeros (width : Nat) (s : List Char) : List Char :=
  List.replicate (width - s.length) '0' ++ s

/-- `Block::value()` for every class.
* BlkRaw: goost/magma/BlkRaw.cpp:53-56
* BlkString: goost/magma/BlkString.cpp:16-24 (the 64-bit results are truncated by the
  conversion to `pair<uint32_t, uint32_t>`; the initialisers of a braced list are evaluated
  left to right)
* BlkSwapped: goost/magma/BlkSwapped.cpp:16-20
* BlkXored: goost/magma/BlkXored.cpp:16-21
* BlkShifted: goost/magma/BlkShifted.cpp:16-20
* BlkForwarded: goost/magma/BlkForwarded.cpp:18-34
* BlkBackwarded: goost/magma/BlkBackwarded.cpp:17-33
* BlkImitShifted: goost/magma/Imit.cpp:46-53 (evaluates its block twice) -/
def Blk.value (m : Machine) : Blk → Exec (W32 × W32)
  | .raw low high => .ok (low, high)
  | .str s => do
    let v := padZeros 16 s
    let s1 ← substr v 8 8
    let first ← stoull16 s1
    let s0 ← substr v 0 8
    let second ← stoull16 s0
    return (first.setWidth 32, second.setWidth 32)
  | .swapped b => do
    let v ← b.value m
    return (v.2, v.1)
  | .xored a b => do
    let va ← a.value m
    let vb ← b.value m
    return (va.1 ^^^ vb.1, va.2 ^^^ vb.2)
  | .shifted b n => do
    let v ← b.value m
    shiftValue m v n
  | .forwarded b key => do
    let v ← b.value m
    forwardRounds key v
  | .backwarded b key => do
    let v ← b.value m
    backwardRounds key v
  | .imitShifted b => do
    let v ← b.value m
    if v.2 &&& 0x80000000 = 0 then do
      let v' ← b.value m
      shiftValue m v' 1
    else do
      let v' ← b.value m
      let s ← shiftValue m v' 1
      return (s.1 ^^^ 0x1b, s.2 ^^^ 0)
  | .user v => v

/-- Nesting of `value()` calls while the block is evaluated. The calls are e.g.
goost/magma/BlkSwapped.cpp, goost/magma/BlkForwarded.cpp. -/
def Blk.depth : Blk → Nat
  | .raw _ _ => 1
  | .str _ => 1
  | .swapped b => b.depth + 1
  | .xored a b => max a.depth b.depth + 1
  | .shifted b _ => b.depth + 1
  | .forwarded b _ => b.depth + 1
  | .backwarded b _ => b.depth + 1
  | .imitShifted b => b.depth + 1
  | .user _ => 1

/-- `BlkRaw(const shared_ptr<const Block> &)` (goost/magma/BlkRaw.cpp:22-25): evaluates in the
constructor. -/
def BlkRaw.ofBlock (m : Machine) (b : Blk) : Exec Blk := do
  let v ← b.value m
  return BlkRaw.ofPair v

/-- `BlkXored` with three or more operands (goost/magma/BlkXored.h:17-25): the first two are
xored, then the rest are added one by one. -/
def BlkXored.many (a b : Blk) : List Blk → Blk
  | [] => .xored a b
  | c :: d => BlkXored.many (.xored a b) c d

/-- `BlkEncrypted` (goost/magma/BlkEncrypted.cpp:14-38). -/
def BlkEncrypted (block : Blk) (key : Option Key) : Blk :=
  .swapped (.backwarded (.forwarded (.forwarded (.forwarded block key) key) key) key)

/-- `BlkDecrypted` (goost/magma/BlkDecrypted.cpp:14-38). -/
def BlkDecrypted (block : Blk) (key : Option Key) : Blk :=
  .swapped (.backwarded (.backwarded (.backwarded (.forwarded block key) key) key) key)

/-- `EncryptionBase::transform` (goost/magma/EncryptionBase.cpp:17-59). -/
def EncryptionBase.transform (key : Key) (block : W64) : Exec W64 := do
  let a : W32 := (block &&& 0xffffffff).setWidth 32
  let b : W32 := ((block >>> 32) &&& 0xffffffff).setWidth 32
  let b := b ^^^ (← key.transform a 0)
  let a := a ^^^ (← key.transform b 1)
  let b := b ^^^ (← key.transform a 2)
  let a := a ^^^ (← key.transform b 3)
  let b := b ^^^ (← key.transform a 4)
  let a := a ^^^ (← key.transform b 5)
  let b := b ^^^ (← key.transform a 6)
  let a := a ^^^ (← key.transform b 7)

  let b := b ^^^ (← key.transform a 0)
  let a := a ^^^ (← key.transform b 1)
  let b := b ^^^ (← key.transform a 2)
  let a := a ^^^ (← key.transform b 3)
  let b := b ^^^ (← key.transform a 4)
  let a := a ^^^ (← key.transform b 5)
  let b := b ^^^ (← key.transform a 6)
  let a := a ^^^ (← key.transform b 7)

  let b := b ^^^ (← key.transform a 0)
  let a := a ^^^ (← key.transform b 1)
  let b := b ^^^ (← key.transform a 2)
  let a := a ^^^ (← key.transform b 3)
  let b := b ^^^ (← key.transform a 4)
  let a := a ^^^ (← key.transform b 5)
  let b := b ^^^ (← key.transform a 6)
  let a := a ^^^ (← key.transform b 7)

  let b := b ^^^ (← key.transform a 7)
  let a := a ^^^ (← key.transform b 6)
  let b := b ^^^ (← key.transform a 5)
  let a := a ^^^ (← key.transform b 4)
  let b := b ^^^ (← key.transform a 3)
  let a := a ^^^ (← key.transform b 2)
  let b := b ^^^ (← key.transform a 1)
  let a := a ^^^ (← key.transform b 0)
  return ((a.setWidth 64) <<< 32) ||| b.setWidth 64

end Goost.Magma
