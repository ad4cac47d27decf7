import Verif.Model.KuzToken
import Verif.Spec.Keys
import Verif.Spec.Caches
import Verif.Spec.Kuznyechik
import Verif.Spec.KuzLive
import Verif.Spec.Bytes
import Verif.Spec.Modes
/-
Specification: a key of the 128-bit cipher whose two halves come from objects of the user that act on the
outside world: what its user should see is a memory of the two halves.
-/
namespace Spec
open Goost Spec.Modes
variable {W : Type}

/-- What a key has to remember: the answers for its two halves, as far as there are any. The third part is the
outside world. -/
abbrev KeyMemory (W : Type) := Option (BitVec 64 × BitVec 64) × Option (BitVec 64 × BitVec 64) × W

/-- The first half: remembered, or asked for. -/
def askHigh (high : Io W (BitVec 64 × BitVec 64)) : Io (KeyMemory W) (BitVec 64 × BitVec 64) := fun s =>
  match memo high (s.1, s.2.2) with
  | (r, (h, w)) => (r, (h, s.2.1, w))

/-- The second half: remembered, or asked for. -/
def askLow (low : Io W (BitVec 64 × BitVec 64)) : Io (KeyMemory W) (BitVec 64 × BitVec 64) := fun s =>
  match memo low (s.2.1, s.2.2) with
  | (r, (l, w)) => (r, (s.1, l, w))

/-- The 256-bit key: first the first half, then the second half. -/
def askKey (high low : Io W (BitVec 64 × BitVec 64)) : Io (KeyMemory W) (BitVec 256) := do
  let h ← askHigh high
  let l ← askLow low
  return join64 h ++ join64 l

/-- Something that does not concern the key. -/
def besides {α : Type} (x : Io W α) : Io (KeyMemory W) α := fun s =>
  match x s.2.2 with
  | (r, w) => (r, (s.1, s.2.1, w))

/-- The two words of a block. -/
def pair64 (x : BitVec 128) : BitVec 64 × BitVec 64 := (x.extractLsb' 0 64, x.extractLsb' 64 64)

/-- Something that a program does with a key. -/
inductive KeyUse (W : Type) where
  /-- the encryption of a block, which may itself be an object of the user that acts on the world -/
  | encrypt (block : Io W (BitVec 64 × BitVec 64))
  /-- the block that follows `before` in the encryption of `before ++ [block] ++ after` by counter mode -/
  | ctr (iv : BitVec 64) (before : List (BitVec 64 × BitVec 64)) (block : BitVec 64 × BitVec 64)
      (after : List (BitVec 64 × BitVec 64))
  /-- the code of `blocks ++ [last]`; the size of the last block is `size` -/
  | mac (blocks : List (BitVec 64 × BitVec 64)) (last : BitVec 64 × BitVec 64) (size : Nat)

/-- The code of the standard. -/
def kuzMac (K : BitVec 256) (blocks : List (BitVec 64 × BitVec 64)) (last : BitVec 64 × BitVec 64)
    (size : Nat) : BitVec 128 :=
  omac (Spec.Kuz.enc K) (if size = 16 then macK1 (Spec.Kuz.enc K) 0x87 else macK2 (Spec.Kuz.enc K) 0x87)
    (blocks.map join64) (join64 last)

/-- What it should do: the message is read, the key is asked for, and the result is that of the standard for
this key. -/
def ideal (high low : Io W (BitVec 64 × BitVec 64)) : KeyUse W → Io (KeyMemory W) (BitVec 64 × BitVec 64)
  | .encrypt block => do
    let v ← besides block
    let K ← askKey high low
    return pair64 (Spec.Kuz.enc K (join64 v))
  | .ctr iv before block _ => do
    let K ← askKey high low
    return pair64 (join64 block ^^^ Spec.Kuz.enc K (counter iv before.length))
  | .mac blocks last size => do
    let K ← askKey high low
    return pair64 (kuzMac K blocks last size)

/-- A stream of blocks in memory. -/
def shelf (W : Type) (size : Nat) : KuzLive.IterImpl W (List (BitVec 64 × BitVec 64)) where
  value l := Io.lift (match l with | v :: _ => .ok v | [] => .ub .oobRead)
  last l := pure (decide (l.length ≤ 1))
  size l := pure (if l.length ≤ 1 then size else 16)
  next l := pure (some l.tail)

/-- `n` calls of `next()`. -/
def skip {ι : Type} (it : KuzLive.IterImpl W ι) :
    Nat → KuzToken.ItCTR W ι → Io (Kuz.Caches × W) (KuzToken.ItCTR W ι)
  | 0, i => pure i
  | n + 1, i => KuzToken.ItCTR.next it i >>= skip it n

/-- What the library does. -/
def perform (m : Machine) (key : KuzToken.Key W) : KeyUse W → Io (Kuz.Caches × W) (BitVec 64 × BitVec 64)
  | .encrypt block => (KuzToken.BlkEncrypted (.user block) key).value m
  | .ctr iv before block after => do
    let i ← KuzToken.StCTREncrypted.iter (pure (some (before ++ [block] ++ after))) key iv
    let i ← skip (shelf W 16) before.length i
    KuzToken.ItCTR.value m (shelf W 16) i
  | .mac blocks last size =>
    KuzToken.Imit.value m (shelf W size) (pure (some (blocks ++ [last]))) (blocks.length + 1) key

/-- A block whose user parts do not act on the world. -/
def still (W : Type) : Kuz.Blk → KuzToken.Blk W
  | .raw low high => .raw low high
  | .str s => .str s
  | .xored a b => .xored (still W a) (still W b)
  | .blkS b => .blkS (still W b)
  | .blkR b => .blkR (still W b)
  | .incremented b => .incremented (still W b)
  | .shifted b n => .shifted (still W b) n
  | .xoredIfHighBit a b => .xoredIfHighBit (still W a) (still W b)
  | .cached id b => .cached id (still W b)
  | .user v => .user (Io.lift v)

/-- A key whose data do not act on the world. -/
def stillKey (W : Type) (k : Kuz.Key) : KuzToken.Key W :=
  ⟨still W k.k1, still W k.k2, still W k.k3, still W k.k4, still W k.k5, still W k.k6, still W k.k7,
    still W k.k8, still W k.k9, still W k.k10⟩

end Spec
