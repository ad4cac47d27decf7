import Verif.Model.KuzToken
/-
goost/kuznyechik: programs that make blocks and keys from each other, change the data behind blocks of their own, and ask
for values, in any order. Which block is evaluated by which call and when is that of Model/KuzToken.
-/
namespace Goost.Views
open Goost.KuzToken (Blk Key)
open Goost.Kuz (Caches)

/-- The value of a block, low half first (goost/kuznyechik/Block.h:16). -/
abbrev V := W64 × W64

/-- What a program keeps in its variables: values that blocks of the user show (goost/kuznyechik/Block.h:16). -/
abbrev Cells := Nat → V

/-- How an object is made: a constructor call, or a class of the user deriving from goost/kuznyechik/Block.h:13-19. Objects
are numbered in the order in which they are made. -/
inductive How where
  /-- a block of the user that shows the variable `c` (a class deriving from goost/kuznyechik/Block.h:13-19) -/
  | own (c : Nat)
  /-- `BlkRaw(low, high)` (goost/kuznyechik/BlkRaw.cpp:11-14) -/
  | fixed (v : V)
  /-- `BlkRaw(block)` (goost/kuznyechik/BlkRaw.cpp:21-24) -/
  | copy (a : Nat)
  /-- `BlkCached(block)` (goost/kuznyechik/BlkCached.cpp:32-35) -/
  | cached (a : Nat)
  /-- `BlkXored(block, block)` (goost/kuznyechik/BlkXored.cpp:11-14) -/
  | xored (a b : Nat)
  /-- `BlkS(block)` (goost/kuznyechik/BlkS.cpp:13-16) -/
  | substituted (a : Nat)
  /-- `BlkL(block)` (goost/kuznyechik/BlkL.cpp:12-15) -/
  | mixed (a : Nat)
  /-- `BlkR(block)` (goost/kuznyechik/BlkR.cpp:13-16) -/
  | rotated (a : Nat)
  /-- `BlkShifted(block, n)` (goost/kuznyechik/BlkShifted.cpp:11-14) -/
  | shifted (a n : Nat)
  /-- `BlkIncremented(block)` (goost/kuznyechik/BlkIncremented.cpp:12-15) -/
  | next (a : Nat)
  /-- `Key(data)` whose data return these two blocks (goost/kuznyechik/Key.cpp:23-35) -/
  | key (high low : Nat)
  /-- `BlkEncrypted(block, key)` (goost/kuznyechik/BlkEncrypted.cpp:12-15) -/
  | encrypted (block key : Nat)
  deriving DecidableEq, Repr

/-- One step of a program. The calls are those of the constructors and of `Block::value()`
(goost/kuznyechik/Block.h:13-19). -/
inductive Step where
  /-- assign to a variable -/
  | change (c : Nat) (v : V)
  /-- make an object -/
  | make (how : How)
  /-- call `value()` -/
  | ask (i : Nat)
  deriving DecidableEq, Repr

/-- An object that a program has. (Classes deriving from goost/kuznyechik/Block.h:13-19; goost/kuznyechik/Key.h:30-39.) -/
inductive Obj where
  | block (b : Blk Cells)
  | key (k : Key Cells)

/-- `value()` of the user's block that shows a variable (it implements goost/kuznyechik/Block.h:16). -/
def look (c : Nat) : Io Cells V := fun w => (.ok (w c), w)

/-- A pointer to a block, as an argument (e.g. goost/kuznyechik/BlkXored.cpp:11-14). There are no programs that name objects
they do not have: here such a pointer is null. -/
def blockAt (o : List Obj) (a : Nat) : Exec (Blk Cells) :=
  match o[a]? with
  | some (.block b) => .ok b
  | _ => .ub .nullDeref

/-- A pointer to a key, as an argument (goost/kuznyechik/BlkEncrypted.cpp:12-15); as `blockAt`. -/
def keyAt (o : List Obj) (a : Nat) : Exec (Key Cells) :=
  match o[a]? with
  | some (.key k) => .ok k
  | _ => .ub .nullDeref

/-- The constructors (goost/kuznyechik/BlkRaw.cpp:11-24 and the other lines given with `How`). `BlkRaw(block)` is the only one that evaluates a block. The caches of
the object number `n` have the identities from `16 * n` on. -/
def build (m : Machine) (o : List Obj) : How → Io (Caches × Cells) Obj
  | .own c => pure (.block (.user (look c)))
  | .fixed v => pure (.block (.raw v.1 v.2))
  | .copy a => do
    let b ← Io.lift (blockAt o a)
    let v ← b.value m
    return .block (KuzToken.BlkRaw.ofPair v)
  | .cached a => do
    let b ← Io.lift (blockAt o a)
    return .block (.cached (16 * o.length) b)
  | .xored a b => do
    let x ← Io.lift (blockAt o a)
    let y ← Io.lift (blockAt o b)
    return .block (.xored x y)
  | .substituted a => do
    let b ← Io.lift (blockAt o a)
    return .block (.blkS b)
  | .mixed a => do
    let b ← Io.lift (blockAt o a)
    return .block (KuzToken.BlkL b)
  | .rotated a => do
    let b ← Io.lift (blockAt o a)
    return .block (.blkR b)
  | .shifted a n => do
    let b ← Io.lift (blockAt o a)
    return .block (.shifted b n)
  | .next a => do
    let b ← Io.lift (blockAt o a)
    return .block (.incremented b)
  | .key h l => do
    let x ← Io.lift (blockAt o h)
    let y ← Io.lift (blockAt o l)
    return .key (Key.ofBlocks x y (16 * o.length))
  | .encrypted b k => do
    let x ← Io.lift (blockAt o b)
    let y ← Io.lift (keyAt o k)
    return .block (KuzToken.BlkEncrypted x y)

/-- `value()` of the object number `a` (goost/kuznyechik/Block.h:16). -/
def ask (m : Machine) (o : List Obj) (a : Nat) : Io (Caches × Cells) V := do
  let b ← Io.lift (blockAt o a)
  b.value m

/-- A program, with the outcomes of its calls of `value()`. A constructor that fails ends it. The program is the user's; the
calls are those of `build` and `ask` (goost/kuznyechik/Block.h:13-19). -/
def run (m : Machine) : List Step → List Obj → Caches × Cells → List (Exec V)
  | [], _, _ => []
  | .change c v :: r, o, s => run m r o (s.1, fun d => if d = c then v else s.2 d)
  | .make how :: r, o, s =>
    match build m o how s with
    | (.ok x, s) => run m r (o ++ [x]) s
    | (.throw e, _) => [.throw e]
    | (.ub u, _) => [.ub u]
    | (.diverge, _) => [.diverge]
  | .ask a :: r, o, s => (ask m o a s).1 :: run m r o (ask m o a s).2

end Goost.Views
