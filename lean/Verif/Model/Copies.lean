import Verif.Model.Views
/-
goost/kuznyechik: the programs of Model/Views with copies. Blocks and keys have the copy constructors that the compiler
provides: none of goost/kuznyechik/*.h declares one. A program keeps its objects in variables that it can let go of.
-/
namespace Goost.Copies
open Goost.KuzToken (Blk Key)
open Goost.Kuz (Caches)
open Goost.Views (How Obj V Cells)

/-- One step of a program (goost/kuznyechik/Block.h:13-19, goost/kuznyechik/Key.h:17-30). Variables are numbered in the order in
which they get their objects. -/
inductive Act where
  /-- assign to a variable that blocks of the user show (a class deriving from goost/kuznyechik/Block.h:13-19) -/
  | change (c : Nat) (v : V)
  /-- a constructor call (goost/kuznyechik/Key.h:29-30 and the lines given with `How`) -/
  | make (how : How)
  /-- call `value()` (goost/kuznyechik/Block.h:16) -/
  | ask (a : Nat)
  /-- `T y(x)`, a copy of the object in the variable `a` (goost/kuznyechik/Key.h:17 and the other
  classes) -/
  | duplicate (a : Nat)
  /-- the variable `a` lets go of its object (goost/kuznyechik/Key.h:17, goost/kuznyechik/Block.h:15: the destructors) -/
  | drop (a : Nat)
  deriving DecidableEq, Repr

/-- A block in a variable, as an argument (e.g. goost/kuznyechik/BlkXored.cpp:11-14). A variable without a block is a null
pointer. -/
def blockAt (o : List (Option Obj)) (a : Nat) : Exec (Blk Cells) :=
  match o[a]? with
  | some (some (.block b)) => .ok b
  | _ => .ub .nullDeref

/-- A key in a variable, as an argument (goost/kuznyechik/BlkEncrypted.cpp:12-15); as `blockAt`. -/
def keyAt (o : List (Option Obj)) (a : Nat) : Exec (Key Cells) :=
  match o[a]? with
  | some (some (.key k)) => .ok k
  | _ => .ub .nullDeref

/-- The constructors (goost/kuznyechik/BlkRaw.cpp:11-24 and the other lines given with `How`), as in Model/Views. `n` objects
have been made by constructors before: the new caches have the identities from `16 * n` on. -/
def build (m : Machine) (o : List (Option Obj)) (n : Nat) : How → Io (Caches × Cells) Obj
  | .own c => pure (.block (.user (Views.look c)))
  | .fixed v => pure (.block (.raw v.1 v.2))
  | .copy a => do
    let b ← Io.lift (blockAt o a)
    let v ← b.value m
    return .block (KuzToken.BlkRaw.ofPair v)
  | .cached a => do
    let b ← Io.lift (blockAt o a)
    return .block (.cached (16 * n) b)
  | .xored a b => do
    let x ← Io.lift (blockAt o a)
    let y ← Io.lift (blockAt o b)
    return .block (.xored x y)
  | .substituted a => do
    let b ← Io.lift (blockAt o a)
    return .block (.blkS b)
  | .mixed a => do
    let b ← Io.lift (blockAt o a)
    return .block (KuzToken.BlkL b)
  | .rotated a => do
    let b ← Io.lift (blockAt o a)
    return .block (.blkR b)
  | .shifted a k => do
    let b ← Io.lift (blockAt o a)
    return .block (.shifted b k)
  | .next a => do
    let b ← Io.lift (blockAt o a)
    return .block (.incremented b)
  | .key h l => do
    let x ← Io.lift (blockAt o h)
    let y ← Io.lift (blockAt o l)
    return .key (Key.ofBlocks x y (16 * n))
  | .encrypted b k => do
    let x ← Io.lift (blockAt o b)
    let y ← Io.lift (keyAt o k)
    return .block (KuzToken.BlkEncrypted x y)

/-- A copy of a block, member by member. What a block is made of is held by `shared_ptr`: the copy has pointers to the same
blocks (goost/kuznyechik/BlkXored.h:29-30, goost/kuznyechik/BlkS.h:18, goost/kuznyechik/BlkR.h:18,
goost/kuznyechik/BlkIncremented.h:18, goost/kuznyechik/BlkShifted.h:18-19). That holds for the copy of a cached block too:
its member is a pointer to the cache, so the copy has the cache of the original (goost/kuznyechik/BlkCached.h:20). Words and
texts are copied (goost/kuznyechik/BlkRaw.h:25-26, goost/kuznyechik/BlkString.h:18). A block of the user shows the same
variable. BlkL and BlkEncrypted (goost/kuznyechik/BlkL.h:18, goost/kuznyechik/BlkEncrypted.h:23-24) are here the blocks they
make when they are asked, as in Model/KuzToken. -/
def duplicateBlock : Blk Cells → Blk Cells
  | .raw low high => .raw low high
  | .str s => .str s
  | .user x => .user x
  | .xored a b => .xored a b
  | .xoredIfHighBit a b => .xoredIfHighBit a b
  | .blkS b => .blkS b
  | .blkR b => .blkR b
  | .incremented b => .incremented b
  | .shifted b n => .shifted b n
  | .cached id b => .cached id b

/-- A copy of a key: ten pointers to the same round keys (goost/kuznyechik/Key.h:34-44). -/
def duplicateKey (k : Key Cells) : Key Cells :=
  ⟨k.k1, k.k2, k.k3, k.k4, k.k5, k.k6, k.k7, k.k8, k.k9, k.k10⟩

/-- The copy of what is in the variable `a` (goost/kuznyechik/Key.h:17 and the other classes). -/
def duplicate (o : List (Option Obj)) (a : Nat) : Exec Obj :=
  match o[a]? with
  | some (some (.block b)) => .ok (.block (duplicateBlock b))
  | some (some (.key k)) => .ok (.key (duplicateKey k))
  | _ => .ub .nullDeref

/-- A program with copies, and the outcomes of its calls of `value()`; as `Views.run` (goost/kuznyechik/Block.h:13-19). `n` is
the number of constructor calls so far. -/
def run (m : Machine) : List Act → List (Option Obj) → Nat → Caches × Cells → List (Exec V)
  | [], _, _, _ => []
  | .change c v :: r, o, n, s => run m r o n (s.1, fun d => if d = c then v else s.2 d)
  | .make how :: r, o, n, s =>
    match build m o n how s with
    | (.ok x, s) => run m r (o ++ [some x]) (n + 1) s
    | (.throw e, _) => [.throw e]
    | (.ub u, _) => [.ub u]
    | (.diverge, _) => [.diverge]
  | .ask a :: r, o, n, s =>
    let q := (Io.lift (blockAt o a) >>= fun b => b.value m : Io (Caches × Cells) V) s
    q.1 :: run m r o n q.2
  | .duplicate a :: r, o, n, s =>
    match duplicate o a with
    | .ok x => run m r (o ++ [some x]) n s
    | .throw e => [.throw e]
    | .ub u => [.ub u]
    | .diverge => [.diverge]
  | .drop a :: r, o, n, s => run m r (o.set a none) n s

end Goost.Copies
