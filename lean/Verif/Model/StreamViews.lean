import Verif.Model.Views
import Verif.Model.KuzStream
/-
goost/kuznyechik: programs that make keys, streams and iterators from each other, change the data behind streams and keys of
their own, and ask iterators and `Imit` objects, in any order. Streams may be nested to any depth. Which block is evaluated
by which call and when is that of Model/KuzToken.
-/
namespace Goost.StreamViews
open Goost.KuzToken (Blk Key outside)
open Goost.Kuz (Caches ItMemory StMemory.iter)
open Goost.Views (V Cells look)

/-- Stream objects (goost/kuznyechik/Stream.h:14-19 and the classes deriving from it). -/
inductive St where
  /-- a stream of the user whose iterators show variables; the size of the last block is `size` -/
  | own (cells : List Nat) (size : Nat)
  /-- `StMemory` (goost/kuznyechik/StMemory.h:18-28), owned by a `shared_ptr` as long as the program runs -/
  | memory (data : List W64)
  /-- `StCTREncrypted` (goost/kuznyechik/StCTREncrypted.h:18-33) -/
  | ctr (stream : St) (key : Key Cells) (iv : W64)

/-- Iterator objects (goost/kuznyechik/Iterator.h:14-21 and the classes deriving from it). -/
inductive It where
  /-- an iterator of the user at the first of these variables -/
  | own (cells : List Nat) (size : Nat)
  /-- `ItMemory` (goost/kuznyechik/StMemory.cpp:16-32) -/
  | memory (data : List W64) (it : ItMemory)
  /-- `ItCTREncrypted` (goost/kuznyechik/StCTREncrypted.cpp:16-33) -/
  | ctr (iter : It) (key : Key Cells) (counter : Blk Cells)
  /-- `ItCTREncrypted` (goost/kuznyechik/StCTREncrypted.cpp:16-33) over a null pointer -/
  | ctrNull (key : Key Cells) (counter : Blk Cells)

/-- `Iterator::value` of every class (goost/kuznyechik/StMemory.cpp:45-48, goost/kuznyechik/StCTREncrypted.cpp:43-46). -/
def It.value (m : Machine) : It → Io (Caches × Cells) V
  | .own (c :: _) _ => outside (look c)
  | .own [] _ => Io.lift (.ub .nullDeref)
  | .memory _ i => pure i.data
  | .ctr i key counter => do
    let p ← i.value m
    let g ← (KuzToken.BlkEncrypted counter key).value m
    return (p.1 ^^^ g.1, p.2 ^^^ g.2)
  | .ctrNull _ _ => Io.lift (.ub .nullDeref)

/-- `Iterator::last` (goost/kuznyechik/StMemory.cpp:50-53, goost/kuznyechik/StCTREncrypted.cpp:48-51). -/
def It.last : It → Io (Caches × Cells) Bool
  | .own cells _ => pure (decide (cells.length ≤ 1))
  | .memory data i => Io.lift ((ItMemory.impl data).last i)
  | .ctr i _ _ => i.last
  | .ctrNull _ _ => Io.lift (.ub .nullDeref)

/-- `Iterator::size` (goost/kuznyechik/StMemory.cpp:55-58, goost/kuznyechik/StCTREncrypted.cpp:53-56). -/
def It.size : It → Io (Caches × Cells) Nat
  | .own cells size => pure (if cells.length ≤ 1 then size else 16)
  | .memory data i => Io.lift ((ItMemory.impl data).size i)
  | .ctr i _ _ => i.size
  | .ctrNull _ _ => Io.lift (.ub .nullDeref)

/-- `make_shared<ItCTREncrypted>(iter, key, ctr)` (goost/kuznyechik/StCTREncrypted.cpp:35-41, 60, 73), with a pointer to the
wrapped iterator that may be null. -/
def It.wrap (iter : Option It) (key : Key Cells) (counter : Blk Cells) : It :=
  match iter with
  | some i => .ctr i key counter
  | none => .ctrNull key counter

/-- `Iterator::next` (goost/kuznyechik/StMemory.cpp:60-64, goost/kuznyechik/StCTREncrypted.cpp:58-61). -/
def It.next : It → Io (Caches × Cells) (Option It)
  | .own cells size => pure (if cells.length ≤ 1 then none else some (.own cells.tail size))
  | .memory data i => do
    let n ← Io.lift ((ItMemory.impl data).next i)
    return n.map (.memory data)
  | .ctr i key counter => do
    let n ← i.next
    return some (It.wrap n key (.incremented counter))
  | .ctrNull _ _ => Io.lift (.ub .nullDeref)

/-- `Stream::iter` (goost/kuznyechik/StMemory.cpp:71-74, goost/kuznyechik/StCTREncrypted.cpp:71-74). -/
def St.iter : St → Io (Caches × Cells) (Option It)
  | .own cells size => pure (if cells = [] then none else some (.own cells size))
  | .memory data => do
    let i ← Io.lift (StMemory.iter data)
    return i.map (.memory data)
  | .ctr s key iv => do
    let i ← s.iter
    return some (It.wrap i key (.raw 0 iv))

/-- A member call through a possibly null `shared_ptr<const Iterator>` (goost/kuznyechik/Imit.cpp:56-70). -/
def deref {α : Type} (p : Option It) (f : It → Io (Caches × Cells) α) : Io (Caches × Cells) α :=
  match p with
  | some i => f i
  | none => Io.lift (.ub .nullDeref)

/-- The loop of `Imit::value` (goost/kuznyechik/Imit.cpp:56-62) with a budget of iterations; returns `block` and `iter`. -/
def Imit.loop (m : Machine) (key : Key Cells) :
    Nat → Option It → Blk Cells → Io (Caches × Cells) (Blk Cells × Option It)
  | 0, _, _ => Io.lift .diverge
  | fuel + 1, iter, block => do
    let l ← deref iter It.last
    if !l then do
      let v ← deref iter (It.value m)
      let block := KuzToken.BlkEncrypted (.xored block (KuzToken.BlkRaw.ofPair v)) key
      let iter ← deref iter It.next
      Imit.loop m key fuel iter block
    else
      return (block, iter)

/-- `Imit::value` (goost/kuznyechik/Imit.cpp:51-79). -/
def Imit.value (m : Machine) (stream : St) (fuel : Nat) (key : Key Cells) : Io (Caches × Cells) V := do
  let iter ← stream.iter
  let (block, iter) ← Imit.loop m key fuel iter KuzToken.BlkRaw.zero
  let B := KuzToken.BlkRaw.ofU64 0x87
  let K1 := Blk.xoredIfHighBit (KuzToken.BlkEncrypted KuzToken.BlkRaw.zero key) B
  let v ← deref iter (It.value m)
  let xblock := Blk.xored block (KuzToken.BlkRaw.ofPair v)
  let size ← deref iter It.size
  if size = 16 then
    (KuzToken.BlkEncrypted (.xored xblock K1) key).value m
  else
    (KuzToken.BlkEncrypted (.xored xblock (.xoredIfHighBit K1 B)) key).value m

/-- How a stream is made: a constructor call, or a class of the user deriving from goost/kuznyechik/Stream.h:14-19. Streams
and keys are numbered in the order in which they are made. -/
inductive How where
  /-- a stream of the user that shows these variables -/
  | own (cells : List Nat) (size : Nat)
  /-- `StMemory(data)` (goost/kuznyechik/StMemory.cpp:66-69) with a vector of what these variables are now -/
  | memory (cells : List Nat)
  /-- `StCTREncrypted(stream, key, iv)` (goost/kuznyechik/StCTREncrypted.cpp:63-69) -/
  | ctr (stream key : Nat) (iv : W64)
  deriving DecidableEq, Repr

/-- A call that returns a result (goost/kuznyechik/Iterator.h:14-21, goost/kuznyechik/Imit.h:16-23). Iterators are numbered in
the order in which they are got. -/
inductive Query where
  /-- `value()` of an iterator (goost/kuznyechik/Block.h:16) -/
  | value (it : Nat)
  /-- `last()` of an iterator (goost/kuznyechik/Iterator.h:18) -/
  | last (it : Nat)
  /-- `size()` of an iterator (goost/kuznyechik/Iterator.h:19) -/
  | size (it : Nat)
  /-- `Imit(stream, key).value()` (goost/kuznyechik/Imit.h:16-23); the `Imit` object may be old or new, it only holds the two
  pointers -/
  | mac (stream key : Nat)
  deriving DecidableEq, Repr

/-- One step of a program. The calls are those of the constructors, of `Stream::iter` and of `Iterator`
(goost/kuznyechik/Stream.h:14-19, goost/kuznyechik/Iterator.h:14-21). -/
inductive Step where
  /-- assign to a variable -/
  | change (c : Nat) (v : V)
  /-- `Key(data)` whose data return two blocks of the user that show these variables (goost/kuznyechik/Key.cpp:23-35) -/
  | key (high low : Nat)
  /-- make a stream -/
  | stream (how : How)
  /-- `iter()` -/
  | iter (stream : Nat)
  /-- `next()` -/
  | next (it : Nat)
  /-- any other call -/
  | ask (q : Query)
  deriving DecidableEq, Repr

/-- What a call returns: of `value()`, `last()` and `size()` (goost/kuznyechik/Iterator.h:14-21). -/
inductive Answer where
  | block (v : V)
  | flag (b : Bool)
  | number (n : Nat)
  deriving DecidableEq, Repr

/-- What a program has got: keys (goost/kuznyechik/Key.h:30-39), streams, and pointers to iterators. -/
structure Objects where
  keys : List (Key Cells) := []
  streams : List St := []
  iters : List (Option It) := []

/-- A pointer that is an argument (goost/kuznyechik/StCTREncrypted.cpp:63-69). There are no programs that name objects they
do not have: here such a pointer is null. -/
def pointer {α : Type} (l : List α) (i : Nat) : Exec α :=
  match l[i]? with
  | some x => .ok x
  | none => .ub .nullDeref

/-- The key over two variables (goost/kuznyechik/Key.cpp:23-35). The caches of the key number `n` have the identities from
`16 * n + 1` on. -/
def makeKey (n high low : Nat) : Key Cells := Key.ofBlocks (.user (look high)) (.user (look low)) (16 * n)

/-- The constructors of streams (goost/kuznyechik/StMemory.cpp:66-69, goost/kuznyechik/StCTREncrypted.cpp:63-69). -/
def makeStream (o : Objects) : How → Io (Caches × Cells) St
  | .own cells size => pure (.own cells size)
  | .memory cells => fun s => (.ok (.memory (cells.flatMap fun c => [(s.2 c).1, (s.2 c).2])), s)
  | .ctr i k iv => do
    let s ← Io.lift (pointer o.streams i)
    let key ← Io.lift (pointer o.keys k)
    return .ctr s key iv

/-- More iterations than a stream has blocks (for goost/kuznyechik/Imit.cpp:56-62). -/
def St.budget : St → Nat
  | .own cells _ => cells.length + 1
  | .memory data => data.length + 1
  | .ctr s _ _ => s.budget

/-- The calls (goost/kuznyechik/Iterator.h:14-21, goost/kuznyechik/Imit.cpp:51-79). -/
def answer (m : Machine) (o : Objects) : Query → Io (Caches × Cells) Answer
  | .value i => do
    let p ← Io.lift (pointer o.iters i)
    let v ← deref p (It.value m)
    return .block v
  | .last i => do
    let p ← Io.lift (pointer o.iters i)
    let v ← deref p It.last
    return .flag v
  | .size i => do
    let p ← Io.lift (pointer o.iters i)
    let v ← deref p It.size
    return .number v
  | .mac i k => do
    let s ← Io.lift (pointer o.streams i)
    let key ← Io.lift (pointer o.keys k)
    let v ← Imit.value m s s.budget key
    return .block v

/-- A step that adds to what the program has, as a call (goost/kuznyechik/Stream.h:14-19, goost/kuznyechik/Iterator.h:14-21). -/
def extend (o : Objects) : Step → Io (Caches × Cells) Objects
  | .change c v => fun s => (.ok o, (s.1, fun d => if d = c then v else s.2 d))
  | .key h l => pure { o with keys := o.keys ++ [makeKey o.keys.length h l] }
  | .stream how => do
    let s ← makeStream o how
    return { o with streams := o.streams ++ [s] }
  | .iter i => do
    let s ← Io.lift (pointer o.streams i)
    let p ← s.iter
    return { o with iters := o.iters ++ [p] }
  | .next i => do
    let p ← Io.lift (pointer o.iters i)
    let n ← deref p It.next
    return { o with iters := o.iters ++ [n] }
  | .ask _ => pure o

/-- A program, with the outcomes of its calls. A step that fails to make something ends it. The program is the user's; the
calls are those of `answer` and `extend` (goost/kuznyechik/Iterator.h:14-21). -/
def run (m : Machine) : List Step → Objects → Caches × Cells → List (Exec Answer)
  | [], _, _ => []
  | .ask q :: r, o, s => (answer m o q s).1 :: run m r o (answer m o q s).2
  | x :: r, o, s =>
    match extend o x s with
    | (.ok o, s) => run m r o s
    | (.throw e, _) => [.throw e]
    | (.ub u, _) => [.ub u]
    | (.diverge, _) => [.diverge]

end Goost.StreamViews
