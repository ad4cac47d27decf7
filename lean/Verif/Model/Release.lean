import Verif.Model.Memory
/-
How deeply destructors call each other when a pointer is given up.
-/
namespace Goost.Mem

/-- Destroying a `shared_ptr`, as `Heap.release`, with a record of the deepest nesting of destructors: an
object that is destroyed at depth `depth` destroys its members from inside its destructor, one level further
down. `order` is the order in which an object destroys its members (C++: the reverse of the declarations).
E.g. `ctr` in goost/kuznyechik/StCTREncrypted.cpp:29-33 and `block` in goost/kuznyechik/BlkIncremented.h. -/
def Heap.releaseIn (order : List Ptr → List Ptr) : Nat → Nat → Heap × Nat → Ptr → Heap × Nat
  | 0, _, x, _ => x
  | fuel + 1, depth, x, p =>
    match x.1[p]? with
    | none => x
    | some c =>
      let h := x.1.modify p fun c => { c with count := c.count - 1 }
      if c.count - 1 = 0 then
        (order c.obj.members).foldl (Heap.releaseIn order fuel (depth + 1)) (h, max x.2 (depth + 1))
      else (h, x.2)

/-- The deepest nesting of destructors when variable `k` of the program is destroyed. 0: no object is destroyed.
E.g. the destructors of the members in goost/kuznyechik/StCTREncrypted.cpp:29-33. -/
def State.dropDepth (order : List Ptr → List Ptr) (s : State) (k : Nat) : Nat :=
  match s.held[k]? with
  | none => 0
  | some p => (Heap.releaseIn order (p + 1) 0 (s.heap, 0) p).2

/-- A program that goes through a counter mode stream and holds one iterator at a time. Variables: the words, the
key, the stream, the iterator. The user's program; the functions are those of
goost/kuznyechik/StCTREncrypted.cpp:58-74. -/
def ctrOps (data : List W64) (n : Nat) : List Op :=
  [.stMemory data, .other [], .stCtr 0 1, .iter 2] ++ (List.replicate n [.next 3, .drop 3]).flatten

/-- `block = make_shared<BlkXored>(block, make_shared<BlkRaw>(v))`: variable 0 is the key, variable 1 is `block`
(goost/magma/Imit.cpp:91, goost/kuznyechik/Imit.cpp:58). -/
def xorOps : List Op := [.other [], .other [1, 2], .drop 1, .drop 1]

/-- An object with `block` and the key as members takes the place of `block`
(goost/magma/BlkEncrypted.cpp:17-29, goost/kuznyechik/Imit.cpp:57-60). -/
def keyOps : List Op := [.other [1, 0], .drop 1]

/-- An object with `block` as its only member takes the place of `block` (goost/magma/BlkEncrypted.cpp:14-16). -/
def wrapOps : List Op := [.other [1], .drop 1]

/-- `make_shared<BlkEncrypted>(block, key)` of the 64-bit cipher (goost/magma/BlkEncrypted.cpp:14-33): three
`BlkForwarded`, a `BlkBackwarded`, a `BlkSwapped` and the `BlkEncrypted` itself. -/
def encryptOps : List Op := keyOps ++ keyOps ++ keyOps ++ keyOps ++ wrapOps ++ wrapOps

/-- The blocks that `Imit::value` of the 64-bit cipher makes for `n + 1` blocks of data, up to the last
`BlkXored` of the loop (goost/magma/Imit.cpp:79-100). The pieces of the final key come later and are not part of
the chain. -/
def macOps (n : Nat) : List Op :=
  [.other [], .other []] ++ (List.replicate n (xorOps ++ encryptOps)).flatten ++ xorOps

/-- The same for the 128-bit cipher (goost/kuznyechik/Imit.cpp:51-69). -/
def kuzMacOps (n : Nat) : List Op :=
  [.other [], .other []] ++ (List.replicate n (xorOps ++ keyOps)).flatten ++ xorOps

/-- A sink below (an object without members) and `l` sinks of goost on top of it with one key. Variables: the
key, the topmost sink. Sources are built in the same way. The user's program; the sinks are e.g.
goost/magma/CFBSink.h:34-40. -/
def sinkOps (l : Nat) : List Op := [.other [], .other []] ++ (List.replicate l keyOps).flatten

/-- A write through `l` sinks: the sink below returns a new sink, every sink of goost makes a new one with it and
the key (goost/magma/ECBSink.cpp:42, goost/magma/CFBSink.cpp:62, goost/gost89/CFBSink.cpp:61); then the user gives up
the old sink. A read through `l` sources makes the same objects (goost/magma/CFBSource.cpp:76). -/
def writeOps (l : Nat) : List Op :=
  [.other []] ++ (List.replicate l [.other [2, 0], .drop 2]).flatten ++ [.drop 1]

end Goost.Mem
