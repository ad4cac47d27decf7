import Verif.Model.KuzStream
/-
Lifetime of objects: the classes of goost hold each other by `std::shared_ptr` and `std::unique_ptr`,
and in one place by `std::weak_ptr`. This file models the objects, their reference counts and what a
program can do with pointers to them.
-/
namespace Goost.Mem

/-- A pointer to an object: the number of the object in the order of creation. -/
scoped notation "Ptr" => Nat

/-- An object and its members that are pointers. The classes of kuznyechik streams are distinguished,
because of the `weak_ptr` in one of them. All other classes (blocks, keys, key data, substitutions,
sources, sinks, Imit) hold their members by `shared_ptr` or `unique_ptr` and never change them (all
members are `const`; the caches, goost/kuznyechik/BlkCached.cpp:12-30 and
goost/magma/KeyCachedData.cpp, change numbers only). A `unique_ptr` is taken as a `shared_ptr` that is
not copied. -/
inductive Obj where
  /-- `StMemory` (goost/kuznyechik/StMemory.h) -/
  | stMemory (data : List W64)
  /-- `StCTREncrypted` (goost/kuznyechik/StCTREncrypted.h:28-32) -/
  | stCtr (stream key : Ptr)
  /-- `ItMemory` (goost/kuznyechik/StMemory.cpp:16-32); `stream` is the `weak_ptr` -/
  | itMemory (stream : Ptr) (offset : Nat) (data : Ptr)
  /-- `ItCTREncrypted` (goost/kuznyechik/StCTREncrypted.cpp:16-33); `iter` may be null -/
  | itCtr (iter : Option Ptr) (key ctr : Ptr)
  /-- an object of any other class -/
  | other (members : List Ptr)
  deriving DecidableEq, Repr

/-- The pointers that keep an object alive: all but the `weak_ptr`
(goost/kuznyechik/StMemory.cpp:29). -/
def Obj.members : Obj → List Ptr
  | .stMemory _ => []
  | .stCtr s k => [s, k]
  | .itMemory _ _ d => [d]
  | .itCtr i k c => i.toList ++ [k, c]
  | .other ms => ms

/-- An object with its reference count. It is destroyed when the count becomes 0. Made by `make_shared`,
e.g. goost/magma/BlkEncrypted.cpp:16-19. -/
structure Cell where
  obj : Obj
  count : Nat
  deriving DecidableEq, Repr

/-- All objects made so far, also the destroyed ones. Made by `make_shared`, e.g.
goost/magma/BlkEncrypted.cpp:16-19. -/
abbrev Heap := List Cell

/-- The reference count of an object; 0 if there is no such object. Of a `shared_ptr`, e.g.
goost/magma/BlkEncrypted.cpp:16-19. -/
def Heap.count (h : Heap) (p : Ptr) : Nat := (h[p]?.map Cell.count).getD 0

/-- Copying a `shared_ptr` (C++ library). E.g. in the constructor goost/magma/LazyKey.cpp:35-38. -/
def Heap.incr (h : Heap) (p : Ptr) : Heap := h.modify p fun c => { c with count := c.count + 1 }

/-- Destroying a `shared_ptr` (C++ library): the count goes down by one; at 0 the object is destroyed,
and with it its members, in turn. `fuel` bounds the depth. E.g. the members of goost/magma/LazyKey.h. -/
def Heap.release : Nat → Heap → Ptr → Heap
  | 0, h, _ => h
  | fuel + 1, h, p =>
    match h[p]? with
    | none => h
    | some c =>
      let h' := h.modify p fun c => { c with count := c.count - 1 }
      if c.count - 1 = 0 then c.obj.members.foldl (Heap.release fuel) h' else h'

/-- `make_shared` (C++ library): the constructor copies its arguments into the members. Returns the new
pointer. E.g. goost/magma/BlkEncrypted.cpp:16-19. -/
def Heap.alloc (h : Heap) (o : Obj) : Heap × Ptr :=
  (o.members.foldl Heap.incr h ++ [⟨o, 1⟩], h.length)

/-- Going through a pointer: undefined if the object has been destroyed. E.g. goost/magma/LazyKey.cpp:42. -/
def Heap.load (h : Heap) (p : Ptr) : Exec Obj :=
  match h[p]? with
  | none => .ub .useAfterFree
  | some c => if c.count = 0 then .ub .useAfterFree else .ok c.obj

/-- `StMemory::next_iter` (goost/kuznyechik/StMemory.cpp:76-86) of the stream `s`: a block and an
iterator are made; the local pointer to the block is destroyed. -/
def nextIter (h : Heap) (s : Ptr) (data : List W64) (offset : Nat) : Exec (Option Ptr × Heap) := do
  match ← Kuz.StMemory.nextIter data offset with
  | none => return (none, h)
  | some _ =>
    let (h, b) := h.alloc (.other [])
    let (h, i) := h.alloc (.itMemory s offset b)
    return (some i, h.release (b + 1) b)

/-- `iter()` of `StMemory` and `StCTREncrypted` (goost/kuznyechik/StMemory.cpp:71-74,
goost/kuznyechik/StCTREncrypted.cpp:71-74). The pointers to temporary objects are destroyed. `fuel`
bounds the number of layers. -/
def iter : Nat → Heap → Ptr → Exec (Option Ptr × Heap)
  | 0, _, _ => .diverge
  | fuel + 1, h, p => do
    match ← h.load p with
    | .stMemory data => nextIter h p data 0
    | .stCtr s k =>
      let (i, h) ← iter fuel h s
      let (h, c) := h.alloc (.other [])
      let (h, j) := h.alloc (.itCtr i k c)
      let h := h.release (c + 1) c
      let h := i.toList.foldl (fun h i => h.release (i + 1) i) h
      return (some j, h)
    | _ => return (none, h)

/-- `next()` of `ItMemory` and `ItCTREncrypted` (goost/kuznyechik/StMemory.cpp:60-64,
goost/kuznyechik/StCTREncrypted.cpp:58-61). `lock()` gives null if the stream has been destroyed. -/
def next : Nat → Heap → Ptr → Exec (Option Ptr × Heap)
  | 0, _, _ => .diverge
  | fuel + 1, h, p => do
    match ← h.load p with
    | .itMemory s offset _ =>
      if h.count s = 0 then .ub .nullDeref
      else
        match ← h.load s with
        | .stMemory data => nextIter h s data (offset + 16)
        | _ => return (none, h)
    | .itCtr none _ _ => .ub .nullDeref
    | .itCtr (some i) k c =>
      let (n, h) ← next fuel h i
      let (h, c') := h.alloc (.other [c])
      let (h, j) := h.alloc (.itCtr n k c')
      let h := h.release (c' + 1) c'
      let h := n.toList.foldl (fun h i => h.release (i + 1) i) h
      return (some j, h)
    | _ => return (none, h)

/-- `last()` (goost/kuznyechik/StMemory.cpp:50-53, goost/kuznyechik/StCTREncrypted.cpp:48-51): the
iterator that `ItMemory::last` makes is destroyed. -/
def last : Nat → Heap → Ptr → Exec (Bool × Heap)
  | 0, _, _ => .diverge
  | fuel + 1, h, p => do
    match ← h.load p with
    | .itMemory _ _ _ =>
      let (n, h) ← next (fuel + 1) h p
      return (n.isNone, n.toList.foldl (fun h i => h.release (i + 1) i) h)
    | .itCtr none _ _ => .ub .nullDeref
    | .itCtr (some i) _ _ => last fuel h i
    | _ => return (true, h)

/-- The pointers that the methods of an object go through: `value()` of an iterator (both kinds are
blocks, goost/kuznyechik/Iterator.h:14), goost/kuznyechik/StMemory.cpp:45-48 and
goost/kuznyechik/StCTREncrypted.cpp:43-46; for a stream those that `iter()` passes on or goes through;
for other classes any of them. A null `iter` is not among them. -/
def Obj.uses : Obj → List Ptr
  | .stMemory _ => []
  | .stCtr stream key => [stream, key]
  | .itMemory _ _ data => [data]
  | .itCtr (some iter) key ctr => [iter, key, ctr]
  | .itCtr none key ctr => [key, ctr]
  | .other members => members

/-- `value()` of an object, and in turn of all that it goes through (values themselves are left out);
`fuel` bounds the depth. A null iterator is dereferenced
(goost/kuznyechik/StCTREncrypted.cpp:45). -/
def value : Nat → Heap → Ptr → Exec Unit
  | 0, _, _ => .diverge
  | fuel + 1, h, p => do
    match ← h.load p with
    | .itCtr none _ _ => .ub .nullDeref
    | o => o.uses.foldlM (fun _ q => value fuel h q) ()

/-- The objects and the pointer variables of the program, those of the user and the local ones of
functions that are running. The user's program; /repo has no code for it. Local variables: e.g.
goost/magma/CFBSource.cpp:38. -/
structure State where
  heap : Heap
  held : List Ptr
  deriving DecidableEq, Repr

/-- What a program can do. Numbers are numbers of variables. The user's program; the objects are those of
goost/magma, goost/gost89 and goost/kuznyechik, e.g. goost/kuznyechik/StMemory.cpp:60-80. -/
inductive Op where
  /-- make a stream of words in memory -/
  | stMemory (data : List W64)
  /-- make a counter mode stream from a stream and a key -/
  | stCtr (stream key : Nat)
  /-- make an object of another class from the pointers in some variables -/
  | other (members : List Nat)
  /-- copy a variable -/
  | copy (k : Nat)
  /-- copy member `j` of the object that variable `k` points to (as methods do with members of
  `*this`, for example `key` in goost/magma/CFBSink.cpp:62) -/
  | member (k j : Nat)
  /-- destroy a variable -/
  | drop (k : Nat)
  /-- call `iter()` on a stream -/
  | iter (k : Nat)
  /-- call `next()` on an iterator -/
  | next (k : Nat)
  /-- call `last()` on an iterator -/
  | last (k : Nat)
  /-- call `value()` on a block, iterator, …, which may go through everything that it leads to -/
  | value (k : Nat)
  deriving DecidableEq, Repr

/-- Whether the object is a `Stream` (goost/kuznyechik/StMemory.h:16-19, goost/kuznyechik/StCTREncrypted.h). -/
def Obj.isStream : Obj → Bool
  | .stMemory _ | .stCtr _ _ => true
  | _ => false

/-- One operation. An operation on a variable that does not exist, or on an object of the wrong class
(which would not compile), does nothing. The objects are those of e.g.
goost/kuznyechik/StMemory.cpp:60-80. -/
def State.step (s : State) : Op → Exec State
  | .stMemory data =>
    let (h, p) := s.heap.alloc (.stMemory data)
    .ok ⟨h, s.held ++ [p]⟩
  | .stCtr a b =>
    match s.held[a]?, s.held[b]? with
    | some p, some q =>
      if ((s.heap[p]?.map fun c => c.obj.isStream).getD false) then
        let (h, r) := s.heap.alloc (.stCtr p q)
        .ok ⟨h, s.held ++ [r]⟩
      else .ok s
    | _, _ => .ok s
  | .other ks =>
    let (h, p) := s.heap.alloc (.other (ks.filterMap fun k => s.held[k]?))
    .ok ⟨h, s.held ++ [p]⟩
  | .copy k =>
    match s.held[k]? with
    | none => .ok s
    | some p => .ok ⟨s.heap.incr p, s.held ++ [p]⟩
  | .member k j =>
    match s.held[k]? with
    | none => .ok s
    | some p => do
      let o ← s.heap.load p
      match o.members[j]? with
      | none => return s
      | some q => return ⟨s.heap.incr q, s.held ++ [q]⟩
  | .drop k =>
    match s.held[k]? with
    | none => .ok s
    | some p => .ok ⟨s.heap.release (p + 1) p, s.held.eraseIdx k⟩
  | .iter k =>
    match s.held[k]? with
    | none => .ok s
    | some p => do
      let (i, h) ← Mem.iter (p + 1) s.heap p
      return ⟨h, s.held ++ i.toList⟩
  | .next k =>
    match s.held[k]? with
    | none => .ok s
    | some p => do
      let (i, h) ← Mem.next (p + 1) s.heap p
      return ⟨h, s.held ++ i.toList⟩
  | .last k =>
    match s.held[k]? with
    | none => .ok s
    | some p => do
      let (_, h) ← Mem.last (p + 1) s.heap p
      return ⟨h, s.held⟩
  | .value k =>
    match s.held[k]? with
    | none => .ok s
    | some p => do
      Mem.value (p + 1) s.heap p
      return s

/-- A history of operations. The user's program, as `Op` (goost/kuznyechik/StMemory.cpp:60-80). -/
def State.run : State → List Op → Exec State
  | s, [] => .ok s
  | s, op :: ops => do
    let s ← s.step op
    State.run s ops

/-- Nothing made yet. The user's program, as `State` (goost/kuznyechik/StMemory.cpp:66-69). -/
def State.empty : State := ⟨[], []⟩

end Goost.Mem
