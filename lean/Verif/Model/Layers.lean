import Verif.Model.Gost89
/-
Sinks and sources stacked on each other to any depth, as a user composes them: every layer is an
object of one of the three stream classes whose underlying sink (source) is the next layer. The
functions below only call the modelled methods; they correspond to no file of /repo.
-/
namespace Goost.Layers
open Goost.Magma

variable {W σ τ : Type}

/-- One layer with the arguments of its constructor: `ECBSink(sink, key)`
(goost/magma/ECBSink.cpp:16-20), `CFBSink(sink, key, ivl, ivr)` (goost/magma/CFBSink.cpp:27-34),
`gost89::CFBSink(sink, key, iv)` (goost/gost89/CFBSink.cpp:29-35), and the sources with the same
arguments. -/
inductive Layer where
  | ecb (key : Key)
  | cfb (key : Key) (ivl ivr : W64)
  | gostCfb (key : Key) (iv : W64)

/-- The type of the outermost object of a stack of sinks; the first layer is the outermost. The objects
are those of goost/magma/ECBSink.h, goost/magma/CFBSink.h, goost/gost89/CFBSink.h; each holds the sink
below. -/
def Sinks (τ : Type) : List Layer → Type
  | [] => τ
  | .ecb _ :: ls => ECBSink (Sinks τ ls)
  | .cfb _ _ _ :: ls => CFBSink (Sinks τ ls)
  | .gostCfb _ _ :: ls => Gost89.CFBSink (Sinks τ ls)

/-- Constructs the objects over the sink `s`. The objects are those of goost/magma/ECBSink.h,
goost/magma/CFBSink.h, goost/gost89/CFBSink.h; each holds the sink below. -/
def Sinks.new (s : τ) : (ls : List Layer) → Sinks τ ls
  | [] => s
  | .ecb key :: ls => (⟨Sinks.new s ls, key⟩ : ECBSink (Sinks τ ls))
  | .cfb key ivl ivr :: ls => CFBSink.new (Sinks.new s ls) key ivl ivr
  | .gostCfb key iv :: ls => Gost89.CFBSink.new (Sinks.new s ls) key iv

/-- `write` of the outermost object. goost/magma/ECBSink.cpp, goost/magma/CFBSink.cpp,
goost/gost89/CFBSink.cpp: each `write` calls that of the sink below. -/
def Sinks.write (m : Machine) (wr : τ → List Byte → Io W τ) :
    (ls : List Layer) → Sinks τ ls → List Byte → Io W (Sinks τ ls)
  | [] => wr
  | .ecb _ :: ls => ECBSink.write (Sinks.write m wr ls)
  | .cfb _ _ _ :: ls => CFBSink.write m (Sinks.write m wr ls)
  | .gostCfb _ _ :: ls => Gost89.CFBSink.write m (Sinks.write m wr ls)

/-- Finalizes the layers from the outermost to the innermost: `finalize` of each class returns the
sink below it. goost/magma/CFBSink.cpp:65-81, goost/gost89/CFBSink.cpp, goost/magma/ECBSink.cpp. -/
def Sinks.finalize (m : Machine) (wr : τ → List Byte → Io W τ) :
    (ls : List Layer) → Sinks τ ls → Io W τ
  | [], t => pure t
  | .ecb _ :: ls, t => ECBSink.finalize t >>= Sinks.finalize m wr ls
  | .cfb _ _ _ :: ls, t => CFBSink.finalize m (Sinks.write m wr ls) t >>= Sinks.finalize m wr ls
  | .gostCfb _ _ :: ls, t =>
    Gost89.CFBSink.finalize m (Sinks.write m wr ls) t >>= Sinks.finalize m wr ls

/-- The type of the outermost object of a stack of sources. The objects are those of
goost/magma/ECBSource.h, goost/magma/CFBSource.h, goost/gost89/CFBSource.h; each holds the source below. -/
def Sources (σ : Type) : List Layer → Type
  | [] => σ
  | .ecb _ :: ls => ECBSource (Sources σ ls)
  | .cfb _ _ _ :: ls => CFBSource (Sources σ ls)
  | .gostCfb _ _ :: ls => Gost89.CFBSource (Sources σ ls)

/-- Constructs the objects over the source `s`. The objects are those of goost/magma/ECBSource.h,
goost/magma/CFBSource.h, goost/gost89/CFBSource.h; each holds the source below. -/
def Sources.new (s : σ) : (ls : List Layer) → Sources σ ls
  | [] => s
  | .ecb key :: ls => ECBSource.ecb (Sources.new s ls) key
  | .cfb key ivl ivr :: ls => CFBSource.new (Sources.new s ls) key ivl ivr
  | .gostCfb key iv :: ls => Gost89.CFBSource.new (Sources.new s ls) key iv

/-- `read` of the outermost object. goost/magma/ECBSource.cpp, goost/magma/CFBSource.cpp,
goost/gost89/CFBSource.cpp: each `read` calls that of the source below. -/
def Sources.read (m : Machine) (rd : σ → Nat → Io W (List Byte × σ)) :
    (ls : List Layer) → Sources σ ls → Nat → Io W (List Byte × Sources σ ls)
  | [] => rd
  | .ecb _ :: ls => ECBSource.read m (Sources.read m rd ls)
  | .cfb _ _ _ :: ls => CFBSource.read m (Sources.read m rd ls)
  | .gostCfb _ _ :: ls => Gost89.CFBSource.read m (Sources.read m rd ls)

end Goost.Layers
