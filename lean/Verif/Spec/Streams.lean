import Verif.Model.Exec
/-
Specification: what it means that a source supplies a byte string, that a sink collects what is
written, and that a byte string is written in pieces. Sources and sinks are arbitrary state machines
acting on an arbitrary world.
-/
namespace Spec
open Goost
variable {W σ τ : Type}

/-- In the world `w` the source `s` supplies exactly the bytes `d` to a caller who asks for 8 bytes at
a time: every `read(8)` succeeds and returns the next 8 bytes, or what is left; the bytes of the
following reads come after those. (Its position may be part of `s`, as in the test sources of the
repository, or part of the world, as for a file.) -/
def SuppliesBlocks (rd : σ → Nat → Io W (List Byte × σ)) (s : σ) (w : W) (d : List Byte) : Prop :=
  ∃ R : σ → W → List Byte → Prop, R s w d ∧
    ∀ s w d, R s w d → ∃ s' w', rd s 8 w = (.ok (d.take 8, s'), w') ∧ R s' w' (d.drop 8)

/-- In the world `w` the source `s` supplies exactly the bytes `d`, whatever sizes are asked for:
every `read(n)` succeeds and returns the next `n` bytes, or what is left. -/
def Supplies (rd : σ → Nat → Io W (List Byte × σ)) (s : σ) (w : W) (d : List Byte) : Prop :=
  ∃ R : σ → W → List Byte → Prop, R s w d ∧
    ∀ s w d, R s w d → ∀ n, ∃ s' w', rd s n w = (.ok (d.take n, s'), w') ∧ R s' w' (d.drop n)

/-- A class of sinks that never fail and append everything that is written to their content (the
content may be kept in the sink or in the world). -/
def Collects (wr : τ → List Byte → Io W τ) (content : τ → W → List Byte) : Prop :=
  ∀ s w x, ∃ s' w', wr s x w = (.ok s', w') ∧ content s' w' = content s w ++ x

/-- Writes the pieces one after the other, each to the sink returned by the previous write. -/
def writeAll (wr : τ → List Byte → Io W τ) (s : τ) (pieces : List (List Byte)) : Io W τ :=
  pieces.foldlM wr s

/-- Reads with the sizes `ns` one after the other, each from the source returned by the previous
read; returns the pieces read. -/
def readAll (rd : σ → Nat → Io W (List Byte × σ)) (s : σ) : List Nat → Io W (List (List Byte) × σ)
  | [] => pure ([], s)
  | n :: ns => do
    let (x, s) ← rd s n
    let (xs, s) ← readAll rd s ns
    pure (x :: xs, s)

/-- A sink in memory: the state is the content. Used in examples. -/
def memWrite (s x : List Byte) : Io W (List Byte) := pure (s ++ x)

/-- A source in memory: the state is what is left. Used in examples. -/
def memRead (s : List Byte) (n : Nat) : Io W (List Byte × List Byte) := pure (s.take n, s.drop n)

/-- A sink that appends to a file; the file is the world. -/
def fileWrite (_ : Unit) (x : List Byte) : Io (List Byte) Unit := fun file => (.ok (), file ++ x)

/-- A source that reads a file, which may grow; the file is the world, the state the position. -/
def fileRead (pos n : Nat) : Io (List Byte) (List Byte × Nat) := fun file =>
  (.ok ((file.drop pos).take n, pos + ((file.drop pos).take n).length), file)

end Spec
