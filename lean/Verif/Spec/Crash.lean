import Verif.Spec.Streams
/-
Specification: a device that stops working at some byte, as a disk does when the machine loses power.
-/
namespace Spec
open Goost

/-- A device: the bytes that are on it, and how many more will reach it before it stops. -/
structure Disk where
  content : List Byte
  left : Nat
  deriving DecidableEq, Repr

/-- An empty device that stops after `k` bytes. -/
def Disk.crashingAt (k : Nat) : Disk := ⟨[], k⟩

/-- A sink over the device. The write during which the device stops may be torn: a part of its bytes is
on the device. Nothing reaches the device afterwards. -/
def diskWrite (_ : Unit) (x : List Byte) : Io Disk Unit := fun d =>
  if x.length ≤ d.left then (.ok (), ⟨d.content ++ x, d.left - x.length⟩)
  else (.throw (.user 9), ⟨d.content ++ x.take d.left, 0⟩)

end Spec
