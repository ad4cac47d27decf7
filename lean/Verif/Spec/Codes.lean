import Verif.Spec.Streams
import Verif.Model.MagmaModes
/-
Specification: the authentication code of a message, whatever source it comes from.
-/
namespace Spec
open Goost

/-- `v` is the authentication code of the message `d` under `key`: `value()` of an `Imit` object returns
it for every source that supplies `d`, given enough steps (the machine is that of the compilers in
use: see C33). -/
def MagmaCode (key : Magma.Key) (d : List Byte) (v : W32 × W32) : Prop :=
  ∀ (W σ : Type) (rd : σ → Nat → Io W (List Byte × σ)) (s : σ) (w : W) (fuel : Nat),
    SuppliesBlocks rd s w d → d.length ≤ 8 * fuel →
      (Magma.Imit.value .x86 rd fuel s (some key) w).1 = .ok v

end Spec
