import Verif.Model.MagmaModes
/-
Containers of the user. The library has no class that implements `Container`; whoever uses the second
constructor of `ECBSource` writes one. Its three functions are virtual calls that may read files, keep
state and throw.
-/
namespace Goost.Magma
open Goost

variable {W σ : Type}

/-- An implementation of `Container` (goost/magma/Container.h:15-24): what its functions do with the
state `W` of the outside world. -/
structure UserContainer (W : Type) where
  key : Io W (List Byte)
  mask : Io W (List Byte)
  sbox : Io W (List Byte)

/-- `ECBSource::makeKey` with a container of the user (goost/magma/ECBSource.cpp:59-74). `container` is
not null. The code never calls `mask()`. -/
def ECBSource.makeKeyUser (container : UserContainer W) : Io W Key := do
  let ik ← container.key
  let kb ← Io.lift (copyInto 32 ik)
  let k0 ← Io.lift (load32 kb 0)
  let k1 ← Io.lift (load32 kb 4)
  let k2 ← Io.lift (load32 kb 8)
  let k3 ← Io.lift (load32 kb 12)
  let k4 ← Io.lift (load32 kb 16)
  let k5 ← Io.lift (load32 kb 20)
  let k6 ← Io.lift (load32 kb 24)
  let k7 ← Io.lift (load32 kb 28)
  let key := [k0, k1, k2, k3, k4, k5, k6, k7].map htonl
  let is ← container.sbox
  let sbox ← Io.lift (copyInto 64 is)
  return LazyKey.ofNative key (SboxTwisted (SboxByte sbox))

/-- `ECBSource(source, container)` with a container of the user (goost/magma/ECBSource.cpp:28-33). -/
def ECBSource.ofUserContainer (source : σ) (container : UserContainer W) : Io W (ECBSource σ) := do
  let key ← ECBSource.makeKeyUser container
  return .ecb source key

end Goost.Magma
