import Verif.Model.Gost89
import Verif.Model.KuzStream
import Verif.Spec.Modes
import Verif.Spec.Magma
import Verif.Spec.Kuznyechik
import Verif.Spec.Streams
import Verif.Props.KuzStream
/-
Test vectors, evaluated by the kernel. These are tests of the model and of the specifications, not
proofs of properties: the standards' own examples (GOST R 34.12-2015 and 34.13-2015, annex A) and the
vectors of /repo/test.
-/
namespace Goost.Tests
open Spec Spec.Modes

/-! ### GOST R 34.12-2015, A.2 and 34.13-2015, A.2 (64-bit blocks) -/

/-- The key of A.2. -/
def K64 : BitVec 256 := 0xffeeddccbbaa99887766554433221100f0f1f2f3f4f5f6f7f8f9fafbfcfdfeff

/-- The same as text (test/magma/*.cpp). -/
def key64 : Magma.Key :=
  Magma.LazyKey.ofString "ffeeddccbbaa99887766554433221100f0f1f2f3f4f5f6f7f8f9fafbfcfdfeff".toList

/-- The message of 34.13-2015, A.2. -/
def message64 : List (BitVec 64) :=
  [0x92def06b3c130a59, 0xdb54c704f8189d20, 0x4a98fb2e67a8024c, 0x8912409b17b57e41]

/-- What `Hex64Source` (test/Hex64Source.cpp) delivers for it. -/
def bytes64 : List Byte := unblocks64 message64

-- 34.12-2015, A.2.1: t
example : Spec.Magma.t Spec.Magma.pi 0xfdb97531 = 0x2a196f34 ∧
    Spec.Magma.t Spec.Magma.pi 0x2a196f34 = 0xebd9f03a ∧
    Spec.Magma.t Spec.Magma.pi 0xebd9f03a = 0xb039bb3d ∧
    Spec.Magma.t Spec.Magma.pi 0xb039bb3d = 0x68695433 := by decide +kernel
-- A.2.2: g
example : Spec.Magma.g Spec.Magma.pi 0x87654321 0xfedcba98 = 0xfdcbc20c ∧
    Spec.Magma.g Spec.Magma.pi 0xfdcbc20c 0x87654321 = 0x7e791a4b ∧
    Spec.Magma.g Spec.Magma.pi 0x7e791a4b 0xfdcbc20c = 0xc76549ec ∧
    Spec.Magma.g Spec.Magma.pi 0xc76549ec 0x7e791a4b = 0x9791c849 := by decide +kernel
-- A.2.4, A.2.5: the cipher
example : Spec.Magma.enc K64 0xfedcba9876543210 = 0x4ee901e5c2d8ca3d := by decide +kernel
example : Spec.Magma.dec K64 0x4ee901e5c2d8ca3d = 0xfedcba9876543210 := by decide +kernel
example : (Magma.BlkEncrypted (.raw 0x76543210 0xfedcba98) key64).value .iso =
    .ok (0xc2d8ca3d, 0x4ee901e5) := by decide +kernel
-- 34.13-2015, A.2.1: ECB
example : ecb (Spec.Magma.enc K64) message64 =
    [0x2b073f0494f372a0, 0xde70e715d3556e48, 0x11d8d9e9eacfbc1e, 0x7c68260996c67efb] := by
  decide +kernel
-- A.2.4: CFB
example : cfbEnc (Spec.Magma.enc K64) [0x1234567890abcdef, 0x234567890abcdef1] message64 =
    [0xdb37e0e266903c83, 0x0d46644c1f9a089c, 0x24bdd2035315d38b, 0xbcc0321421075505] := by
  decide +kernel
-- A.2.6: MAC
example : (omac (Spec.Magma.enc K64) (macK1 (Spec.Magma.enc K64) 0x1b) (message64.take 3)
    (message64.getD 3 0)).extractLsb' 32 32 = 0x154e7210 := by decide +kernel

/-- The bytes that a sink over a list has got. -/
def written (x : Exec (List Byte) × Unit) : Option (List Byte) :=
  match x.1 with
  | .ok d => some d
  | _ => none

-- test/magma/ECBSinkTest.cpp, CFBSinkTest.cpp, ImitTest.cpp, run in the model
example : (match Magma.ECBSink.write (W := Unit) memWrite ⟨[], key64⟩ bytes64 () with
    | (.ok t, _) => some t.sink
    | _ => none) = some (unblocks64
      [0x2b073f0494f372a0, 0xde70e715d3556e48, 0x11d8d9e9eacfbc1e, 0x7c68260996c67efb]) := by
  decide +kernel
example : (match Magma.CFBSink.write .iso (W := Unit) memWrite
      (.new [] key64 0x1234567890abcdef 0x234567890abcdef1) bytes64 () with
    | (.ok t, _) => some t.sink
    | _ => none) = some (unblocks64
      [0xdb37e0e266903c83, 0x0d46644c1f9a089c, 0x24bdd2035315d38b, 0xbcc0321421075505]) := by
  decide +kernel
example : (match Magma.CFBSource.read .iso (W := Unit) memRead
      (.new (unblocks64 [0xdb37e0e266903c83, 0x0d46644c1f9a089c, 0x24bdd2035315d38b,
        0xbcc0321421075505]) key64 0x1234567890abcdef 0x234567890abcdef1) 32 () with
    | (.ok (x, _), _) => some x
    | _ => none) = some bytes64 := by decide +kernel
example : (Magma.Imit.value .x86 (W := Unit) memRead 10 bytes64 (some key64) ()).1 =
    .ok (0x2030c5bb, 0x154e7210) := by decide +kernel

/-! ### test/gost89 -/

/-- The substitution table of test/gost89/TestSbox.cpp. -/
def gostTable : List Byte :=
  [0xc4, 0xed, 0x83, 0xc9, 0x92, 0x98, 0xfe, 0x6b, 0xff, 0xbe, 0x65, 0x5c, 0xe5, 0x2c, 0xb9, 0x20,
   0x89, 0x57, 0x16, 0xb3, 0x11, 0xf3, 0x98, 0x06, 0x30, 0x79, 0xc0, 0x97, 0xa8, 0x1a, 0x5d, 0xd5,
   0x2e, 0x01, 0xda, 0x34, 0x73, 0xd5, 0x3b, 0xe8, 0x4b, 0xc2, 0x77, 0x7e, 0xdc, 0x64, 0xac, 0xaf,
   0x6d, 0xa6, 0x02, 0xf1, 0x07, 0x4f, 0xe1, 0x4a, 0xba, 0x30, 0x2f, 0x12, 0x56, 0x8b, 0x44, 0x8d]

/-- The key of test/gost89/BlkEncryptedTest.cpp. -/
def gostKey : Magma.Key := Magma.LazyKey.ofNative [0xE0F67504, 0xFAFB3850, 0x90C3C7D2, 0x3DCAB3ED,
  0x42124715, 0x8A1EAE91, 0x9ECD792F, 0xBDEFBCD2] (Magma.SboxTwisted (Magma.SboxByte gostTable))

-- test/gost89/CFBSinkTest.cpp
example : (match Gost89.CFBSink.write .iso (W := Unit) memWrite (.new [] gostKey 0x47E3A8FFC3A7802A)
      (unblocks64 [0x33333333CCCCCCCC, 0xCCCCCCCC33333333]) () with
    | (.ok t, _) => some t.sink
    | _ => none) = some (unblocks64 [0x4B64BD1043224C3B, 0x0FAA6CD95548EB99]) := by decide +kernel

/-! ### GOST R 34.12-2015, A.1 and 34.13-2015, A.1 (128-bit blocks) -/

/-- The key of A.1. -/
def K128 : BitVec 256 := 0x8899aabbccddeeff0011223344556677fedcba98765432100123456789abcdef

-- 34.12-2015, A.1.1: S
example : Spec.Kuz.S 0xffeeddccbbaa99881122334455667700 = 0xb66cd8887d38e8d77765aeea0c9a7efc := by
  decide +kernel
-- A.1.2: R
example : Spec.Kuz.R 0x00000000000000000000000000000100 = 0x94000000000000000000000000000001 ∧
    Spec.Kuz.R 0x94000000000000000000000000000001 = 0xa5940000000000000000000000000000 := by
  decide +kernel
-- A.1.3: L
example : Spec.Kuz.L 0x64a59400000000000000000000000000 = 0xd456584dd0e3e84cc3166e4b7fa2890d := by
  decide +kernel
theorem pair0 : Spec.Kuz.keyPair K128 0 =
    (0x8899aabbccddeeff0011223344556677, 0xfedcba98765432100123456789abcdef) := by decide +kernel
theorem step1 : Spec.Kuz.F (Spec.Kuz.C 1)
    (0x8899aabbccddeeff0011223344556677, 0xfedcba98765432100123456789abcdef) =
    (0xc3d5fa01ebe36f7a9374427ad7ca8949, 0x8899aabbccddeeff0011223344556677) := by decide +kernel
theorem step2 : Spec.Kuz.F (Spec.Kuz.C 2)
    (0xc3d5fa01ebe36f7a9374427ad7ca8949, 0x8899aabbccddeeff0011223344556677) =
    (0x37777748e56453377d5e262d90903f87, 0xc3d5fa01ebe36f7a9374427ad7ca8949) := by decide +kernel
theorem step3 : Spec.Kuz.F (Spec.Kuz.C 3)
    (0x37777748e56453377d5e262d90903f87, 0xc3d5fa01ebe36f7a9374427ad7ca8949) =
    (0xf9eae5f29b2815e31f11ac5d9c29fb01, 0x37777748e56453377d5e262d90903f87) := by decide +kernel
theorem step4 : Spec.Kuz.F (Spec.Kuz.C 4)
    (0xf9eae5f29b2815e31f11ac5d9c29fb01, 0x37777748e56453377d5e262d90903f87) =
    (0xe980089683d00d4be37dd3434699b98f, 0xf9eae5f29b2815e31f11ac5d9c29fb01) := by decide +kernel
theorem step5 : Spec.Kuz.F (Spec.Kuz.C 5)
    (0xe980089683d00d4be37dd3434699b98f, 0xf9eae5f29b2815e31f11ac5d9c29fb01) =
    (0xb7bd70acea4460714f4ebe13835cf004, 0xe980089683d00d4be37dd3434699b98f) := by decide +kernel
theorem step6 : Spec.Kuz.F (Spec.Kuz.C 6)
    (0xb7bd70acea4460714f4ebe13835cf004, 0xe980089683d00d4be37dd3434699b98f) =
    (0x1a46ea1cf6ccd236467287df93fdf974, 0xb7bd70acea4460714f4ebe13835cf004) := by decide +kernel
theorem step7 : Spec.Kuz.F (Spec.Kuz.C 7)
    (0x1a46ea1cf6ccd236467287df93fdf974, 0xb7bd70acea4460714f4ebe13835cf004) =
    (0x3d4553d8e9cfec6815ebadc40a9ffd04, 0x1a46ea1cf6ccd236467287df93fdf974) := by decide +kernel
theorem step8 : Spec.Kuz.F (Spec.Kuz.C 8)
    (0x3d4553d8e9cfec6815ebadc40a9ffd04, 0x1a46ea1cf6ccd236467287df93fdf974) =
    (0xdb31485315694343228d6aef8cc78c44, 0x3d4553d8e9cfec6815ebadc40a9ffd04) := by decide +kernel
theorem pair1 : Spec.Kuz.keyPair K128 1 =
    (0xdb31485315694343228d6aef8cc78c44, 0x3d4553d8e9cfec6815ebadc40a9ffd04) := by
  show Spec.Kuz.F (Spec.Kuz.C 8)
      (Spec.Kuz.F (Spec.Kuz.C 7)
      (Spec.Kuz.F (Spec.Kuz.C 6)
      (Spec.Kuz.F (Spec.Kuz.C 5)
      (Spec.Kuz.F (Spec.Kuz.C 4)
      (Spec.Kuz.F (Spec.Kuz.C 3)
      (Spec.Kuz.F (Spec.Kuz.C 2)
      (Spec.Kuz.F (Spec.Kuz.C 1)
      (Spec.Kuz.keyPair K128 0)))))))) = _
  rw [pair0, step1, step2, step3, step4, step5, step6, step7, step8]
theorem step9 : Spec.Kuz.F (Spec.Kuz.C 9)
    (0xdb31485315694343228d6aef8cc78c44, 0x3d4553d8e9cfec6815ebadc40a9ffd04) =
    (0x9fd115429e5cba6e2dd392b66b088952, 0xdb31485315694343228d6aef8cc78c44) := by decide +kernel
theorem step10 : Spec.Kuz.F (Spec.Kuz.C 10)
    (0x9fd115429e5cba6e2dd392b66b088952, 0xdb31485315694343228d6aef8cc78c44) =
    (0x9932bf7f9af62fc2ee549f9f5597c35b, 0x9fd115429e5cba6e2dd392b66b088952) := by decide +kernel
theorem step11 : Spec.Kuz.F (Spec.Kuz.C 11)
    (0x9932bf7f9af62fc2ee549f9f5597c35b, 0x9fd115429e5cba6e2dd392b66b088952) =
    (0x44f64292906ab4eee5540698d230fc17, 0x9932bf7f9af62fc2ee549f9f5597c35b) := by decide +kernel
theorem step12 : Spec.Kuz.F (Spec.Kuz.C 12)
    (0x44f64292906ab4eee5540698d230fc17, 0x9932bf7f9af62fc2ee549f9f5597c35b) =
    (0x41ca399e1e0269189606e0d5ca3cd88d, 0x44f64292906ab4eee5540698d230fc17) := by decide +kernel
theorem step13 : Spec.Kuz.F (Spec.Kuz.C 13)
    (0x41ca399e1e0269189606e0d5ca3cd88d, 0x44f64292906ab4eee5540698d230fc17) =
    (0x2ed612c23f445930ef62d159e524cd31, 0x41ca399e1e0269189606e0d5ca3cd88d) := by decide +kernel
theorem step14 : Spec.Kuz.F (Spec.Kuz.C 14)
    (0x2ed612c23f445930ef62d159e524cd31, 0x41ca399e1e0269189606e0d5ca3cd88d) =
    (0xcab138dd9eaaac28040f9bab6a022934, 0x2ed612c23f445930ef62d159e524cd31) := by decide +kernel
theorem step15 : Spec.Kuz.F (Spec.Kuz.C 15)
    (0xcab138dd9eaaac28040f9bab6a022934, 0x2ed612c23f445930ef62d159e524cd31) =
    (0xbd079435165c6432b532e82834da581b, 0xcab138dd9eaaac28040f9bab6a022934) := by decide +kernel
theorem step16 : Spec.Kuz.F (Spec.Kuz.C 16)
    (0xbd079435165c6432b532e82834da581b, 0xcab138dd9eaaac28040f9bab6a022934) =
    (0x57646468c44a5e28d3e59246f429f1ac, 0xbd079435165c6432b532e82834da581b) := by decide +kernel
theorem pair2 : Spec.Kuz.keyPair K128 2 =
    (0x57646468c44a5e28d3e59246f429f1ac, 0xbd079435165c6432b532e82834da581b) := by
  show Spec.Kuz.F (Spec.Kuz.C 16)
      (Spec.Kuz.F (Spec.Kuz.C 15)
      (Spec.Kuz.F (Spec.Kuz.C 14)
      (Spec.Kuz.F (Spec.Kuz.C 13)
      (Spec.Kuz.F (Spec.Kuz.C 12)
      (Spec.Kuz.F (Spec.Kuz.C 11)
      (Spec.Kuz.F (Spec.Kuz.C 10)
      (Spec.Kuz.F (Spec.Kuz.C 9)
      (Spec.Kuz.keyPair K128 1)))))))) = _
  rw [pair1, step9, step10, step11, step12, step13, step14, step15, step16]
theorem step17 : Spec.Kuz.F (Spec.Kuz.C 17)
    (0x57646468c44a5e28d3e59246f429f1ac, 0xbd079435165c6432b532e82834da581b) =
    (0x587327e2dc60a852275d93e05182eb5c, 0x57646468c44a5e28d3e59246f429f1ac) := by decide +kernel
theorem step18 : Spec.Kuz.F (Spec.Kuz.C 18)
    (0x587327e2dc60a852275d93e05182eb5c, 0x57646468c44a5e28d3e59246f429f1ac) =
    (0xe4ac735f23f75f8b48dc05fc37c44779, 0x587327e2dc60a852275d93e05182eb5c) := by decide +kernel
theorem step19 : Spec.Kuz.F (Spec.Kuz.C 19)
    (0xe4ac735f23f75f8b48dc05fc37c44779, 0x587327e2dc60a852275d93e05182eb5c) =
    (0x312df7c4c4382533592cec99a65b6b35, 0xe4ac735f23f75f8b48dc05fc37c44779) := by decide +kernel
theorem step20 : Spec.Kuz.F (Spec.Kuz.C 20)
    (0x312df7c4c4382533592cec99a65b6b35, 0xe4ac735f23f75f8b48dc05fc37c44779) =
    (0x1e29cf3920298465b3d5e3fdb6af69bd, 0x312df7c4c4382533592cec99a65b6b35) := by decide +kernel
theorem step21 : Spec.Kuz.F (Spec.Kuz.C 21)
    (0x1e29cf3920298465b3d5e3fdb6af69bd, 0x312df7c4c4382533592cec99a65b6b35) =
    (0xd200d0455c00f65f308ecdf07d409f07, 0x1e29cf3920298465b3d5e3fdb6af69bd) := by decide +kernel
theorem step22 : Spec.Kuz.F (Spec.Kuz.C 22)
    (0xd200d0455c00f65f308ecdf07d409f07, 0x1e29cf3920298465b3d5e3fdb6af69bd) =
    (0x0b40cb8d0de296157e6f71c685c5dafa, 0xd200d0455c00f65f308ecdf07d409f07) := by decide +kernel
theorem step23 : Spec.Kuz.F (Spec.Kuz.C 23)
    (0x0b40cb8d0de296157e6f71c685c5dafa, 0xd200d0455c00f65f308ecdf07d409f07) =
    (0x5a7925017b9fdd3ed72a91a22286f984, 0x0b40cb8d0de296157e6f71c685c5dafa) := by decide +kernel
theorem step24 : Spec.Kuz.F (Spec.Kuz.C 24)
    (0x5a7925017b9fdd3ed72a91a22286f984, 0x0b40cb8d0de296157e6f71c685c5dafa) =
    (0x51e640757e8745de705727265a0098b1, 0x5a7925017b9fdd3ed72a91a22286f984) := by decide +kernel
theorem pair3 : Spec.Kuz.keyPair K128 3 =
    (0x51e640757e8745de705727265a0098b1, 0x5a7925017b9fdd3ed72a91a22286f984) := by
  show Spec.Kuz.F (Spec.Kuz.C 24)
      (Spec.Kuz.F (Spec.Kuz.C 23)
      (Spec.Kuz.F (Spec.Kuz.C 22)
      (Spec.Kuz.F (Spec.Kuz.C 21)
      (Spec.Kuz.F (Spec.Kuz.C 20)
      (Spec.Kuz.F (Spec.Kuz.C 19)
      (Spec.Kuz.F (Spec.Kuz.C 18)
      (Spec.Kuz.F (Spec.Kuz.C 17)
      (Spec.Kuz.keyPair K128 2)))))))) = _
  rw [pair2, step17, step18, step19, step20, step21, step22, step23, step24]
theorem step25 : Spec.Kuz.F (Spec.Kuz.C 25)
    (0x51e640757e8745de705727265a0098b1, 0x5a7925017b9fdd3ed72a91a22286f984) =
    (0xf1f4d1a195fd4abe76e8e5f8dc4ee76d, 0x51e640757e8745de705727265a0098b1) := by decide +kernel
theorem step26 : Spec.Kuz.F (Spec.Kuz.C 26)
    (0xf1f4d1a195fd4abe76e8e5f8dc4ee76d, 0x51e640757e8745de705727265a0098b1) =
    (0x839935dd5c07c1a8938581ec55261a78, 0xf1f4d1a195fd4abe76e8e5f8dc4ee76d) := by decide +kernel
theorem step27 : Spec.Kuz.F (Spec.Kuz.C 27)
    (0x839935dd5c07c1a8938581ec55261a78, 0xf1f4d1a195fd4abe76e8e5f8dc4ee76d) =
    (0xec107f875766cfb2ad50745be4dea15b, 0x839935dd5c07c1a8938581ec55261a78) := by decide +kernel
theorem step28 : Spec.Kuz.F (Spec.Kuz.C 28)
    (0xec107f875766cfb2ad50745be4dea15b, 0x839935dd5c07c1a8938581ec55261a78) =
    (0xa07e168d621d59fc474742c497011b33, 0xec107f875766cfb2ad50745be4dea15b) := by decide +kernel
theorem step29 : Spec.Kuz.F (Spec.Kuz.C 29)
    (0xa07e168d621d59fc474742c497011b33, 0xec107f875766cfb2ad50745be4dea15b) =
    (0x52405f0f6d2f5431a14f2b6143d1bb8c, 0xa07e168d621d59fc474742c497011b33) := by decide +kernel
theorem step30 : Spec.Kuz.F (Spec.Kuz.C 30)
    (0x52405f0f6d2f5431a14f2b6143d1bb8c, 0xa07e168d621d59fc474742c497011b33) =
    (0x51352f9195e76debd4b36c6cc22650e2, 0x52405f0f6d2f5431a14f2b6143d1bb8c) := by decide +kernel
theorem step31 : Spec.Kuz.F (Spec.Kuz.C 31)
    (0x51352f9195e76debd4b36c6cc22650e2, 0x52405f0f6d2f5431a14f2b6143d1bb8c) =
    (0x72e9dd7416bcf45b755dbaa88e4a4043, 0x51352f9195e76debd4b36c6cc22650e2) := by decide +kernel
theorem step32 : Spec.Kuz.F (Spec.Kuz.C 32)
    (0x72e9dd7416bcf45b755dbaa88e4a4043, 0x51352f9195e76debd4b36c6cc22650e2) =
    (0xbb44e25378c73123a5f32f73cdb6e517, 0x72e9dd7416bcf45b755dbaa88e4a4043) := by decide +kernel
theorem pair4 : Spec.Kuz.keyPair K128 4 =
    (0xbb44e25378c73123a5f32f73cdb6e517, 0x72e9dd7416bcf45b755dbaa88e4a4043) := by
  show Spec.Kuz.F (Spec.Kuz.C 32)
      (Spec.Kuz.F (Spec.Kuz.C 31)
      (Spec.Kuz.F (Spec.Kuz.C 30)
      (Spec.Kuz.F (Spec.Kuz.C 29)
      (Spec.Kuz.F (Spec.Kuz.C 28)
      (Spec.Kuz.F (Spec.Kuz.C 27)
      (Spec.Kuz.F (Spec.Kuz.C 26)
      (Spec.Kuz.F (Spec.Kuz.C 25)
      (Spec.Kuz.keyPair K128 3)))))))) = _
  rw [pair3, step25, step26, step27, step28, step29, step30, step31, step32]
/-- A.1.4: the round keys. -/
theorem roundKeys128 : Spec.Kuz.roundKeys K128 =
    [0x8899aabbccddeeff0011223344556677,
     0xfedcba98765432100123456789abcdef,
     0xdb31485315694343228d6aef8cc78c44,
     0x3d4553d8e9cfec6815ebadc40a9ffd04,
     0x57646468c44a5e28d3e59246f429f1ac,
     0xbd079435165c6432b532e82834da581b,
     0x51e640757e8745de705727265a0098b1,
     0x5a7925017b9fdd3ed72a91a22286f984,
     0xbb44e25378c73123a5f32f73cdb6e517,
     0x72e9dd7416bcf45b755dbaa88e4a4043] := by
  show [(Spec.Kuz.keyPair K128 0).1, (Spec.Kuz.keyPair K128 0).2, (Spec.Kuz.keyPair K128 1).1,
    (Spec.Kuz.keyPair K128 1).2, (Spec.Kuz.keyPair K128 2).1, (Spec.Kuz.keyPair K128 2).2,
    (Spec.Kuz.keyPair K128 3).1, (Spec.Kuz.keyPair K128 3).2, (Spec.Kuz.keyPair K128 4).1,
    (Spec.Kuz.keyPair K128 4).2] = _
  rw [pair0, pair1, pair2, pair3, pair4]
theorem lsx0_0 : Spec.Kuz.LSX 0x8899aabbccddeeff0011223344556677
    0x1122334455667700ffeeddccbbaa9988 =
    0xe297b686e355b0a1cf4a2f9249140830 := by decide +kernel
theorem lsx0_1 : Spec.Kuz.LSX 0xfedcba98765432100123456789abcdef
    0xe297b686e355b0a1cf4a2f9249140830 =
    0x285e497a0862d596b36f4258a1c69072 := by decide +kernel
theorem lsx0_2 : Spec.Kuz.LSX 0xdb31485315694343228d6aef8cc78c44
    0x285e497a0862d596b36f4258a1c69072 =
    0x0187a3a429b567841ad50d29207cc34e := by decide +kernel
theorem lsx0_3 : Spec.Kuz.LSX 0x3d4553d8e9cfec6815ebadc40a9ffd04
    0x0187a3a429b567841ad50d29207cc34e =
    0xec9bdba057d4f4d77c5d70619dcad206 := by decide +kernel
theorem lsx0_4 : Spec.Kuz.LSX 0x57646468c44a5e28d3e59246f429f1ac
    0xec9bdba057d4f4d77c5d70619dcad206 =
    0x1357fd11de9257290c2a1473eb6bcde1 := by decide +kernel
theorem lsx0_5 : Spec.Kuz.LSX 0xbd079435165c6432b532e82834da581b
    0x1357fd11de9257290c2a1473eb6bcde1 =
    0x28ae31e7d4c2354261027ef0b32897df := by decide +kernel
theorem lsx0_6 : Spec.Kuz.LSX 0x51e640757e8745de705727265a0098b1
    0x28ae31e7d4c2354261027ef0b32897df =
    0x07e223d56002c013d3f5e6f714b86d2d := by decide +kernel
theorem lsx0_7 : Spec.Kuz.LSX 0x5a7925017b9fdd3ed72a91a22286f984
    0x07e223d56002c013d3f5e6f714b86d2d =
    0xcd8ef6cd97e0e092a8e4cca61b38bf65 := by decide +kernel
theorem lsx0_8 : Spec.Kuz.LSX 0xbb44e25378c73123a5f32f73cdb6e517
    0xcd8ef6cd97e0e092a8e4cca61b38bf65 =
    0x0d8e40e4a800d06b2f1b37ea379ead8e := by decide +kernel
/-- A.1.5: the cipher. -/
theorem enc0 : Spec.Kuz.enc K128 0x1122334455667700ffeeddccbbaa9988 =
    0x7f679d90bebc24305a468d42b9d4edcd := by
  rw [Spec.Kuz.enc, roundKeys128]
  show Spec.Kuz.X 0x72e9dd7416bcf45b755dbaa88e4a4043
      (Spec.Kuz.LSX 0xbb44e25378c73123a5f32f73cdb6e517
      (Spec.Kuz.LSX 0x5a7925017b9fdd3ed72a91a22286f984
      (Spec.Kuz.LSX 0x51e640757e8745de705727265a0098b1
      (Spec.Kuz.LSX 0xbd079435165c6432b532e82834da581b
      (Spec.Kuz.LSX 0x57646468c44a5e28d3e59246f429f1ac
      (Spec.Kuz.LSX 0x3d4553d8e9cfec6815ebadc40a9ffd04
      (Spec.Kuz.LSX 0xdb31485315694343228d6aef8cc78c44
      (Spec.Kuz.LSX 0xfedcba98765432100123456789abcdef
      (Spec.Kuz.LSX 0x8899aabbccddeeff0011223344556677
      (0x1122334455667700ffeeddccbbaa9988)))))))))) = _
  rw [lsx0_0, lsx0_1, lsx0_2, lsx0_3, lsx0_4, lsx0_5, lsx0_6, lsx0_7, lsx0_8]
  decide +kernel
theorem lsx1_0 : Spec.Kuz.LSX 0x8899aabbccddeeff0011223344556677
    0x1234567890abcef00000000000000000 =
    0xa387eb705ba0b595a9cf0134a6b18c84 := by decide +kernel
theorem lsx1_1 : Spec.Kuz.LSX 0xfedcba98765432100123456789abcdef
    0xa387eb705ba0b595a9cf0134a6b18c84 =
    0x45f7dc6055771b259be3ddc21934f975 := by decide +kernel
theorem lsx1_2 : Spec.Kuz.LSX 0xdb31485315694343228d6aef8cc78c44
    0x45f7dc6055771b259be3ddc21934f975 =
    0x8f21c284db76fe4e59f4b0d22459bd69 := by decide +kernel
theorem lsx1_3 : Spec.Kuz.LSX 0x3d4553d8e9cfec6815ebadc40a9ffd04
    0x8f21c284db76fe4e59f4b0d22459bd69 =
    0x622fb69fda125f1f0e8977f1a8b8e7a5 := by decide +kernel
theorem lsx1_4 : Spec.Kuz.LSX 0x57646468c44a5e28d3e59246f429f1ac
    0x622fb69fda125f1f0e8977f1a8b8e7a5 =
    0xfaf3ca8df1cf24a3419ae09b8eb1b69c := by decide +kernel
theorem lsx1_5 : Spec.Kuz.LSX 0xbd079435165c6432b532e82834da581b
    0xfaf3ca8df1cf24a3419ae09b8eb1b69c =
    0x749282c893e0dcf08da06c52d986c50e := by decide +kernel
theorem lsx1_6 : Spec.Kuz.LSX 0x51e640757e8745de705727265a0098b1
    0x749282c893e0dcf08da06c52d986c50e =
    0x64cbbbccd1177230440bac8c5abb5097 := by decide +kernel
theorem lsx1_7 : Spec.Kuz.LSX 0x5a7925017b9fdd3ed72a91a22286f984
    0x64cbbbccd1177230440bac8c5abb5097 =
    0x688ee1f3cb7898d2d21b43c57d9978ba := by decide +kernel
theorem lsx1_8 : Spec.Kuz.LSX 0xbb44e25378c73123a5f32f73cdb6e517
    0x688ee1f3cb7898d2d21b43c57d9978ba =
    0x925e368e82d452805fc838c6755d7873 := by decide +kernel
theorem enc1 : Spec.Kuz.enc K128 0x1234567890abcef00000000000000000 =
    0xe0b7ebfa9468a6db2a95826efb173830 := by
  rw [Spec.Kuz.enc, roundKeys128]
  show Spec.Kuz.X 0x72e9dd7416bcf45b755dbaa88e4a4043
      (Spec.Kuz.LSX 0xbb44e25378c73123a5f32f73cdb6e517
      (Spec.Kuz.LSX 0x5a7925017b9fdd3ed72a91a22286f984
      (Spec.Kuz.LSX 0x51e640757e8745de705727265a0098b1
      (Spec.Kuz.LSX 0xbd079435165c6432b532e82834da581b
      (Spec.Kuz.LSX 0x57646468c44a5e28d3e59246f429f1ac
      (Spec.Kuz.LSX 0x3d4553d8e9cfec6815ebadc40a9ffd04
      (Spec.Kuz.LSX 0xdb31485315694343228d6aef8cc78c44
      (Spec.Kuz.LSX 0xfedcba98765432100123456789abcdef
      (Spec.Kuz.LSX 0x8899aabbccddeeff0011223344556677
      (0x1234567890abcef00000000000000000)))))))))) = _
  rw [lsx1_0, lsx1_1, lsx1_2, lsx1_3, lsx1_4, lsx1_5, lsx1_6, lsx1_7, lsx1_8]
  decide +kernel

-- 34.13-2015, A.1.2: the first block of CTR
example : (ctr (k := 64) (Spec.Kuz.enc K128) 0x1234567890abcef0
    [0x1122334455667700ffeeddccbbaa9988]) = [0xf195d8bec10ed1dbd57b5fa240bda1b8] := by
  show [0x1122334455667700ffeeddccbbaa9988 ^^^
    Spec.Kuz.enc K128 (counter (k := 64) 0x1234567890abcef0 0)] = _
  rw [show counter (k := 64) 0x1234567890abcef0 0 = (0x1234567890abcef00000000000000000 : BitVec 128)
    by decide +kernel, enc1]
  decide +kernel

end Goost.Tests
