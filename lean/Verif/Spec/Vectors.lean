import Verif.Spec.Kuznyechik
import Verif.Spec.Magma
import Verif.Spec.Modes
/-
Checks of the specifications: they give the examples printed in GOST R 34.12-2015 (appendix A) and
GOST R 34.13-2015 (appendix A), computed by the kernel. These are tests of the specifications, so
that the theorems that say "the code computes the specification" can be trusted to speak about the
published standards; they are not claims about the code. The long computations are cut into steps.
-/
namespace Spec.Vectors
open Spec.Modes

/-! ### GOST R 34.12-2015, A.2: the 64-bit cipher -/

section Magma
open Spec.Magma

example : t pi 0xfdb97531 = 0x2a196f34 ∧ t pi 0x2a196f34 = 0xebd9f03a ∧
    t pi 0xebd9f03a = 0xb039bb3d ∧ t pi 0xb039bb3d = 0x68695433 := by decide +kernel

example : g pi 0x87654321 0xfedcba98 = 0xfdcbc20c ∧ g pi 0xfdcbc20c 0x87654321 = 0x7e791a4b ∧
    g pi 0x7e791a4b 0xfdcbc20c = 0xc76549ec ∧ g pi 0xc76549ec 0x7e791a4b = 0x9791c849 := by
  decide +kernel

/-- The key of the examples for the 64-bit cipher. -/
def magmaKey : BitVec 256 :=
  0xffeeddccbbaa99887766554433221100f0f1f2f3f4f5f6f7f8f9fafbfcfdfeff

theorem magma_enc : enc magmaKey 0xfedcba9876543210 = 0x4ee901e5c2d8ca3d := by decide +kernel

theorem magma_dec : dec magmaKey 0x4ee901e5c2d8ca3d = 0xfedcba9876543210 := by decide +kernel

/-! ### GOST R 34.13-2015, A.2: modes with the 64-bit cipher -/

/-- The message of the examples. -/
def magmaText : List (BitVec 64) :=
  [0x92def06b3c130a59, 0xdb54c704f8189d20, 0x4a98fb2e67a8024c, 0x8912409b17b57e41]

theorem magma_ecb : ecb (enc magmaKey) magmaText =
    [0x2b073f0494f372a0, 0xde70e715d3556e48, 0x11d8d9e9eacfbc1e, 0x7c68260996c67efb] := by
  decide +kernel

theorem magma_ctr : ctr (k := 32) (enc magmaKey) 0x12345678 magmaText =
    [0x4e98110c97b7b93c, 0x3e250d93d6e85d69, 0x136d868807b2dbef, 0x568eb680ab52a12d] := by
  decide +kernel

private theorem magma_e1 : enc magmaKey 0x1234567890abcdef = 0x49e910895a8336da := by
  decide +kernel
private theorem magma_e2 : enc magmaKey 0x234567890abcdef1 = 0xd612a348e78295bc := by
  decide +kernel
private theorem magma_e3 : enc magmaKey 0xdb37e0e266903c83 = 0x6e25292d34bdd1c7 := by
  decide +kernel
private theorem magma_e4 : enc magmaKey 0x0d46644c1f9a089c = 0x35d2728f36b22b44 := by
  decide +kernel

theorem magma_cfb : cfbEnc (enc magmaKey) [0x1234567890abcdef, 0x234567890abcdef1] magmaText =
    [0xdb37e0e266903c83, 0x0d46644c1f9a089c, 0x24bdd2035315d38b, 0xbcc0321421075505] := by
  have x1 : ((0x92def06b3c130a59 : BitVec 64) ^^^ 0x49e910895a8336da) = 0xdb37e0e266903c83 := by decide
  have x2 : ((0xdb54c704f8189d20 : BitVec 64) ^^^ 0xd612a348e78295bc) = 0x0d46644c1f9a089c := by decide
  have x3 : ((0x4a98fb2e67a8024c : BitVec 64) ^^^ 0x6e25292d34bdd1c7) = 0x24bdd2035315d38b := by decide
  have x4 : ((0x8912409b17b57e41 : BitVec 64) ^^^ 0x35d2728f36b22b44) = 0xbcc0321421075505 := by decide
  simp only [magmaText, cfbEnc, List.cons_append, List.nil_append, magma_e1, x1, magma_e2, x2,
    magma_e3, x3, magma_e4, x4]

private theorem magma_zero : enc magmaKey 0 = 0x2fa2cd99a1290a12 := by decide +kernel
private theorem magma_m1 : enc magmaKey 0x92def06b3c130a59 = 0x2b073f0494f372a0 := by
  decide +kernel
private theorem magma_m2 : enc magmaKey 0xf053f8006cebef80 = 0xc89ed814fd5e18e9 := by
  decide +kernel
private theorem magma_m3 : enc magmaKey 0x8206233a9af61aa5 = 0xf739b18d34289b00 := by
  decide +kernel
private theorem magma_m4 : enc magmaKey 0x216e6a2561cff165 = 0x154e72102030c5bb := by
  decide +kernel

theorem magma_mac : omac (enc magmaKey) (macK1 (enc magmaKey) 0x1b)
    [0x92def06b3c130a59, 0xdb54c704f8189d20, 0x4a98fb2e67a8024c] 0x8912409b17b57e41 =
    0x154e72102030c5bb := by
  have k1 : macK1 (enc magmaKey) 0x1b = 0x5f459b3342521424 := by
    rw [macK1, magma_zero]; decide
  have x2 : ((0xdb54c704f8189d20 : BitVec 64) ^^^ 0x2b073f0494f372a0) = 0xf053f8006cebef80 := by decide
  have x3 : ((0x4a98fb2e67a8024c : BitVec 64) ^^^ 0xc89ed814fd5e18e9) = 0x8206233a9af61aa5 := by decide
  have x1 : ((0x92def06b3c130a59 : BitVec 64) ^^^ 0) = 0x92def06b3c130a59 := by decide
  have x4 : ((0x8912409b17b57e41 : BitVec 64) ^^^ 0xf739b18d34289b00 ^^^ 0x5f459b3342521424) =
    0x216e6a2561cff165 := by decide
  simp only [omac, chain, List.foldl_cons, List.foldl_nil, k1, x1, magma_m1, x2, magma_m2, x3,
    magma_m3, x4, magma_m4]

end Magma

/-! ### GOST R 34.12-2015, A.1: the 128-bit cipher -/

section Kuznyechik
open Spec.Kuz

example : S 0xffeeddccbbaa99881122334455667700 = 0xb66cd8887d38e8d77765aeea0c9a7efc ∧
    S 0xb66cd8887d38e8d77765aeea0c9a7efc = 0x559d8dd7bd06cbfe7e7b262523280d39 := by decide +kernel

example : R 0x00000000000000000000000000000100 = 0x94000000000000000000000000000001 ∧
    R 0x94000000000000000000000000000001 = 0xa5940000000000000000000000000000 := by decide +kernel

example : L 0x64a59400000000000000000000000000 = 0xd456584dd0e3e84cc3166e4b7fa2890d ∧
    L 0xd456584dd0e3e84cc3166e4b7fa2890d = 0x79d26221b87b584cd42fbc4ffea5de9a := by decide +kernel

example : C 1 = 0x6ea276726c487ab85d27bd10dd849401 := by decide +kernel

private theorem step1 : F (C 1) (0x8899aabbccddeeff0011223344556677, 0xfedcba98765432100123456789abcdef) =
    (0xc3d5fa01ebe36f7a9374427ad7ca8949, 0x8899aabbccddeeff0011223344556677) := by decide +kernel

private theorem step2 : F (C 2) (0xc3d5fa01ebe36f7a9374427ad7ca8949, 0x8899aabbccddeeff0011223344556677) =
    (0x37777748e56453377d5e262d90903f87, 0xc3d5fa01ebe36f7a9374427ad7ca8949) := by decide +kernel

private theorem step3 : F (C 3) (0x37777748e56453377d5e262d90903f87, 0xc3d5fa01ebe36f7a9374427ad7ca8949) =
    (0xf9eae5f29b2815e31f11ac5d9c29fb01, 0x37777748e56453377d5e262d90903f87) := by decide +kernel

private theorem step4 : F (C 4) (0xf9eae5f29b2815e31f11ac5d9c29fb01, 0x37777748e56453377d5e262d90903f87) =
    (0xe980089683d00d4be37dd3434699b98f, 0xf9eae5f29b2815e31f11ac5d9c29fb01) := by decide +kernel

private theorem step5 : F (C 5) (0xe980089683d00d4be37dd3434699b98f, 0xf9eae5f29b2815e31f11ac5d9c29fb01) =
    (0xb7bd70acea4460714f4ebe13835cf004, 0xe980089683d00d4be37dd3434699b98f) := by decide +kernel

private theorem step6 : F (C 6) (0xb7bd70acea4460714f4ebe13835cf004, 0xe980089683d00d4be37dd3434699b98f) =
    (0x1a46ea1cf6ccd236467287df93fdf974, 0xb7bd70acea4460714f4ebe13835cf004) := by decide +kernel

private theorem step7 : F (C 7) (0x1a46ea1cf6ccd236467287df93fdf974, 0xb7bd70acea4460714f4ebe13835cf004) =
    (0x3d4553d8e9cfec6815ebadc40a9ffd04, 0x1a46ea1cf6ccd236467287df93fdf974) := by decide +kernel

private theorem step8 : F (C 8) (0x3d4553d8e9cfec6815ebadc40a9ffd04, 0x1a46ea1cf6ccd236467287df93fdf974) =
    (0xdb31485315694343228d6aef8cc78c44, 0x3d4553d8e9cfec6815ebadc40a9ffd04) := by decide +kernel

private theorem step9 : F (C 9) (0xdb31485315694343228d6aef8cc78c44, 0x3d4553d8e9cfec6815ebadc40a9ffd04) =
    (0x9fd115429e5cba6e2dd392b66b088952, 0xdb31485315694343228d6aef8cc78c44) := by decide +kernel

private theorem step10 : F (C 10) (0x9fd115429e5cba6e2dd392b66b088952, 0xdb31485315694343228d6aef8cc78c44) =
    (0x9932bf7f9af62fc2ee549f9f5597c35b, 0x9fd115429e5cba6e2dd392b66b088952) := by decide +kernel

private theorem step11 : F (C 11) (0x9932bf7f9af62fc2ee549f9f5597c35b, 0x9fd115429e5cba6e2dd392b66b088952) =
    (0x44f64292906ab4eee5540698d230fc17, 0x9932bf7f9af62fc2ee549f9f5597c35b) := by decide +kernel

private theorem step12 : F (C 12) (0x44f64292906ab4eee5540698d230fc17, 0x9932bf7f9af62fc2ee549f9f5597c35b) =
    (0x41ca399e1e0269189606e0d5ca3cd88d, 0x44f64292906ab4eee5540698d230fc17) := by decide +kernel

private theorem step13 : F (C 13) (0x41ca399e1e0269189606e0d5ca3cd88d, 0x44f64292906ab4eee5540698d230fc17) =
    (0x2ed612c23f445930ef62d159e524cd31, 0x41ca399e1e0269189606e0d5ca3cd88d) := by decide +kernel

private theorem step14 : F (C 14) (0x2ed612c23f445930ef62d159e524cd31, 0x41ca399e1e0269189606e0d5ca3cd88d) =
    (0xcab138dd9eaaac28040f9bab6a022934, 0x2ed612c23f445930ef62d159e524cd31) := by decide +kernel

private theorem step15 : F (C 15) (0xcab138dd9eaaac28040f9bab6a022934, 0x2ed612c23f445930ef62d159e524cd31) =
    (0xbd079435165c6432b532e82834da581b, 0xcab138dd9eaaac28040f9bab6a022934) := by decide +kernel

private theorem step16 : F (C 16) (0xbd079435165c6432b532e82834da581b, 0xcab138dd9eaaac28040f9bab6a022934) =
    (0x57646468c44a5e28d3e59246f429f1ac, 0xbd079435165c6432b532e82834da581b) := by decide +kernel

private theorem step17 : F (C 17) (0x57646468c44a5e28d3e59246f429f1ac, 0xbd079435165c6432b532e82834da581b) =
    (0x587327e2dc60a852275d93e05182eb5c, 0x57646468c44a5e28d3e59246f429f1ac) := by decide +kernel

private theorem step18 : F (C 18) (0x587327e2dc60a852275d93e05182eb5c, 0x57646468c44a5e28d3e59246f429f1ac) =
    (0xe4ac735f23f75f8b48dc05fc37c44779, 0x587327e2dc60a852275d93e05182eb5c) := by decide +kernel

private theorem step19 : F (C 19) (0xe4ac735f23f75f8b48dc05fc37c44779, 0x587327e2dc60a852275d93e05182eb5c) =
    (0x312df7c4c4382533592cec99a65b6b35, 0xe4ac735f23f75f8b48dc05fc37c44779) := by decide +kernel

private theorem step20 : F (C 20) (0x312df7c4c4382533592cec99a65b6b35, 0xe4ac735f23f75f8b48dc05fc37c44779) =
    (0x1e29cf3920298465b3d5e3fdb6af69bd, 0x312df7c4c4382533592cec99a65b6b35) := by decide +kernel

private theorem step21 : F (C 21) (0x1e29cf3920298465b3d5e3fdb6af69bd, 0x312df7c4c4382533592cec99a65b6b35) =
    (0xd200d0455c00f65f308ecdf07d409f07, 0x1e29cf3920298465b3d5e3fdb6af69bd) := by decide +kernel

private theorem step22 : F (C 22) (0xd200d0455c00f65f308ecdf07d409f07, 0x1e29cf3920298465b3d5e3fdb6af69bd) =
    (0x0b40cb8d0de296157e6f71c685c5dafa, 0xd200d0455c00f65f308ecdf07d409f07) := by decide +kernel

private theorem step23 : F (C 23) (0x0b40cb8d0de296157e6f71c685c5dafa, 0xd200d0455c00f65f308ecdf07d409f07) =
    (0x5a7925017b9fdd3ed72a91a22286f984, 0x0b40cb8d0de296157e6f71c685c5dafa) := by decide +kernel

private theorem step24 : F (C 24) (0x5a7925017b9fdd3ed72a91a22286f984, 0x0b40cb8d0de296157e6f71c685c5dafa) =
    (0x51e640757e8745de705727265a0098b1, 0x5a7925017b9fdd3ed72a91a22286f984) := by decide +kernel

private theorem step25 : F (C 25) (0x51e640757e8745de705727265a0098b1, 0x5a7925017b9fdd3ed72a91a22286f984) =
    (0xf1f4d1a195fd4abe76e8e5f8dc4ee76d, 0x51e640757e8745de705727265a0098b1) := by decide +kernel

private theorem step26 : F (C 26) (0xf1f4d1a195fd4abe76e8e5f8dc4ee76d, 0x51e640757e8745de705727265a0098b1) =
    (0x839935dd5c07c1a8938581ec55261a78, 0xf1f4d1a195fd4abe76e8e5f8dc4ee76d) := by decide +kernel

private theorem step27 : F (C 27) (0x839935dd5c07c1a8938581ec55261a78, 0xf1f4d1a195fd4abe76e8e5f8dc4ee76d) =
    (0xec107f875766cfb2ad50745be4dea15b, 0x839935dd5c07c1a8938581ec55261a78) := by decide +kernel

private theorem step28 : F (C 28) (0xec107f875766cfb2ad50745be4dea15b, 0x839935dd5c07c1a8938581ec55261a78) =
    (0xa07e168d621d59fc474742c497011b33, 0xec107f875766cfb2ad50745be4dea15b) := by decide +kernel

private theorem step29 : F (C 29) (0xa07e168d621d59fc474742c497011b33, 0xec107f875766cfb2ad50745be4dea15b) =
    (0x52405f0f6d2f5431a14f2b6143d1bb8c, 0xa07e168d621d59fc474742c497011b33) := by decide +kernel

private theorem step30 : F (C 30) (0x52405f0f6d2f5431a14f2b6143d1bb8c, 0xa07e168d621d59fc474742c497011b33) =
    (0x51352f9195e76debd4b36c6cc22650e2, 0x52405f0f6d2f5431a14f2b6143d1bb8c) := by decide +kernel

private theorem step31 : F (C 31) (0x51352f9195e76debd4b36c6cc22650e2, 0x52405f0f6d2f5431a14f2b6143d1bb8c) =
    (0x72e9dd7416bcf45b755dbaa88e4a4043, 0x51352f9195e76debd4b36c6cc22650e2) := by decide +kernel

private theorem step32 : F (C 32) (0x72e9dd7416bcf45b755dbaa88e4a4043, 0x51352f9195e76debd4b36c6cc22650e2) =
    (0xbb44e25378c73123a5f32f73cdb6e517, 0x72e9dd7416bcf45b755dbaa88e4a4043) := by decide +kernel

/-- The key of the example A.1 of GOST R 34.12-2015. -/
def kuzKey : BitVec 256 :=
  0x8899aabbccddeeff0011223344556677fedcba98765432100123456789abcdef

private theorem pair0 : keyPair kuzKey 0 =
    (0x8899aabbccddeeff0011223344556677, 0xfedcba98765432100123456789abcdef) := by decide +kernel

private theorem pair1 : keyPair kuzKey 1 =
    (0xdb31485315694343228d6aef8cc78c44, 0x3d4553d8e9cfec6815ebadc40a9ffd04) := by
  rw [show keyPair kuzKey 1 = F (C 8) (F (C 7) (F (C 6) (F (C 5) (F (C 4)
    (F (C 3) (F (C 2) (F (C 1) (keyPair kuzKey 0)))))))) from rfl, pair0,
    step1, step2, step3, step4, step5, step6, step7, step8]

private theorem pair2 : keyPair kuzKey 2 =
    (0x57646468c44a5e28d3e59246f429f1ac, 0xbd079435165c6432b532e82834da581b) := by
  rw [show keyPair kuzKey 2 = F (C 16) (F (C 15) (F (C 14) (F (C 13) (F (C 12)
    (F (C 11) (F (C 10) (F (C 9) (keyPair kuzKey 1)))))))) from rfl, pair1,
    step9, step10, step11, step12, step13, step14, step15, step16]

private theorem pair3 : keyPair kuzKey 3 =
    (0x51e640757e8745de705727265a0098b1, 0x5a7925017b9fdd3ed72a91a22286f984) := by
  rw [show keyPair kuzKey 3 = F (C 24) (F (C 23) (F (C 22) (F (C 21) (F (C 20)
    (F (C 19) (F (C 18) (F (C 17) (keyPair kuzKey 2)))))))) from rfl, pair2,
    step17, step18, step19, step20, step21, step22, step23, step24]

private theorem pair4 : keyPair kuzKey 4 =
    (0xbb44e25378c73123a5f32f73cdb6e517, 0x72e9dd7416bcf45b755dbaa88e4a4043) := by
  rw [show keyPair kuzKey 4 = F (C 32) (F (C 31) (F (C 30) (F (C 29) (F (C 28)
    (F (C 27) (F (C 26) (F (C 25) (keyPair kuzKey 3)))))))) from rfl, pair3,
    step25, step26, step27, step28, step29, step30, step31, step32]

/-- The round keys of the example. -/
theorem kuz_round_keys : roundKeys kuzKey =
    [0x8899aabbccddeeff0011223344556677, 0xfedcba98765432100123456789abcdef,
     0xdb31485315694343228d6aef8cc78c44, 0x3d4553d8e9cfec6815ebadc40a9ffd04,
     0x57646468c44a5e28d3e59246f429f1ac, 0xbd079435165c6432b532e82834da581b,
     0x51e640757e8745de705727265a0098b1, 0x5a7925017b9fdd3ed72a91a22286f984,
     0xbb44e25378c73123a5f32f73cdb6e517, 0x72e9dd7416bcf45b755dbaa88e4a4043] := by
  simp only [roundKeys, List.range, List.range.loop, List.flatMap_cons, List.flatMap_nil, pair0,
    pair1, pair2, pair3, pair4, List.cons_append, List.nil_append]

private theorem kuz_ecb1_r1 : LSX 0x8899aabbccddeeff0011223344556677 0x1122334455667700ffeeddccbbaa9988 =
    0xe297b686e355b0a1cf4a2f9249140830 := by decide +kernel

private theorem kuz_ecb1_r2 : LSX 0xfedcba98765432100123456789abcdef 0xe297b686e355b0a1cf4a2f9249140830 =
    0x285e497a0862d596b36f4258a1c69072 := by decide +kernel

private theorem kuz_ecb1_r3 : LSX 0xdb31485315694343228d6aef8cc78c44 0x285e497a0862d596b36f4258a1c69072 =
    0x0187a3a429b567841ad50d29207cc34e := by decide +kernel

private theorem kuz_ecb1_r4 : LSX 0x3d4553d8e9cfec6815ebadc40a9ffd04 0x0187a3a429b567841ad50d29207cc34e =
    0xec9bdba057d4f4d77c5d70619dcad206 := by decide +kernel

private theorem kuz_ecb1_r5 : LSX 0x57646468c44a5e28d3e59246f429f1ac 0xec9bdba057d4f4d77c5d70619dcad206 =
    0x1357fd11de9257290c2a1473eb6bcde1 := by decide +kernel

private theorem kuz_ecb1_r6 : LSX 0xbd079435165c6432b532e82834da581b 0x1357fd11de9257290c2a1473eb6bcde1 =
    0x28ae31e7d4c2354261027ef0b32897df := by decide +kernel

private theorem kuz_ecb1_r7 : LSX 0x51e640757e8745de705727265a0098b1 0x28ae31e7d4c2354261027ef0b32897df =
    0x07e223d56002c013d3f5e6f714b86d2d := by decide +kernel

private theorem kuz_ecb1_r8 : LSX 0x5a7925017b9fdd3ed72a91a22286f984 0x07e223d56002c013d3f5e6f714b86d2d =
    0xcd8ef6cd97e0e092a8e4cca61b38bf65 := by decide +kernel

private theorem kuz_ecb1_r9 : LSX 0xbb44e25378c73123a5f32f73cdb6e517 0xcd8ef6cd97e0e092a8e4cca61b38bf65 =
    0x0d8e40e4a800d06b2f1b37ea379ead8e := by decide +kernel

theorem kuz_ecb1 : enc kuzKey 0x1122334455667700ffeeddccbbaa9988 = 0x7f679d90bebc24305a468d42b9d4edcd := by
  rw [enc, kuz_round_keys]
  simp only [encWith, kuz_ecb1_r1, kuz_ecb1_r2, kuz_ecb1_r3, kuz_ecb1_r4, kuz_ecb1_r5, kuz_ecb1_r6, kuz_ecb1_r7, kuz_ecb1_r8, kuz_ecb1_r9]
  decide +kernel

private theorem kuz_ecb2_r1 : LSX 0x8899aabbccddeeff0011223344556677 0x00112233445566778899aabbcceeff0a =
    0x7e73d54b7e7bdb1f59a869a0d50a531b := by decide +kernel

private theorem kuz_ecb2_r2 : LSX 0xfedcba98765432100123456789abcdef 0x7e73d54b7e7bdb1f59a869a0d50a531b =
    0xc42b748d2e0dfa511189900aee6b318b := by decide +kernel

private theorem kuz_ecb2_r3 : LSX 0xdb31485315694343228d6aef8cc78c44 0xc42b748d2e0dfa511189900aee6b318b =
    0x6c3f97be9b446634120d4691dd133833 := by decide +kernel

private theorem kuz_ecb2_r4 : LSX 0x3d4553d8e9cfec6815ebadc40a9ffd04 0x6c3f97be9b446634120d4691dd133833 =
    0x05a8979b5b2bdbdc9f4351a18574c2e1 := by decide +kernel

private theorem kuz_ecb2_r5 : LSX 0x57646468c44a5e28d3e59246f429f1ac 0x05a8979b5b2bdbdc9f4351a18574c2e1 =
    0xbfd64cd5b54abb101783e03c594986d2 := by decide +kernel

private theorem kuz_ecb2_r6 : LSX 0xbd079435165c6432b532e82834da581b 0xbfd64cd5b54abb101783e03c594986d2 =
    0x857723f02ba9357412d811a66491ecfc := by decide +kernel

private theorem kuz_ecb2_r7 : LSX 0x51e640757e8745de705727265a0098b1 0x857723f02ba9357412d811a66491ecfc =
    0x7e7f3b59d45cc3edf8041e5f6f9052e8 := by decide +kernel

private theorem kuz_ecb2_r8 : LSX 0x5a7925017b9fdd3ed72a91a22286f984 0x7e7f3b59d45cc3edf8041e5f6f9052e8 =
    0x35a93f198a754c38d512733a47b8f769 := by decide +kernel

private theorem kuz_ecb2_r9 : LSX 0xbb44e25378c73123a5f32f73cdb6e517 0x35a93f198a754c38d512733a47b8f769 =
    0xc6c04c5878bcc6a25d09e87fe95290c8 := by decide +kernel

theorem kuz_ecb2 : enc kuzKey 0x00112233445566778899aabbcceeff0a = 0xb429912c6e0032f9285452d76718d08b := by
  rw [enc, kuz_round_keys]
  simp only [encWith, kuz_ecb2_r1, kuz_ecb2_r2, kuz_ecb2_r3, kuz_ecb2_r4, kuz_ecb2_r5, kuz_ecb2_r6, kuz_ecb2_r7, kuz_ecb2_r8, kuz_ecb2_r9]
  decide +kernel

private theorem kuz_ecb3_r1 : LSX 0x8899aabbccddeeff0011223344556677 0x112233445566778899aabbcceeff0a00 =
    0x9d815a311f8b34a5f48901b92452cbd2 := by decide +kernel

private theorem kuz_ecb3_r2 : LSX 0xfedcba98765432100123456789abcdef 0x9d815a311f8b34a5f48901b92452cbd2 =
    0xd2e8557bc8993d17e6de40e4e6928821 := by decide +kernel

private theorem kuz_ecb3_r3 : LSX 0xdb31485315694343228d6aef8cc78c44 0xd2e8557bc8993d17e6de40e4e6928821 =
    0x3f803ef17e7c2e349a7b2f3d1f69f5f2 := by decide +kernel

private theorem kuz_ecb3_r4 : LSX 0x3d4553d8e9cfec6815ebadc40a9ffd04 0x3f803ef17e7c2e349a7b2f3d1f69f5f2 =
    0x3f426713382bdca2c4c134947a5ced54 := by decide +kernel

private theorem kuz_ecb3_r5 : LSX 0x57646468c44a5e28d3e59246f429f1ac 0x3f426713382bdca2c4c134947a5ced54 =
    0xd49fc62b64330ec62ed36d80aa802acb := by decide +kernel

private theorem kuz_ecb3_r6 : LSX 0xbd079435165c6432b532e82834da581b 0xd49fc62b64330ec62ed36d80aa802acb =
    0x14af754125902f0cbe9b0ab97060c21d := by decide +kernel

private theorem kuz_ecb3_r7 : LSX 0x51e640757e8745de705727265a0098b1 0x14af754125902f0cbe9b0ab97060c21d =
    0xcfd9302b50c9d1156893dde94620886e := by decide +kernel

private theorem kuz_ecb3_r8 : LSX 0x5a7925017b9fdd3ed72a91a22286f984 0xcfd9302b50c9d1156893dde94620886e =
    0x00650e56090be4808c460f01307c238f := by decide +kernel

private theorem kuz_ecb3_r9 : LSX 0xbb44e25378c73123a5f32f73cdb6e517 0x00650e56090be4808c460f01307c238f =
    0x8223ee208b9888b586a81f99b59ef114 := by decide +kernel

theorem kuz_ecb3 : enc kuzKey 0x112233445566778899aabbcceeff0a00 = 0xf0ca33549d247ceef3f5a5313bd4b157 := by
  rw [enc, kuz_round_keys]
  simp only [encWith, kuz_ecb3_r1, kuz_ecb3_r2, kuz_ecb3_r3, kuz_ecb3_r4, kuz_ecb3_r5, kuz_ecb3_r6, kuz_ecb3_r7, kuz_ecb3_r8, kuz_ecb3_r9]
  decide +kernel

private theorem kuz_ecb4_r1 : LSX 0x8899aabbccddeeff0011223344556677 0x2233445566778899aabbcceeff0a0011 =
    0x4746a9c50426aaa3f1e9d00d1a0cf89c := by decide +kernel

private theorem kuz_ecb4_r2 : LSX 0xfedcba98765432100123456789abcdef 0x4746a9c50426aaa3f1e9d00d1a0cf89c =
    0x47d74c5fbc941d6eb0adbd19fe1dcf79 := by decide +kernel

private theorem kuz_ecb4_r3 : LSX 0xdb31485315694343228d6aef8cc78c44 0x47d74c5fbc941d6eb0adbd19fe1dcf79 =
    0x230dc560d7fed1fe67d51f587bc6966a := by decide +kernel

private theorem kuz_ecb4_r4 : LSX 0x3d4553d8e9cfec6815ebadc40a9ffd04 0x230dc560d7fed1fe67d51f587bc6966a =
    0x027460988dc7ca1ff746bbd6ce0cf17f := by decide +kernel

private theorem kuz_ecb4_r5 : LSX 0x57646468c44a5e28d3e59246f429f1ac 0x027460988dc7ca1ff746bbd6ce0cf17f =
    0xb2202483b17c5c3047c2c2274fb711f0 := by decide +kernel

private theorem kuz_ecb4_r6 : LSX 0xbd079435165c6432b532e82834da581b 0xb2202483b17c5c3047c2c2274fb711f0 =
    0xa317ec87ea7e8a7d45d8e14587b6a86d := by decide +kernel

private theorem kuz_ecb4_r7 : LSX 0x51e640757e8745de705727265a0098b1 0xa317ec87ea7e8a7d45d8e14587b6a86d =
    0xaf4018b19cf8f00c0750e6a0014717c4 := by decide +kernel

private theorem kuz_ecb4_r8 : LSX 0x5a7925017b9fdd3ed72a91a22286f984 0xaf4018b19cf8f00c0750e6a0014717c4 =
    0x2acc368c4477cf659f065c4d248800a5 := by decide +kernel

private theorem kuz_ecb4_r9 : LSX 0xbb44e25378c73123a5f32f73cdb6e517 0x2acc368c4477cf659f065c4d248800a5 =
    0xa25941b9fe8c4db04f5f7e6d24c09adb := by decide +kernel

theorem kuz_ecb4 : enc kuzKey 0x2233445566778899aabbcceeff0a0011 = 0xd0b09ccde830b9eb3a02c4c5aa8ada98 := by
  rw [enc, kuz_round_keys]
  simp only [encWith, kuz_ecb4_r1, kuz_ecb4_r2, kuz_ecb4_r3, kuz_ecb4_r4, kuz_ecb4_r5, kuz_ecb4_r6, kuz_ecb4_r7, kuz_ecb4_r8, kuz_ecb4_r9]
  decide +kernel

/-! ### GOST R 34.13-2015, A.1: modes with the 128-bit cipher -/

/-- The message of the examples. -/
def kuzText : List (BitVec 128) :=
  [0x1122334455667700ffeeddccbbaa9988, 0x00112233445566778899aabbcceeff0a,
   0x112233445566778899aabbcceeff0a00, 0x2233445566778899aabbcceeff0a0011]

theorem kuz_ecb : ecb (enc kuzKey) kuzText =
    [0x7f679d90bebc24305a468d42b9d4edcd, 0xb429912c6e0032f9285452d76718d08b,
     0xf0ca33549d247ceef3f5a5313bd4b157, 0xd0b09ccde830b9eb3a02c4c5aa8ada98] := by
  simp only [ecb, kuzText, List.map_cons, List.map_nil, kuz_ecb1, kuz_ecb2, kuz_ecb3, kuz_ecb4]


end Kuznyechik
end Spec.Vectors
