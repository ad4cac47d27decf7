import Verif.Spec.Vectors
/-
Checks of the specifications, continued: counter mode and the MAC with the 128-bit cipher,
GOST R 34.13-2015, A.1.
-/
namespace Spec.Vectors
open Spec.Modes

section Kuznyechik
open Spec.Kuz

private theorem kuz_ctr1_r1 : LSX 0x8899aabbccddeeff0011223344556677 0x1234567890abcef00000000000000000 =
    0xa387eb705ba0b595a9cf0134a6b18c84 := by decide +kernel

private theorem kuz_ctr1_r2 : LSX 0xfedcba98765432100123456789abcdef 0xa387eb705ba0b595a9cf0134a6b18c84 =
    0x45f7dc6055771b259be3ddc21934f975 := by decide +kernel

private theorem kuz_ctr1_r3 : LSX 0xdb31485315694343228d6aef8cc78c44 0x45f7dc6055771b259be3ddc21934f975 =
    0x8f21c284db76fe4e59f4b0d22459bd69 := by decide +kernel

private theorem kuz_ctr1_r4 : LSX 0x3d4553d8e9cfec6815ebadc40a9ffd04 0x8f21c284db76fe4e59f4b0d22459bd69 =
    0x622fb69fda125f1f0e8977f1a8b8e7a5 := by decide +kernel

private theorem kuz_ctr1_r5 : LSX 0x57646468c44a5e28d3e59246f429f1ac 0x622fb69fda125f1f0e8977f1a8b8e7a5 =
    0xfaf3ca8df1cf24a3419ae09b8eb1b69c := by decide +kernel

private theorem kuz_ctr1_r6 : LSX 0xbd079435165c6432b532e82834da581b 0xfaf3ca8df1cf24a3419ae09b8eb1b69c =
    0x749282c893e0dcf08da06c52d986c50e := by decide +kernel

private theorem kuz_ctr1_r7 : LSX 0x51e640757e8745de705727265a0098b1 0x749282c893e0dcf08da06c52d986c50e =
    0x64cbbbccd1177230440bac8c5abb5097 := by decide +kernel

private theorem kuz_ctr1_r8 : LSX 0x5a7925017b9fdd3ed72a91a22286f984 0x64cbbbccd1177230440bac8c5abb5097 =
    0x688ee1f3cb7898d2d21b43c57d9978ba := by decide +kernel

private theorem kuz_ctr1_r9 : LSX 0xbb44e25378c73123a5f32f73cdb6e517 0x688ee1f3cb7898d2d21b43c57d9978ba =
    0x925e368e82d452805fc838c6755d7873 := by decide +kernel

theorem kuz_ctr1 : enc kuzKey 0x1234567890abcef00000000000000000 = 0xe0b7ebfa9468a6db2a95826efb173830 := by
  rw [enc, kuz_round_keys]
  simp only [encWith, kuz_ctr1_r1, kuz_ctr1_r2, kuz_ctr1_r3, kuz_ctr1_r4, kuz_ctr1_r5, kuz_ctr1_r6, kuz_ctr1_r7, kuz_ctr1_r8, kuz_ctr1_r9]
  decide +kernel

private theorem kuz_ctr2_r1 : LSX 0x8899aabbccddeeff0011223344556677 0x1234567890abcef00000000000000001 =
    0xae0bd11c7d25750515b333af48b51370 := by decide +kernel

private theorem kuz_ctr2_r2 : LSX 0xfedcba98765432100123456789abcdef 0xae0bd11c7d25750515b333af48b51370 =
    0x4c3f51ae2ff2a2a74cf44f4666208c5f := by decide +kernel

private theorem kuz_ctr2_r3 : LSX 0xdb31485315694343228d6aef8cc78c44 0x4c3f51ae2ff2a2a74cf44f4666208c5f =
    0xa539731bcd6b46b76158ce18eceb9a44 := by decide +kernel

private theorem kuz_ctr2_r4 : LSX 0x3d4553d8e9cfec6815ebadc40a9ffd04 0xa539731bcd6b46b76158ce18eceb9a44 =
    0xe4f398f04c349478d14e13ac53f883d2 := by decide +kernel

private theorem kuz_ctr2_r5 : LSX 0x57646468c44a5e28d3e59246f429f1ac 0xe4f398f04c349478d14e13ac53f883d2 =
    0xdebc6aedd6fe5656cd23b91876aba20a := by decide +kernel

private theorem kuz_ctr2_r6 : LSX 0xbd079435165c6432b532e82834da581b 0xdebc6aedd6fe5656cd23b91876aba20a =
    0x621acc1c9ccacb27599bd9ab788b15f9 := by decide +kernel

private theorem kuz_ctr2_r7 : LSX 0x51e640757e8745de705727265a0098b1 0x621acc1c9ccacb27599bd9ab788b15f9 =
    0x859129c9389392c62b144e18232175b4 := by decide +kernel

private theorem kuz_ctr2_r8 : LSX 0x5a7925017b9fdd3ed72a91a22286f984 0x859129c9389392c62b144e18232175b4 =
    0xb2d67a9410406fb5e185a4341cdda0c3 := by decide +kernel

private theorem kuz_ctr2_r9 : LSX 0xbb44e25378c73123a5f32f73cdb6e517 0xb2d67a9410406fb5e185a4341cdda0c3 =
    0xf7161874a448ac710ef8f4a07ee161ad := by decide +kernel

theorem kuz_ctr2 : enc kuzKey 0x1234567890abcef00000000000000001 = 0x85ffc500b2f4582a7ba54e08f0ab21ee := by
  rw [enc, kuz_round_keys]
  simp only [encWith, kuz_ctr2_r1, kuz_ctr2_r2, kuz_ctr2_r3, kuz_ctr2_r4, kuz_ctr2_r5, kuz_ctr2_r6, kuz_ctr2_r7, kuz_ctr2_r8, kuz_ctr2_r9]
  decide +kernel

private theorem kuz_ctr3_r1 : LSX 0x8899aabbccddeeff0011223344556677 0x1234567890abcef00000000000000002 =
    0x5b763440355598d5c289e50ede4d4acf := by decide +kernel

private theorem kuz_ctr3_r2 : LSX 0xfedcba98765432100123456789abcdef 0x5b763440355598d5c289e50ede4d4acf =
    0x3cf501dc3a026e8683337f550ef82417 := by decide +kernel

private theorem kuz_ctr3_r3 : LSX 0xdb31485315694343228d6aef8cc78c44 0x3cf501dc3a026e8683337f550ef82417 =
    0x9de23a82e06c8d3fee930e74a06ba10c := by decide +kernel

private theorem kuz_ctr3_r4 : LSX 0x3d4553d8e9cfec6815ebadc40a9ffd04 0x9de23a82e06c8d3fee930e74a06ba10c =
    0x3a95fa1571185389ee47a10c37f5db94 := by decide +kernel

private theorem kuz_ctr3_r5 : LSX 0x57646468c44a5e28d3e59246f429f1ac 0x3a95fa1571185389ee47a10c37f5db94 =
    0xf4c99d5ab8f5f39dff5cfaf16976bf9b := by decide +kernel

private theorem kuz_ctr3_r6 : LSX 0xbd079435165c6432b532e82834da581b 0xf4c99d5ab8f5f39dff5cfaf16976bf9b =
    0xd34f9b2d2944922109e9bd1bdd92366f := by decide +kernel

private theorem kuz_ctr3_r7 : LSX 0x51e640757e8745de705727265a0098b1 0xd34f9b2d2944922109e9bd1bdd92366f =
    0x994704922431e6d6110990792922c772 := by decide +kernel

private theorem kuz_ctr3_r8 : LSX 0x5a7925017b9fdd3ed72a91a22286f984 0x994704922431e6d6110990792922c772 =
    0x4ec765d5989e42e9045a6b940184790c := by decide +kernel

private theorem kuz_ctr3_r9 : LSX 0xbb44e25378c73123a5f32f73cdb6e517 0x4ec765d5989e42e9045a6b940184790c =
    0xc62106bba5efed00391f769555d1e9e6 := by decide +kernel

theorem kuz_ctr3 : enc kuzKey 0x1234567890abcef00000000000000002 = 0xb4c8dbcfb353195b4c42cc3ddb9ba9a5 := by
  rw [enc, kuz_round_keys]
  simp only [encWith, kuz_ctr3_r1, kuz_ctr3_r2, kuz_ctr3_r3, kuz_ctr3_r4, kuz_ctr3_r5, kuz_ctr3_r6, kuz_ctr3_r7, kuz_ctr3_r8, kuz_ctr3_r9]
  decide +kernel

private theorem kuz_ctr4_r1 : LSX 0x8899aabbccddeeff0011223344556677 0x1234567890abcef00000000000000003 =
    0x76fc7ba14fb8e66ab6833ef34e07fd05 := by decide +kernel

private theorem kuz_ctr4_r2 : LSX 0xfedcba98765432100123456789abcdef 0x76fc7ba14fb8e66ab6833ef34e07fd05 =
    0x017fc4a8058f1468d02167112397a090 := by decide +kernel

private theorem kuz_ctr4_r3 : LSX 0xdb31485315694343228d6aef8cc78c44 0x017fc4a8058f1468d02167112397a090 =
    0x90fb7bcfc6196f103132a78b428bbc66 := by decide +kernel

private theorem kuz_ctr4_r4 : LSX 0x3d4553d8e9cfec6815ebadc40a9ffd04 0x90fb7bcfc6196f103132a78b428bbc66 =
    0x6b84ae054fc039d56e40ed94aa46fa34 := by decide +kernel

private theorem kuz_ctr4_r5 : LSX 0x57646468c44a5e28d3e59246f429f1ac 0x6b84ae054fc039d56e40ed94aa46fa34 =
    0x55d270bb578d0acd2612fd0004dda66a := by decide +kernel

private theorem kuz_ctr4_r6 : LSX 0xbd079435165c6432b532e82834da581b 0x55d270bb578d0acd2612fd0004dda66a =
    0x57e60a61008b97225097d507f2efe444 := by decide +kernel

private theorem kuz_ctr4_r7 : LSX 0x51e640757e8745de705727265a0098b1 0x57e60a61008b97225097d507f2efe444 =
    0xc38cd8e441be936407fc8e4d78f1c6b5 := by decide +kernel

private theorem kuz_ctr4_r8 : LSX 0x5a7925017b9fdd3ed72a91a22286f984 0xc38cd8e441be936407fc8e4d78f1c6b5 =
    0xa663ee295d6b5f7e85d73877ff9fb0eb := by decide +kernel

private theorem kuz_ctr4_r9 : LSX 0xbb44e25378c73123a5f32f73cdb6e517 0xa663ee295d6b5f7e85d73877ff9fb0eb =
    0x9b4b639082c7c6740e20a71e51fdfa21 := by decide +kernel

theorem kuz_ctr4 : enc kuzKey 0x1234567890abcef00000000000000003 = 0xe9a2bee4947b322f7b7d1db6dfb7ba62 := by
  rw [enc, kuz_round_keys]
  simp only [encWith, kuz_ctr4_r1, kuz_ctr4_r2, kuz_ctr4_r3, kuz_ctr4_r4, kuz_ctr4_r5, kuz_ctr4_r6, kuz_ctr4_r7, kuz_ctr4_r8, kuz_ctr4_r9]
  decide +kernel

private theorem kuz_zero_r1 : LSX 0x8899aabbccddeeff0011223344556677 0x00000000000000000000000000000000 =
    0x57e3902eca85e9ff928fb3e7086f50bc := by decide +kernel

private theorem kuz_zero_r2 : LSX 0xfedcba98765432100123456789abcdef 0x57e3902eca85e9ff928fb3e7086f50bc =
    0x364a3151a18550ae817b791ce6d5b5c4 := by decide +kernel

private theorem kuz_zero_r3 : LSX 0xdb31485315694343228d6aef8cc78c44 0x364a3151a18550ae817b791ce6d5b5c4 =
    0x138da9bad0a182ee9cd404dae242ce5e := by decide +kernel

private theorem kuz_zero_r4 : LSX 0x3d4553d8e9cfec6815ebadc40a9ffd04 0x138da9bad0a182ee9cd404dae242ce5e =
    0x5be473847e54ac3a91725d03bc0986d8 := by decide +kernel

private theorem kuz_zero_r5 : LSX 0x57646468c44a5e28d3e59246f429f1ac 0x5be473847e54ac3a91725d03bc0986d8 =
    0x8f7960c6c06080ea47fcf35b3f601192 := by decide +kernel

private theorem kuz_zero_r6 : LSX 0xbd079435165c6432b532e82834da581b 0x8f7960c6c06080ea47fcf35b3f601192 =
    0x1ffa42e2921404ffa1759081b7d8a5c1 := by decide +kernel

private theorem kuz_zero_r7 : LSX 0x51e640757e8745de705727265a0098b1 0x1ffa42e2921404ffa1759081b7d8a5c1 =
    0x1db035897a50c481a2a17298c4717498 := by decide +kernel

private theorem kuz_zero_r8 : LSX 0x5a7925017b9fdd3ed72a91a22286f984 0x1db035897a50c481a2a17298c4717498 =
    0x1a15853692d423a14502a54b6a4b0b4b := by decide +kernel

private theorem kuz_zero_r9 : LSX 0xbb44e25378c73123a5f32f73cdb6e517 0x1a15853692d423a14502a54b6a4b0b4b =
    0xe6571c2a302005be73ad9131c240cee3 := by decide +kernel

theorem kuz_zero : enc kuzKey 0x00000000000000000000000000000000 = 0x94bec15e269cf1e506f02b994c0a8ea0 := by
  rw [enc, kuz_round_keys]
  simp only [encWith, kuz_zero_r1, kuz_zero_r2, kuz_zero_r3, kuz_zero_r4, kuz_zero_r5, kuz_zero_r6, kuz_zero_r7, kuz_zero_r8, kuz_zero_r9]
  decide +kernel

private theorem kuz_mac2_r1 : LSX 0x8899aabbccddeeff0011223344556677 0x7f76bfa3fae94247d2df27f9753a12c7 =
    0xa936b32a1838aba4223db2ae831dddf9 := by decide +kernel

private theorem kuz_mac2_r2 : LSX 0xfedcba98765432100123456789abcdef 0xa936b32a1838aba4223db2ae831dddf9 =
    0x294fb18f38907e74350f6f2439f9ac5c := by decide +kernel

private theorem kuz_mac2_r3 : LSX 0xdb31485315694343228d6aef8cc78c44 0x294fb18f38907e74350f6f2439f9ac5c =
    0x8804eb5df821394ba701c7d5a955ad63 := by decide +kernel

private theorem kuz_mac2_r4 : LSX 0x3d4553d8e9cfec6815ebadc40a9ffd04 0x8804eb5df821394ba701c7d5a955ad63 =
    0xcf565781fd5baf2465530694d537597d := by decide +kernel

private theorem kuz_mac2_r5 : LSX 0x57646468c44a5e28d3e59246f429f1ac 0xcf565781fd5baf2465530694d537597d =
    0x545442667924c03fb8d4ec2b9b74de21 := by decide +kernel

private theorem kuz_mac2_r6 : LSX 0xbd079435165c6432b532e82834da581b 0x545442667924c03fb8d4ec2b9b74de21 =
    0x9d186b4bed23220ca38815815e050f0e := by decide +kernel

private theorem kuz_mac2_r7 : LSX 0x51e640757e8745de705727265a0098b1 0x9d186b4bed23220ca38815815e050f0e =
    0x21a9a1a383ccf8523533b8e5023ed660 := by decide +kernel

private theorem kuz_mac2_r8 : LSX 0x5a7925017b9fdd3ed72a91a22286f984 0x21a9a1a383ccf8523533b8e5023ed660 =
    0x2e9dec551fb4074918df18773e165332 := by decide +kernel

private theorem kuz_mac2_r9 : LSX 0xbb44e25378c73123a5f32f73cdb6e517 0x2e9dec551fb4074918df18773e165332 =
    0x68200402ee8ac2ae2fb45598d036d091 := by decide +kernel

theorem kuz_mac2 : enc kuzKey 0x7f76bfa3fae94247d2df27f9753a12c7 = 0x1ac9d976f83636f55ae9ef305e7c90d2 := by
  rw [enc, kuz_round_keys]
  simp only [encWith, kuz_mac2_r1, kuz_mac2_r2, kuz_mac2_r3, kuz_mac2_r4, kuz_mac2_r5, kuz_mac2_r6, kuz_mac2_r7, kuz_mac2_r8, kuz_mac2_r9]
  decide +kernel

private theorem kuz_mac3_r1 : LSX 0x8899aabbccddeeff0011223344556677 0x0bebea32ad50417dc34354fcb0839ad2 =
    0x35906024e8e0222253d8990a4565fbe2 := by decide +kernel

private theorem kuz_mac3_r2 : LSX 0xfedcba98765432100123456789abcdef 0x35906024e8e0222253d8990a4565fbe2 =
    0x2f8deefe0a7d3e45fd79200c33191aaf := by decide +kernel

private theorem kuz_mac3_r3 : LSX 0xdb31485315694343228d6aef8cc78c44 0x2f8deefe0a7d3e45fd79200c33191aaf =
    0x4ca7a7853a646e6770c7a6aac9338c50 := by decide +kernel

private theorem kuz_mac3_r4 : LSX 0x3d4553d8e9cfec6815ebadc40a9ffd04 0x4ca7a7853a646e6770c7a6aac9338c50 =
    0x0886ef92c1d1cbd59c94e7042a6c4833 := by decide +kernel

private theorem kuz_mac3_r5 : LSX 0x57646468c44a5e28d3e59246f429f1ac 0x0886ef92c1d1cbd59c94e7042a6c4833 =
    0x6f602765cf2ad0dbac16c81e55251b4a := by decide +kernel

private theorem kuz_mac3_r6 : LSX 0xbd079435165c6432b532e82834da581b 0x6f602765cf2ad0dbac16c81e55251b4a =
    0xdd103f449158b6ed7fdc294304b027d1 := by decide +kernel

private theorem kuz_mac3_r7 : LSX 0x51e640757e8745de705727265a0098b1 0xdd103f449158b6ed7fdc294304b027d1 =
    0x0836023fe4ea3090f134b8526c112160 := by decide +kernel

private theorem kuz_mac3_r8 : LSX 0x5a7925017b9fdd3ed72a91a22286f984 0x0836023fe4ea3090f134b8526c112160 =
    0xe4b25c3dbc4366ad05931014cb5a5bc0 := by decide +kernel

private theorem kuz_mac3_r9 : LSX 0xbb44e25378c73123a5f32f73cdb6e517 0xe4b25c3dbc4366ad05931014cb5a5bc0 =
    0x678d8780b132a4f2deb561e3fb07a3b1 := by decide +kernel

theorem kuz_mac3 : enc kuzKey 0x0bebea32ad50417dc34354fcb0839ad2 = 0x15645af4a78e50a9abe8db4b754de3f2 := by
  rw [enc, kuz_round_keys]
  simp only [encWith, kuz_mac3_r1, kuz_mac3_r2, kuz_mac3_r3, kuz_mac3_r4, kuz_mac3_r5, kuz_mac3_r6, kuz_mac3_r7, kuz_mac3_r8, kuz_mac3_r9]
  decide +kernel

private theorem kuz_mac4_r1 : LSX 0x8899aabbccddeeff0011223344556677 0x1e2a9c1d8cc03bfa0cb340971252fe24 =
    0xa885d384af98000a62643397519c2766 := by decide +kernel

private theorem kuz_mac4_r2 : LSX 0xfedcba98765432100123456789abcdef 0xa885d384af98000a62643397519c2766 =
    0xfc0f766a95e2e70da16864daf369998c := by decide +kernel

private theorem kuz_mac4_r3 : LSX 0xdb31485315694343228d6aef8cc78c44 0xfc0f766a95e2e70da16864daf369998c =
    0x292f12cb1d50df566f99d80a452d7ea4 := by decide +kernel

private theorem kuz_mac4_r4 : LSX 0x3d4553d8e9cfec6815ebadc40a9ffd04 0x292f12cb1d50df566f99d80a452d7ea4 =
    0x237d2920f1731a2d24f79f2845e176a7 := by decide +kernel

private theorem kuz_mac4_r5 : LSX 0x57646468c44a5e28d3e59246f429f1ac 0x237d2920f1731a2d24f79f2845e176a7 =
    0xfa85c418390d931b9590e602f1beabd7 := by decide +kernel

private theorem kuz_mac4_r6 : LSX 0xbd079435165c6432b532e82834da581b 0xfa85c418390d931b9590e602f1beabd7 =
    0x48544d1bd50d9c2fe2c44f7b5e099c3c := by decide +kernel

private theorem kuz_mac4_r7 : LSX 0x51e640757e8745de705727265a0098b1 0x48544d1bd50d9c2fe2c44f7b5e099c3c =
    0x28ee3272d06f046d368870bec0b09f55 := by decide +kernel

private theorem kuz_mac4_r8 : LSX 0x5a7925017b9fdd3ed72a91a22286f984 0x28ee3272d06f046d368870bec0b09f55 =
    0x51aebb7a2ea41561e12098eb1f528b2b := by decide +kernel

private theorem kuz_mac4_r9 : LSX 0xbb44e25378c73123a5f32f73cdb6e517 0x51aebb7a2ea41561e12098eb1f528b2b =
    0x4186905d76e50fb8388309f3b93edc24 := by decide +kernel

theorem kuz_mac4 : enc kuzKey 0x1e2a9c1d8cc03bfa0cb340971252fe24 = 0x336f4d296059fbe34ddeb35b37749c67 := by
  rw [enc, kuz_round_keys]
  simp only [encWith, kuz_mac4_r1, kuz_mac4_r2, kuz_mac4_r3, kuz_mac4_r4, kuz_mac4_r5, kuz_mac4_r6, kuz_mac4_r7, kuz_mac4_r8, kuz_mac4_r9]
  decide +kernel

theorem kuz_ctr : ctr (k := 64) (enc kuzKey) 0x1234567890abcef0 kuzText =
    [0xf195d8bec10ed1dbd57b5fa240bda1b8, 0x85eee733f6a13e5df33ce4b33c45dee4,
     0xa5eae88be6356ed3d5e877f13564a3a5, 0xcb91fab1f20cbab6d1c6d15820bdba73] := by
  have c0 : counter (k := 64) 0x1234567890abcef0 0 = 0x1234567890abcef00000000000000000 := by decide
  have c1 : counter (k := 64) 0x1234567890abcef0 1 = 0x1234567890abcef00000000000000001 := by decide
  have c2 : counter (k := 64) 0x1234567890abcef0 2 = 0x1234567890abcef00000000000000002 := by decide
  have c3 : counter (k := 64) 0x1234567890abcef0 3 = 0x1234567890abcef00000000000000003 := by decide
  simp only [ctr, kuzText, List.mapIdx_cons, List.mapIdx_nil, Nat.zero_add, Nat.reduceAdd, c0, c1, c2,
    c3]
  rw [kuz_ctr1, kuz_ctr2, kuz_ctr3, kuz_ctr4]
  decide +kernel

theorem kuz_mac : omac (enc kuzKey) (macK1 (enc kuzKey) 0x87)
    [0x1122334455667700ffeeddccbbaa9988, 0x00112233445566778899aabbcceeff0a,
     0x112233445566778899aabbcceeff0a00] 0x2233445566778899aabbcceeff0a0011 =
    0x336f4d296059fbe34ddeb35b37749c67 := by
  have k1 : macK1 (enc kuzKey) 0x87 = 0x297d82bc4d39e3ca0de0573298151dc7 := by
    rw [macK1, kuz_zero]; decide
  have x1 : ((0x1122334455667700ffeeddccbbaa9988 : Block) ^^^ 0) =
    0x1122334455667700ffeeddccbbaa9988 := by decide
  have x2 : ((0x00112233445566778899aabbcceeff0a : Block) ^^^ 0x7f679d90bebc24305a468d42b9d4edcd) =
    0x7f76bfa3fae94247d2df27f9753a12c7 := by decide
  have x3 : ((0x112233445566778899aabbcceeff0a00 : Block) ^^^ 0x1ac9d976f83636f55ae9ef305e7c90d2) =
    0x0bebea32ad50417dc34354fcb0839ad2 := by decide
  have x4 : ((0x2233445566778899aabbcceeff0a0011 : Block) ^^^ 0x15645af4a78e50a9abe8db4b754de3f2 ^^^
    0x297d82bc4d39e3ca0de0573298151dc7) = 0x1e2a9c1d8cc03bfa0cb340971252fe24 := by decide
  simp only [omac, chain, List.foldl_cons, List.foldl_nil, k1,
    x1, kuz_ecb1, x2, kuz_mac2, x3, kuz_mac3, x4, kuz_mac4]

end Kuznyechik
end Spec.Vectors
