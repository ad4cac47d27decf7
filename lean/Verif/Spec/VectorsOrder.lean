import Verif.Spec.Vectors
import Verif.Spec.ByteOrder
/-
The example of GOST R 34.12-2015, A.1.5 with the linear transformation that a big-endian machine makes
of the code, computed by the kernel in steps. Nothing here refers to the model.
-/
namespace Spec.Vectors
open Spec.Kuz

private theorem step1 : Fbig (Cbig 1) (0x8899aabbccddeeff0011223344556677, 0xfedcba98765432100123456789abcdef) =
    (0xfac2bbeb9fa9e404ea9734482de03c9c, 0x8899aabbccddeeff0011223344556677) := by decide +kernel

private theorem step2 : Fbig (Cbig 2) (0xfac2bbeb9fa9e404ea9734482de03c9c, 0x8899aabbccddeeff0011223344556677) =
    (0x1029acf8ede1f5582b80e9f594d6e067, 0xfac2bbeb9fa9e404ea9734482de03c9c) := by decide +kernel

private theorem step3 : Fbig (Cbig 3) (0x1029acf8ede1f5582b80e9f594d6e067, 0xfac2bbeb9fa9e404ea9734482de03c9c) =
    (0xe48aa1988311ff4e5774c8adc85ecf78, 0x1029acf8ede1f5582b80e9f594d6e067) := by decide +kernel

private theorem step4 : Fbig (Cbig 4) (0xe48aa1988311ff4e5774c8adc85ecf78, 0x1029acf8ede1f5582b80e9f594d6e067) =
    (0x847726c09f87b00156a89a4054099393, 0xe48aa1988311ff4e5774c8adc85ecf78) := by decide +kernel

private theorem step5 : Fbig (Cbig 5) (0x847726c09f87b00156a89a4054099393, 0xe48aa1988311ff4e5774c8adc85ecf78) =
    (0x73aacd8b473b1b1f8bbaea37b321ea77, 0x847726c09f87b00156a89a4054099393) := by decide +kernel

private theorem step6 : Fbig (Cbig 6) (0x73aacd8b473b1b1f8bbaea37b321ea77, 0x847726c09f87b00156a89a4054099393) =
    (0x400744bb7e94fc0b9ad422366cc934a4, 0x73aacd8b473b1b1f8bbaea37b321ea77) := by decide +kernel

private theorem step7 : Fbig (Cbig 7) (0x400744bb7e94fc0b9ad422366cc934a4, 0x73aacd8b473b1b1f8bbaea37b321ea77) =
    (0xb28a6ded3c66c99c2b8ee44bccbcfc56, 0x400744bb7e94fc0b9ad422366cc934a4) := by decide +kernel

private theorem step8 : Fbig (Cbig 8) (0xb28a6ded3c66c99c2b8ee44bccbcfc56, 0x400744bb7e94fc0b9ad422366cc934a4) =
    (0xf3c69d1680753f19507538f2c7b62843, 0xb28a6ded3c66c99c2b8ee44bccbcfc56) := by decide +kernel

private theorem step9 : Fbig (Cbig 9) (0xf3c69d1680753f19507538f2c7b62843, 0xb28a6ded3c66c99c2b8ee44bccbcfc56) =
    (0x0742026ecb6ae466a2dac7497e1d583b, 0xf3c69d1680753f19507538f2c7b62843) := by decide +kernel

private theorem step10 : Fbig (Cbig 10) (0x0742026ecb6ae466a2dac7497e1d583b, 0xf3c69d1680753f19507538f2c7b62843) =
    (0xb81033f0ddf83c62440b3274f6fd1a06, 0x0742026ecb6ae466a2dac7497e1d583b) := by decide +kernel

private theorem step11 : Fbig (Cbig 11) (0xb81033f0ddf83c62440b3274f6fd1a06, 0x0742026ecb6ae466a2dac7497e1d583b) =
    (0x054f1e2948f711a79ba6becefac70945, 0xb81033f0ddf83c62440b3274f6fd1a06) := by decide +kernel

private theorem step12 : Fbig (Cbig 12) (0x054f1e2948f711a79ba6becefac70945, 0xb81033f0ddf83c62440b3274f6fd1a06) =
    (0x9ca61f5c834d6b4f981608493feb7e45, 0x054f1e2948f711a79ba6becefac70945) := by decide +kernel

private theorem step13 : Fbig (Cbig 13) (0x9ca61f5c834d6b4f981608493feb7e45, 0x054f1e2948f711a79ba6becefac70945) =
    (0x2d705e550b8185e3a4a7d444ba0a7152, 0x9ca61f5c834d6b4f981608493feb7e45) := by decide +kernel

private theorem step14 : Fbig (Cbig 14) (0x2d705e550b8185e3a4a7d444ba0a7152, 0x9ca61f5c834d6b4f981608493feb7e45) =
    (0xcaf190318682231f33b7d1a5e858597b, 0x2d705e550b8185e3a4a7d444ba0a7152) := by decide +kernel

private theorem step15 : Fbig (Cbig 15) (0xcaf190318682231f33b7d1a5e858597b, 0x2d705e550b8185e3a4a7d444ba0a7152) =
    (0xbf0ba2902739ffb4cc9ab96b042ace94, 0xcaf190318682231f33b7d1a5e858597b) := by decide +kernel

private theorem step16 : Fbig (Cbig 16) (0xbf0ba2902739ffb4cc9ab96b042ace94, 0xcaf190318682231f33b7d1a5e858597b) =
    (0x0f62a85017916bdb6d6509f30a447a0b, 0xbf0ba2902739ffb4cc9ab96b042ace94) := by decide +kernel

private theorem step17 : Fbig (Cbig 17) (0x0f62a85017916bdb6d6509f30a447a0b, 0xbf0ba2902739ffb4cc9ab96b042ace94) =
    (0xe7665c7271203c4f52c2ab883806ad92, 0x0f62a85017916bdb6d6509f30a447a0b) := by decide +kernel

private theorem step18 : Fbig (Cbig 18) (0xe7665c7271203c4f52c2ab883806ad92, 0x0f62a85017916bdb6d6509f30a447a0b) =
    (0xf7259ba581aebd9276621f7b040d92c5, 0xe7665c7271203c4f52c2ab883806ad92) := by decide +kernel

private theorem step19 : Fbig (Cbig 19) (0xf7259ba581aebd9276621f7b040d92c5, 0xe7665c7271203c4f52c2ab883806ad92) =
    (0x6404fc7802beab05c2a5790f4275611d, 0xf7259ba581aebd9276621f7b040d92c5) := by decide +kernel

private theorem step20 : Fbig (Cbig 20) (0x6404fc7802beab05c2a5790f4275611d, 0xf7259ba581aebd9276621f7b040d92c5) =
    (0x1a6cfa7d3c69c5e5ffb84aacd8b8a709, 0x6404fc7802beab05c2a5790f4275611d) := by decide +kernel

private theorem step21 : Fbig (Cbig 21) (0x1a6cfa7d3c69c5e5ffb84aacd8b8a709, 0x6404fc7802beab05c2a5790f4275611d) =
    (0xa40847ba8200f20af2693e5ead424d04, 0x1a6cfa7d3c69c5e5ffb84aacd8b8a709) := by decide +kernel

private theorem step22 : Fbig (Cbig 22) (0xa40847ba8200f20af2693e5ead424d04, 0x1a6cfa7d3c69c5e5ffb84aacd8b8a709) =
    (0x4c9de867efece7dab12e9adfb1bfb444, 0xa40847ba8200f20af2693e5ead424d04) := by decide +kernel

private theorem step23 : Fbig (Cbig 23) (0x4c9de867efece7dab12e9adfb1bfb444, 0xa40847ba8200f20af2693e5ead424d04) =
    (0xe9a3b54d0faa6f90512b230e33c7a34a, 0x4c9de867efece7dab12e9adfb1bfb444) := by decide +kernel

private theorem step24 : Fbig (Cbig 24) (0xe9a3b54d0faa6f90512b230e33c7a34a, 0x4c9de867efece7dab12e9adfb1bfb444) =
    (0x6d452f59adbf4f8d87ec9d614d0a5d0a, 0xe9a3b54d0faa6f90512b230e33c7a34a) := by decide +kernel

private theorem step25 : Fbig (Cbig 25) (0x6d452f59adbf4f8d87ec9d614d0a5d0a, 0xe9a3b54d0faa6f90512b230e33c7a34a) =
    (0xd597ef99d38be14e018bf17721310847, 0x6d452f59adbf4f8d87ec9d614d0a5d0a) := by decide +kernel

private theorem step26 : Fbig (Cbig 26) (0xd597ef99d38be14e018bf17721310847, 0x6d452f59adbf4f8d87ec9d614d0a5d0a) =
    (0x9665c44f9d0e7b211e94467bb55cd780, 0xd597ef99d38be14e018bf17721310847) := by decide +kernel

private theorem step27 : Fbig (Cbig 27) (0x9665c44f9d0e7b211e94467bb55cd780, 0xd597ef99d38be14e018bf17721310847) =
    (0x92f90cf353fa07c960f6258306de91fb, 0x9665c44f9d0e7b211e94467bb55cd780) := by decide +kernel

private theorem step28 : Fbig (Cbig 28) (0x92f90cf353fa07c960f6258306de91fb, 0x9665c44f9d0e7b211e94467bb55cd780) =
    (0xa7c05f12da51327aafa83aa2e533adba, 0x92f90cf353fa07c960f6258306de91fb) := by decide +kernel

private theorem step29 : Fbig (Cbig 29) (0xa7c05f12da51327aafa83aa2e533adba, 0x92f90cf353fa07c960f6258306de91fb) =
    (0x3d6466ed46fd1d154b70b9b96a398cf3, 0xa7c05f12da51327aafa83aa2e533adba) := by decide +kernel

private theorem step30 : Fbig (Cbig 30) (0x3d6466ed46fd1d154b70b9b96a398cf3, 0xa7c05f12da51327aafa83aa2e533adba) =
    (0xb9f179306f204ced6dfac37b775bfdfe, 0x3d6466ed46fd1d154b70b9b96a398cf3) := by decide +kernel

private theorem step31 : Fbig (Cbig 31) (0xb9f179306f204ced6dfac37b775bfdfe, 0x3d6466ed46fd1d154b70b9b96a398cf3) =
    (0x9e7c3a961b196884c10f723f9c1a90c6, 0xb9f179306f204ced6dfac37b775bfdfe) := by decide +kernel

private theorem step32 : Fbig (Cbig 32) (0x9e7c3a961b196884c10f723f9c1a90c6, 0xb9f179306f204ced6dfac37b775bfdfe) =
    (0xfde16f7ab3d09f1d5b007520f737d87a, 0x9e7c3a961b196884c10f723f9c1a90c6) := by decide +kernel

private theorem pair0 : keyPairBig kuzKey 0 =
    (0x8899aabbccddeeff0011223344556677, 0xfedcba98765432100123456789abcdef) := by decide +kernel

private theorem pair1 : keyPairBig kuzKey 1 =
    (0xf3c69d1680753f19507538f2c7b62843, 0xb28a6ded3c66c99c2b8ee44bccbcfc56) := by
  rw [show keyPairBig kuzKey 1 = Fbig (Cbig 8) (Fbig (Cbig 7) (Fbig (Cbig 6) (Fbig (Cbig 5) (
    Fbig (Cbig 4) (Fbig (Cbig 3) (Fbig (Cbig 2) (Fbig (Cbig 1) (keyPairBig kuzKey 0)))))))) from rfl,
    pair0, step1, step2, step3, step4, step5, step6, step7, step8]

private theorem pair2 : keyPairBig kuzKey 2 =
    (0x0f62a85017916bdb6d6509f30a447a0b, 0xbf0ba2902739ffb4cc9ab96b042ace94) := by
  rw [show keyPairBig kuzKey 2 = Fbig (Cbig 16) (Fbig (Cbig 15) (Fbig (Cbig 14) (Fbig (Cbig 13) (
    Fbig (Cbig 12) (Fbig (Cbig 11) (Fbig (Cbig 10) (Fbig (Cbig 9) (keyPairBig kuzKey 1)))))))) from rfl,
    pair1, step9, step10, step11, step12, step13, step14, step15, step16]

private theorem pair3 : keyPairBig kuzKey 3 =
    (0x6d452f59adbf4f8d87ec9d614d0a5d0a, 0xe9a3b54d0faa6f90512b230e33c7a34a) := by
  rw [show keyPairBig kuzKey 3 = Fbig (Cbig 24) (Fbig (Cbig 23) (Fbig (Cbig 22) (Fbig (Cbig 21) (
    Fbig (Cbig 20) (Fbig (Cbig 19) (Fbig (Cbig 18) (Fbig (Cbig 17) (keyPairBig kuzKey 2)))))))) from rfl,
    pair2, step17, step18, step19, step20, step21, step22, step23, step24]

private theorem pair4 : keyPairBig kuzKey 4 =
    (0xfde16f7ab3d09f1d5b007520f737d87a, 0x9e7c3a961b196884c10f723f9c1a90c6) := by
  rw [show keyPairBig kuzKey 4 = Fbig (Cbig 32) (Fbig (Cbig 31) (Fbig (Cbig 30) (Fbig (Cbig 29) (
    Fbig (Cbig 28) (Fbig (Cbig 27) (Fbig (Cbig 26) (Fbig (Cbig 25) (keyPairBig kuzKey 3)))))))) from rfl,
    pair3, step25, step26, step27, step28, step29, step30, step31, step32]

private theorem round_keys : roundKeysBig kuzKey =
    [0x8899aabbccddeeff0011223344556677, 0xfedcba98765432100123456789abcdef,
     0xf3c69d1680753f19507538f2c7b62843, 0xb28a6ded3c66c99c2b8ee44bccbcfc56,
     0x0f62a85017916bdb6d6509f30a447a0b, 0xbf0ba2902739ffb4cc9ab96b042ace94,
     0x6d452f59adbf4f8d87ec9d614d0a5d0a, 0xe9a3b54d0faa6f90512b230e33c7a34a,
     0xfde16f7ab3d09f1d5b007520f737d87a, 0x9e7c3a961b196884c10f723f9c1a90c6] := by
  simp only [roundKeysBig, List.range, List.range.loop, List.flatMap_cons, List.flatMap_nil, pair0,
    pair1, pair2, pair3, pair4, List.cons_append, List.nil_append]

private theorem r1 : LSXbig 0x8899aabbccddeeff0011223344556677 0x1122334455667700ffeeddccbbaa9988 =
    0x467630caa704fe6a13b8f725a5f380f0 := by decide +kernel

private theorem r2 : LSXbig 0xfedcba98765432100123456789abcdef 0x467630caa704fe6a13b8f725a5f380f0 =
    0x0c796f651aa834d85b2beeb38a19d06a := by decide +kernel

private theorem r3 : LSXbig 0xf3c69d1680753f19507538f2c7b62843 0x0c796f651aa834d85b2beeb38a19d06a =
    0x777b763d3db88fe10ca23b3ba6b62251 := by decide +kernel

private theorem r4 : LSXbig 0xb28a6ded3c66c99c2b8ee44bccbcfc56 0x777b763d3db88fe10ca23b3ba6b62251 =
    0x9e534a0f5fc9d54617cd40c8c75b5c3c := by decide +kernel

private theorem r5 : LSXbig 0x0f62a85017916bdb6d6509f30a447a0b 0x9e534a0f5fc9d54617cd40c8c75b5c3c =
    0xb17ac866b9e58ba6bcdaa8fcfda2e1c1 := by decide +kernel

private theorem r6 : LSXbig 0xbf0ba2902739ffb4cc9ab96b042ace94 0xb17ac866b9e58ba6bcdaa8fcfda2e1c1 =
    0xe9cf295794da3950a0f717300b8ebf8d := by decide +kernel

private theorem r7 : LSXbig 0x6d452f59adbf4f8d87ec9d614d0a5d0a 0xe9cf295794da3950a0f717300b8ebf8d =
    0x05450bc2e458894af90a17cd5a9c8433 := by decide +kernel

private theorem r8 : LSXbig 0xe9a3b54d0faa6f90512b230e33c7a34a 0x05450bc2e458894af90a17cd5a9c8433 =
    0x6349b8be1cf0b0ca1a49d5eaa4b190d6 := by decide +kernel

private theorem r9 : LSXbig 0xfde16f7ab3d09f1d5b007520f737d87a 0x6349b8be1cf0b0ca1a49d5eaa4b190d6 =
    0xc795e94d2063852d7c7541005aea3171 := by decide +kernel

/-- What a big-endian machine computes instead of the example A.1.5 of GOST R 34.12-2015. -/
theorem kuz_big : encBig kuzKey 0x1122334455667700ffeeddccbbaa9988 = 0x59e9d3db3b7aeda9bd7a333fc6f0a1b7 := by
  rw [encBig, round_keys]
  simp only [encWithBig, r1, r2, r3, r4, r5, r6, r7, r8, r9]
  decide +kernel

/-- It is not the example. -/
theorem kuz_big_ne : encBig kuzKey 0x1122334455667700ffeeddccbbaa9988 ≠
    enc kuzKey 0x1122334455667700ffeeddccbbaa9988 := by
  rw [kuz_big, kuz_ecb1]; decide

end Spec.Vectors
