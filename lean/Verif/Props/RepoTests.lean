import Verif.Model.TestSupport
import Verif.Props.Vectors
import Verif.Props.KeySchedule
/-
The unit tests of the repository (/repo/test, /repo/test_package), run in the model. These are tests of
the model, not properties: each compares the model with a value that the authors have obtained from the
code on a processor. They are accepted by the kernel evaluating the model itself, except those marked,
which follow from a general theorem and the examples of the specification (Verif.Spec.Vectors), because
a whole kuznyechik encryption is too long to evaluate.
-/
namespace Goost.Props.RepoTests
open Goost.TestSupport Spec Spec.Modes Spec.Vectors

/-- The key of the tests of magma. -/
def key1 : Magma.Key := Magma.LazyKey.ofString
  "ffeeddccbbaa99887766554433221100f0f1f2f3f4f5f6f7f8f9fafbfcfdfeff".toList

/-- The key of the tests of gost89 (and `key2` of test/magma/BlkEncryptedTest.cpp). -/
def key2 : Magma.Key := Magma.LazyKey.ofNative [0xE0F67504, 0xFAFB3850, 0x90C3C7D2, 0x3DCAB3ED,
  0x42124715, 0x8A1EAE91, 0x9ECD792F, 0xBDEFBCD2] TestSbox

/-- The message of GOST R 34.13-2015, A.2. -/
def message : List Char :=
  "92def06b3c130a59db54c704f8189d204a98fb2e67a8024c8912409b17b57e41".toList

private theorem map_join64_inj {a b : List (W64 × W64)} (h : a.map join64 = b.map join64) : a = b :=
  List.map_injective_iff.mpr (fun _ _ => join64_inj) h

/-! ### test/Hex64SourceTest.cpp -/

/-- `Hex64Source should should convert GOST representation to byte stream` -/
example : (SourceText.asString (W := Unit) Hex64Source.read 9
      "92def06b3c130a59db54c704f8189d20".toList ()).1 =
    .ok "590a133c6bf0de92209d18f804c754db".toList := by decide +kernel

/-! ### test/magma -/

/-- test/magma/BlkDecryptedTest.cpp: R3412_A25 -/
example : magmaBlockEqual .x86 (Magma.BlkDecrypted (.str "4ee901e5c2d8ca3d".toList) key1)
    (.str "fedcba9876543210".toList) = .ok true := by decide +kernel

/-- test/magma/BlkEncryptedTest.cpp: R3412_A24 -/
example : (do let b ← Magma.BlkRaw.ofBytes [0x10, 0x32, 0x54, 0x76, 0x98, 0xba, 0xdc, 0xfe]
              magmaBlockShows .x86 (Magma.BlkEncrypted b key1) "4ee901e5c2d8ca3d".toList) = .ok true := by decide +kernel

/-- test/magma/BlkEncryptedTest.cpp: R3412_A262_1 -/
example : magmaBlockShows .x86 (Magma.BlkEncrypted (Magma.BlkRaw.ofU64 0x92def06b3c130a59) key1)
    "2b073f0494f372a0".toList = .ok true := by decide +kernel

/-- test/magma/BlkEncryptedTest.cpp: R3412_A262_2 -/
example : magmaBlockShows .x86 (Magma.BlkEncrypted (Magma.BlkRaw.ofU64 0xf053f8006cebef80) key1)
    "c89ed814fd5e18e9".toList = .ok true := by decide +kernel

/-- test/magma/BlkEncryptedTest.cpp: R3412_A262_3 -/
example : magmaBlockShows .x86 (Magma.BlkEncrypted (Magma.BlkRaw.ofU64 0x8206233a9af61aa5) key1)
    "f739b18d34289b00".toList = .ok true := by decide +kernel

/-- test/magma/BlkEncryptedTest.cpp: R3412_A262_4 -/
example : magmaBlockShows .x86 (Magma.BlkEncrypted (Magma.BlkRaw.ofU64 0x216e6a2561cff165) key1)
    "154e72102030c5bb".toList = .ok true := by decide +kernel

/-- test/magma/BlkEncryptedTest.cpp: TestSboxbyteEncryption #1 -/
example : magmaBlockShows .x86 (Magma.BlkEncrypted (Magma.BlkRaw.ofU64 0x0001020304050607) key2)
    "ea4af215984c8c4b".toList = .ok true := by decide +kernel

/-- test/magma/BlkEncryptedTest.cpp: TestSboxbyteEncryption #2 -/
example : magmaBlockShows .x86 (Magma.BlkEncrypted (Magma.BlkRaw.ofU64 0x08090a0b0c0d0e0f) key2)
    "d12ebcb30957c31e".toList = .ok true := by decide +kernel

/-- test/magma/BlkStringTest.cpp -/
example : magmaBlockShows .x86 (.str "1".toList) "0000000000000001".toList = .ok true := by decide +kernel

/-- test/magma/BlkSwappedTest.cpp -/
example : magmaBlockShows .x86 (.swapped (.str "aaaaaaaa55555555".toList))
    "55555555aaaaaaaa".toList = .ok true := by decide +kernel

/-- test/magma/CFBSinkTest.cpp -/
example : ((do
    let text ← TestSinkText.asString (Magma.CFBSink.write .x86 TestSink.write) (Magma.CFBSink.finalize .x86 TestSink.write)
      Hex64Source.read (Magma.CFBSink.new [] key1 0x1234567890abcdef 0x234567890abcdef1) message
    SourceMatch.accepts Hex64Source.read 40
      "db37e0e266903c830d46644c1f9a089c24bdd2035315d38bbcc0321421075505".toList text :
        Io Unit Bool) ()).1 = .ok true := by decide +kernel

/-- test/magma/CFBSourceTest.cpp -/
example : ((do
    let text ← SourceText.asString (Magma.CFBSource.read .x86 Hex64Source.read) 40
      (Magma.CFBSource.new "db37e0e266903c830d46644c1f9a089c24bdd2035315d38bbcc0321421075505".toList
        key1 0x1234567890abcdef 0x234567890abcdef1)
    SourceMatch.accepts Hex64Source.read 40 message text : Io Unit Bool) ()).1 = .ok true := by decide +kernel

/-- test/magma/ECBSinkTest.cpp -/
example : ((do
    let text ← TestSinkText.asString (Magma.ECBSink.write TestSink.write) Magma.ECBSink.finalize
      Hex64Source.read ⟨[], key1⟩ message
    SourceMatch.accepts Hex64Source.read 40
      "2b073f0494f372a0de70e715d3556e4811d8d9e9eacfbc1e7c68260996c67efb".toList text :
        Io Unit Bool) ()).1 = .ok true := by decide +kernel

/-- test/magma/ECBSourceTest.cpp -/
example : ((do
    let key ← Io.lift (HexContainer.makeKey
      "ffeeddccbbaa99887766554433221100f0f1f2f3f4f5f6f7f8f9fafbfcfdfeff".toList)
    let text ← SourceText.asString (Magma.ECBSource.read .x86 Hex64Source.read) 40
      (.ecb "2b073f0494f372a0de70e715d3556e4811d8d9e9eacfbc1e7c68260996c67efb".toList key)
    SourceMatch.accepts Hex64Source.read 40 message text : Io Unit Bool) ()).1 = .ok true := by decide +kernel

/-- test/magma/EncryptionBaseTest.cpp: R3412_A24 -/
example : encryptionBaseRepr key1 0xfedcba9876543210 = .ok "4ee901e5c2d8ca3d".toList := by decide +kernel

/-- test/magma/EncryptionBaseTest.cpp: R3412_A262_1 -/
example : encryptionBaseRepr key1 0x92def06b3c130a59 = .ok "2b073f0494f372a0".toList := by decide +kernel

/-- test/magma/EncryptionBaseTest.cpp: R3412_A262_2 -/
example : encryptionBaseRepr key1 0xf053f8006cebef80 = .ok "c89ed814fd5e18e9".toList := by decide +kernel

/-- test/magma/EncryptionBaseTest.cpp: R3412_A262_3 -/
example : encryptionBaseRepr key1 0x8206233a9af61aa5 = .ok "f739b18d34289b00".toList := by decide +kernel

/-- test/magma/EncryptionBaseTest.cpp: R3412_A262_4 -/
example : encryptionBaseRepr key1 0x216e6a2561cff165 = .ok "154e72102030c5bb".toList := by decide +kernel

/-- test/magma/ImitTest.cpp -/
example : ((do
    let v ← Magma.Imit.value .x86 Hex64Source.read 10 message (some key1)
    return magmaRepr v == "154e72102030c5bb".toList : Io Unit Bool) ()).1 = .ok true := by decide +kernel

/-- `KeyDataRandom` (test/magma/KeyCachedDataTest.cpp:19-32): every call advances the engine. The engine
is that of libstdc++ (`minstd_rand0`, first state 1). -/
def randomKey (o : Nat) (_ : Int) : Exec W32 × Nat :=
  (.ok (BitVec.ofNat 32 (16807 * o % 2147483647)), 16807 * o % 2147483647)

/-- test/magma/KeyCachedDataTest.cpp: the text is made twice and is the same. The words are those of the
engine. -/
example : let r := (runCalls (fun i s => Magma.KeyCachedData.key randomKey i s.1 s.2)
      [0, 1, 2, 3, 4, 5, 6, 7, 0, 1, 2, 3, 4, 5, 6, 7] ({}, 1)).1
    r.take 8 = r.drop 8 ∧ r.take 2 = [.ok 16807, .ok 282475249] := by decide +kernel

/-- test/magma/KeyDataNativeTest.cpp -/
example : keyDataRepr (Magma.KeyDataNative [0xE0F67504, 0xFAFB3850, 0x90C3C7D2, 0x3DCAB3ED,
      0x42124715, 0x8A1EAE91, 0x9ECD792F, 0xBDEFBCD2]) =
    .ok "0475f6e05038fbfad2c7c390edb3ca3d1547124291ae1e8a2f79cd9ed2bcefbd".toList := by decide +kernel

/-- test/magma/KeyDataStringTest.cpp -/
example : keyDataRepr (Magma.KeyDataString
      "ffeeddccbbaa99887766554433221100f0f1f2f3f4f5f6f7f8f9fafbfcfdfeff".toList) =
    .ok "ccddeeff8899aabb4455667700112233f3f2f1f0f7f6f5f4fbfaf9f8fffefdfc".toList := by decide +kernel

/-- test/magma/SboxNibbleTest.cpp: Sbox transformation 1 -/
example : transformedRepr (Magma.SboxNibble Magma.SboxR3412.tables) 0xfdb97531 = .ok "2a196f34".toList := by decide +kernel

/-- test/magma/SboxNibbleTest.cpp: Sbox transformation 2 -/
example : transformedRepr (Magma.SboxNibble Magma.SboxR3412.tables) 0x2a196f34 = .ok "ebd9f03a".toList := by decide +kernel

/-- test/magma/SboxNibbleTest.cpp: Sbox transformation 3 -/
example : transformedRepr (Magma.SboxNibble Magma.SboxR3412.tables) 0xebd9f03a = .ok "b039bb3d".toList := by decide +kernel

/-- test/magma/SboxNibbleTest.cpp: Sbox transformation 4 -/
example : transformedRepr (Magma.SboxNibble Magma.SboxR3412.tables) 0xb039bb3d = .ok "68695433".toList := by decide +kernel

/-- test/magma/SboxTwistedTest.cpp: Sbox transformation 1 -/
example : transformedRepr (Magma.SboxTwisted (Magma.SboxNibble Magma.SboxR3412.tables)) (0x87654321 + 0xfedcba98) =
    .ok "fdcbc20c".toList := by decide +kernel

/-- test/magma/SboxTwistedTest.cpp: Sbox transformation 2 -/
example : transformedRepr (Magma.SboxTwisted (Magma.SboxNibble Magma.SboxR3412.tables)) (0xfdcbc20c + 0x87654321) =
    .ok "7e791a4b".toList := by decide +kernel

/-- test/magma/SboxTwistedTest.cpp: Sbox transformation 3 -/
example : transformedRepr (Magma.SboxTwisted (Magma.SboxNibble Magma.SboxR3412.tables)) (0x7e791a4b + 0xfdcbc20c) =
    .ok "c76549ec".toList := by decide +kernel

/-- test/magma/SboxTwistedTest.cpp: Sbox transformation 4 -/
example : transformedRepr (Magma.SboxTwisted (Magma.SboxNibble Magma.SboxR3412.tables)) (0xc76549ec + 0x7e791a4b) =
    .ok "9791c849".toList := by decide +kernel

/-! ### test/gost89 -/

/-- test/gost89/BlkEncryptedTest.cpp -/
example : (do let v ← (Magma.BlkEncrypted (.raw 0x04050607 0x00010203) key2).value .x86
              HexMatch.accepts "EA4AF215984C8C4B".toList (magmaRepr v)) = .ok true := by decide +kernel

/-- test/gost89/CFBSinkTest.cpp -/
example : ((do
    let text ← TestSinkText.asString (Gost89.CFBSink.write .x86 TestSink.write) (Gost89.CFBSink.finalize .x86 TestSink.write)
      Hex64Source.read (Gost89.CFBSink.new [] key2 0x47E3A8FFC3A7802A) "33333333CCCCCCCCCCCCCCCC33333333".toList
    SourceMatch.accepts Hex64Source.read 40
      "4B64BD1043224C3B0FAA6CD95548EB99".toList text :
        Io Unit Bool) ()).1 = .ok true := by decide +kernel

/-- test/gost89/CFBSourceTest.cpp -/
example : ((do
    let text ← SourceText.asString (Gost89.CFBSource.read .x86 Hex64Source.read) 40
      (Gost89.CFBSource.new "4B64BD1043224C3B0FAA6CD95548EB99".toList key2 0x47E3A8FFC3A7802A)
    SourceMatch.accepts Hex64Source.read 40 "33333333CCCCCCCCCCCCCCCC33333333".toList text : Io Unit Bool) ()).1 = .ok true := by decide +kernel

/-! ### test/kuznyechik -/

/-- test/kuznyechik/BlkCachedTest.cpp: the wrapped block answers differently every time. -/
example : ∀ (f : Nat → W64 × W64),
    (runCalls (fun _ s => Kuz.BlkCached.value (fun (o : Nat) => (.ok (f o), o + 1)) s.1 s.2) [(), ()]
      ({}, 0)).1 = [.ok (f 0), .ok (f 0)] := fun _ => rfl

/-- test/kuznyechik/BlkEncryptedTest.cpp: R3412_A11_1. By C37 and the example of the specification. -/
example : (do let key ← Kuz.Key.ofString kuzKeyText
              kuzBlockShows .x86 (Kuz.BlkEncrypted (.str "1122334455667700ffeeddccbbaa9988".toList) key)
                "7f679d90bebc24305a468d42b9d4edcd".toList) = .ok true := by
  obtain ⟨key, r, h1, h2, h3⟩ := C37_conforms .x86 rfl kuzKeyText (by decide) (by decide)
    (.str "1122334455667700ffeeddccbbaa9988".toList) (0xffeeddccbbaa9988, 0x1122334455667700) (by decide +kernel)
  rw [kuzKeyText_value, show join64 (0xffeeddccbbaa9988, 0x1122334455667700) = 0x1122334455667700ffeeddccbbaa9988 from rfl, kuz_ecb1] at h3
  rw [h1, Exec.ok_bind, kuzBlockShows, h2,
    join64_inj (u := r) (v := (0x5a468d42b9d4edcd, 0x7f679d90bebc2430)) h3]
  decide

/-- test/kuznyechik/BlkEncryptedTest.cpp: R3412_A11_2. By C37 and the example of the specification. -/
example : (do let key ← Kuz.Key.ofString kuzKeyText
              kuzBlockShows .x86 (Kuz.BlkEncrypted (.str "00112233445566778899aabbcceeff0a".toList) key)
                "b429912c6e0032f9285452d76718d08b".toList) = .ok true := by
  obtain ⟨key, r, h1, h2, h3⟩ := C37_conforms .x86 rfl kuzKeyText (by decide) (by decide)
    (.str "00112233445566778899aabbcceeff0a".toList) (0x8899aabbcceeff0a, 0x0011223344556677) (by decide +kernel)
  rw [kuzKeyText_value, show join64 (0x8899aabbcceeff0a, 0x0011223344556677) = 0x00112233445566778899aabbcceeff0a from rfl, kuz_ecb2] at h3
  rw [h1, Exec.ok_bind, kuzBlockShows, h2,
    join64_inj (u := r) (v := (0x285452d76718d08b, 0xb429912c6e0032f9)) h3]
  decide

/-- test/kuznyechik/BlkEncryptedTest.cpp: R3412_A11_3. By C37 and the example of the specification. -/
example : (do let key ← Kuz.Key.ofString kuzKeyText
              kuzBlockShows .x86 (Kuz.BlkEncrypted (.str "112233445566778899aabbcceeff0a00".toList) key)
                "f0ca33549d247ceef3f5a5313bd4b157".toList) = .ok true := by
  obtain ⟨key, r, h1, h2, h3⟩ := C37_conforms .x86 rfl kuzKeyText (by decide) (by decide)
    (.str "112233445566778899aabbcceeff0a00".toList) (0x99aabbcceeff0a00, 0x1122334455667788) (by decide +kernel)
  rw [kuzKeyText_value, show join64 (0x99aabbcceeff0a00, 0x1122334455667788) = 0x112233445566778899aabbcceeff0a00 from rfl, kuz_ecb3] at h3
  rw [h1, Exec.ok_bind, kuzBlockShows, h2,
    join64_inj (u := r) (v := (0xf3f5a5313bd4b157, 0xf0ca33549d247cee)) h3]
  decide

/-- test/kuznyechik/BlkEncryptedTest.cpp: R3412_A11_4. By C37 and the example of the specification. -/
example : (do let key ← Kuz.Key.ofString kuzKeyText
              kuzBlockShows .x86 (Kuz.BlkEncrypted (.str "2233445566778899aabbcceeff0a0011".toList) key)
                "d0b09ccde830b9eb3a02c4c5aa8ada98".toList) = .ok true := by
  obtain ⟨key, r, h1, h2, h3⟩ := C37_conforms .x86 rfl kuzKeyText (by decide) (by decide)
    (.str "2233445566778899aabbcceeff0a0011".toList) (0xaabbcceeff0a0011, 0x2233445566778899) (by decide +kernel)
  rw [kuzKeyText_value, show join64 (0xaabbcceeff0a0011, 0x2233445566778899) = 0x2233445566778899aabbcceeff0a0011 from rfl, kuz_ecb4] at h3
  rw [h1, Exec.ok_bind, kuzBlockShows, h2,
    join64_inj (u := r) (v := (0x3a02c4c5aa8ada98, 0xd0b09ccde830b9eb)) h3]
  decide
/-- test/kuznyechik/BlkIncrementedTest.cpp -/
example : kuzBlockShows .x86 (.incremented (.str "ffffffffffffffff".toList))
    "00000000000000010000000000000000".toList = .ok true := by decide +kernel

/-- test/kuznyechik/BlkIterKeyTest.cpp: R3412_A14_K1 … K10. By C91 and the example of the specification.
The ten blocks are made in the test as in `Key`. -/
example : (do let high ← Kuz.KeyDataString.high kuzKeyText
              let low ← Kuz.KeyDataString.low kuzKeyText
              let k := Kuz.Key.ofBlocks high low
              let v1 ← k.k1.value .x86
              let v2 ← k.k2.value .x86
              let v3 ← k.k3.value .x86
              let v4 ← k.k4.value .x86
              let v5 ← k.k5.value .x86
              let v6 ← k.k6.value .x86
              let v7 ← k.k7.value .x86
              let v8 ← k.k8.value .x86
              let v9 ← k.k9.value .x86
              let v10 ← k.k10.value .x86
              return [v1, v2, v3, v4, v5, v6, v7, v8, v9, v10].map kuzRepr) = .ok
    ["8899aabbccddeeff0011223344556677".toList, "fedcba98765432100123456789abcdef".toList,
     "db31485315694343228d6aef8cc78c44".toList, "3d4553d8e9cfec6815ebadc40a9ffd04".toList,
     "57646468c44a5e28d3e59246f429f1ac".toList, "bd079435165c6432b532e82834da581b".toList,
     "51e640757e8745de705727265a0098b1".toList, "5a7925017b9fdd3ed72a91a22286f984".toList,
     "bb44e25378c73123a5f32f73cdb6e517".toList, "72e9dd7416bcf45b755dbaa88e4a4043".toList] := by
  obtain ⟨vs, h1, h2⟩ := C91_round_keys .x86 rfl (.str (kuzKeyText.take 32))
    (.str ((kuzKeyText.drop 32).take 32)) (0x0011223344556677, 0x8899aabbccddeeff)
    (0x0123456789abcdef, 0xfedcba9876543210) (by decide +kernel) (by decide +kernel) 0
  rw [show join64 (0x0011223344556677, 0x8899aabbccddeeff) ++
    join64 (0x0123456789abcdef, 0xfedcba9876543210) = kuzKey from rfl, kuz_round_keys] at h2
  have hv : vs = [(0x0011223344556677, 0x8899aabbccddeeff), (0x0123456789abcdef, 0xfedcba9876543210),
      (0x228d6aef8cc78c44, 0xdb31485315694343), (0x15ebadc40a9ffd04, 0x3d4553d8e9cfec68),
      (0xd3e59246f429f1ac, 0x57646468c44a5e28), (0xb532e82834da581b, 0xbd079435165c6432),
      (0x705727265a0098b1, 0x51e640757e8745de), (0xd72a91a22286f984, 0x5a7925017b9fdd3e),
      (0xa5f32f73cdb6e517, 0xbb44e25378c73123), (0x755dbaa88e4a4043, 0x72e9dd7416bcf45b)] := by
    apply map_join64_inj
    rw [h2]
    rfl
  subst hv
  simp only [List.map_cons, List.map_nil, List.cons.injEq, and_true] at h1
  obtain ⟨e1, e2, e3, e4, e5, e6, e7, e8, e9, e10⟩ := h1
  have g1 : Kuz.KeyDataString.high kuzKeyText = .ok (.str (kuzKeyText.take 32)) := rfl
  have g2 : Kuz.KeyDataString.low kuzKeyText = .ok (.str ((kuzKeyText.drop 32).take 32)) := rfl
  rw [g1, Exec.ok_bind, g2, Exec.ok_bind]
  show (Kuz.Blk.value .x86 (Kuz.Key.ofBlocks _ _).k1 >>= _) = _
  rw [e1, Exec.ok_bind, e2, Exec.ok_bind, e3, Exec.ok_bind, e4,
    Exec.ok_bind, e5, Exec.ok_bind, e6, Exec.ok_bind, e7, Exec.ok_bind, e8, Exec.ok_bind, e9,
    Exec.ok_bind, e10]
  decide +kernel
/-- test/kuznyechik/BlkLTest.cpp: R3412_A13_1 -/
example : kuzBlockShows .x86 (Kuz.BlkL (.str "64a59400000000000000000000000000".toList))
    "d456584dd0e3e84cc3166e4b7fa2890d".toList = .ok true := by decide +kernel

/-- test/kuznyechik/BlkLTest.cpp: R3412_A13_2 -/
example : kuzBlockShows .x86 (Kuz.BlkL (.str "d456584dd0e3e84cc3166e4b7fa2890d".toList))
    "79d26221b87b584cd42fbc4ffea5de9a".toList = .ok true := by decide +kernel

/-- test/kuznyechik/BlkLTest.cpp: R3412_A13_3 -/
example : kuzBlockShows .x86 (Kuz.BlkL (.str "79d26221b87b584cd42fbc4ffea5de9a".toList))
    "0e93691a0cfc60408b7b68f66b513c13".toList = .ok true := by decide +kernel

/-- test/kuznyechik/BlkLTest.cpp: R3412_A13_4 -/
example : kuzBlockShows .x86 (Kuz.BlkL (.str "0e93691a0cfc60408b7b68f66b513c13".toList))
    "e6a8094fee0aa204fd97bcb0b44b8580".toList = .ok true := by decide +kernel

/-- test/kuznyechik/BlkRTest.cpp: R3412_A12_1 -/
example : kuzBlockShows .x86 (.blkR (.str "100".toList))
    "94000000000000000000000000000001".toList = .ok true := by decide +kernel

/-- test/kuznyechik/BlkRTest.cpp: R3412_A12_2 -/
example : kuzBlockShows .x86 (.blkR (.str "94000000000000000000000000000001".toList))
    "a5940000000000000000000000000000".toList = .ok true := by decide +kernel

/-- test/kuznyechik/BlkRTest.cpp: R3412_A12_3 -/
example : kuzBlockShows .x86 (.blkR (.str "a5940000000000000000000000000000".toList))
    "64a59400000000000000000000000000".toList = .ok true := by decide +kernel

/-- test/kuznyechik/BlkRTest.cpp: R3412_A12_4 -/
example : kuzBlockShows .x86 (.blkR (.str "64a59400000000000000000000000000".toList))
    "0d64a594000000000000000000000000".toList = .ok true := by decide +kernel

/-- test/kuznyechik/BlkRawTest.cpp -/
example : kuzBlockShows .x86 (Kuz.BlkRaw.ofU64 1) "00000000000000000000000000000001".toList = .ok true := by decide +kernel

/-- test/kuznyechik/BlkSTest.cpp: R3412_A11_1 -/
example : kuzBlockShows .x86 (.blkS (.str "ffeeddccbbaa99881122334455667700".toList))
    "b66cd8887d38e8d77765aeea0c9a7efc".toList = .ok true := by decide +kernel

/-- test/kuznyechik/BlkSTest.cpp: R3412_A11_2 -/
example : kuzBlockShows .x86 (.blkS (.str "b66cd8887d38e8d77765aeea0c9a7efc".toList))
    "559d8dd7bd06cbfe7e7b262523280d39".toList = .ok true := by decide +kernel

/-- test/kuznyechik/BlkSTest.cpp: R3412_A11_3 -/
example : kuzBlockShows .x86 (.blkS (.str "559d8dd7bd06cbfe7e7b262523280d39".toList))
    "0c3322fed531e4630d80ef5c5a81c50b".toList = .ok true := by decide +kernel

/-- test/kuznyechik/BlkSTest.cpp: R3412_A11_4 -/
example : kuzBlockShows .x86 (.blkS (.str "0c3322fed531e4630d80ef5c5a81c50b".toList))
    "23ae65633f842d29c5df529c13f5acda".toList = .ok true := by decide +kernel

/-- test/kuznyechik/BlkShiftedTest.cpp: Shift on 4 bit -/
example : kuzBlockShows .x86 (.shifted (.str "1".toList) 4)
    "00000000000000000000000000000010".toList = .ok true := by decide +kernel

/-- test/kuznyechik/BlkShiftedTest.cpp: Shift over parts -/
example : kuzBlockShows .x86 (.shifted (.str "ffffffff00000000".toList) 16)
    "000000000000ffffffff000000000000".toList = .ok true := by decide +kernel

/-- test/kuznyechik/BlkXoredTest.cpp -/
example : kuzBlockShows .x86 (.xored (.str "0000000000000000ffffffffffffffff".toList)
      (.str "ffffffffffffffff0000000000000000".toList))
    "ffffffffffffffffffffffffffffffff".toList = .ok true := by decide +kernel

/-- test/kuznyechik/KeyDataStringTest.cpp: High block -/
example : (do let v ← BlkKeyDataHigh.value .x86 kuzKeyText
              return kuzRepr v == "8899aabbccddeeff0011223344556677".toList) = .ok true := by decide +kernel

/-- test/kuznyechik/KeyDataStringTest.cpp: Low block -/
example : (do let v ← BlkKeyDataLow.value .x86 kuzKeyText
              return kuzRepr v == "fedcba98765432100123456789abcdef".toList) = .ok true := by decide +kernel

/-- test/kuznyechik/ImitTest.cpp, and test_package/example.cpp, which compares the whole text. By C50
and the example of the specification. -/
example : (do let key ← Kuz.Key.ofString kuzKeyText
              let v ← Kuz.Imit.value .x86 (Kuz.ItMemory.impl kuzWords) (Kuz.StMemory.iter kuzWords) 4 key
              return ("336f4d296059fbe3".toList.isPrefixOf (kuzRepr v),
                kuzRepr v == "336f4d296059fbe34ddeb35b37749c67".toList)) = .ok (true, true) := by
  obtain ⟨key, hk, he⟩ := kuzKey_encrypts .x86 rfl
  obtain ⟨r, h1, h2⟩ := C50_mac_conforms .x86 key kuzKey he kuzWords rfl
    [(0xffeeddccbbaa9988, 0x1122334455667700), (0x8899aabbcceeff0a, 0x0011223344556677),
     (0x99aabbcceeff0a00, 0x1122334455667788)] (0xaabbcceeff0a0011, 0x2233445566778899) rfl 4
    (by decide)
  have h3 := h2.trans kuz_mac
  rw [hk, Exec.ok_bind, h1, Exec.ok_bind,
    join64_inj (u := r) (v := (0x4ddeb35b37749c67, 0x336f4d296059fbe3)) h3]
  decide

/-- test/kuznyechik/StCTREncryptedTest.cpp: R3413_A121_1 … 4. By C44 and the example of the
specification. -/
example : (do let key ← Kuz.Key.ofString kuzKeyText
              let block := BlkOfStream.value (Kuz.ItCTR.impl .x86 (Kuz.ItMemory.impl kuzWords))
                (Kuz.StCTREncrypted.iter (Kuz.StMemory.iter kuzWords) key 0x1234567890abcef0)
              let v0 ← block 0
              let v1 ← block 1
              let v2 ← block 2
              let v3 ← block 3
              return [v0, v1, v2, v3].map kuzRepr) = .ok
    ["f195d8bec10ed1dbd57b5fa240bda1b8".toList, "85eee733f6a13e5df33ce4b33c45dee4".toList,
     "a5eae88be6356ed3d5e877f13564a3a5".toList, "cb91fab1f20cbab6d1c6d15820bdba73".toList] := by
  obtain ⟨key, hk, he⟩ := kuzKey_encrypts .x86 rfl
  obtain ⟨i, hi, hs⟩ := Shows_memory kuzWords rfl (by simp [kuzWords])
  obtain ⟨j, cs, h1, h2, h3⟩ := C44_ctr_conforms .x86 key kuzKey he _ 16 i _ hs 0x1234567890abcef0
  rw [show (wordPairs kuzWords).map join64 = kuzText from rfl, kuz_ctr] at h3
  have hv : cs = [(0xd57b5fa240bda1b8, 0xf195d8bec10ed1db), (0xf33ce4b33c45dee4, 0x85eee733f6a13e5d),
      (0xd5e877f13564a3a5, 0xa5eae88be6356ed3), (0xd1c6d15820bdba73, 0xcb91fab1f20cbab6)] := by
    apply map_join64_inj
    rw [h3]
    rfl
  subst hv
  obtain ⟨a1, -, -, j1, b1, a2, -, -, j2, b2, a3, -, -, j3, b3, a4, -, -⟩ := h2
  generalize Kuz.ItCTR.impl .x86 (Kuz.ItMemory.impl kuzWords) = it at *
  have q0 : BlkOfStream.value it (.ok (some j)) 0 = _ := a1
  have q1 : BlkOfStream.value it (.ok (some j)) 1 = .ok (0xf33ce4b33c45dee4, 0x85eee733f6a13e5d) := by
    simp only [BlkOfStream.value, BlkOfStream.loop, Kuz.deref, Exec.ok_bind, b1, a2]
  have q2 : BlkOfStream.value it (.ok (some j)) 2 = .ok (0xd5e877f13564a3a5, 0xa5eae88be6356ed3) := by
    simp only [BlkOfStream.value, BlkOfStream.loop, Kuz.deref, Exec.ok_bind, b1, b2, a3]
  have q3 : BlkOfStream.value it (.ok (some j)) 3 = .ok (0xd1c6d15820bdba73, 0xcb91fab1f20cbab6) := by
    simp only [BlkOfStream.value, BlkOfStream.loop, Kuz.deref, Exec.ok_bind, b1, b2, b3, a4]
  rw [hk, Exec.ok_bind, hi, h1]
  simp only [q0, q1, q2, q3, Exec.ok_bind]
  decide +kernel
end Goost.Props.RepoTests
