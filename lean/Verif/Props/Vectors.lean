import Verif.Spec.VectorsModes
import Verif.Props.Cfb
import Verif.Props.Mac
import Verif.Props.KuzStream
import Verif.Props.Kuznyechik
/-
The examples printed in GOST R 34.12-2015 and GOST R 34.13-2015 come out of the model. Each follows
from the general theorem (C03, C12, C18, C32, C37, C44, C50) and the example of the specification in
Verif.Spec.Vectors. They show that the hypotheses of these theorems are met, and they are what the
repository's own tests check on a processor (test/magma, test/kuznyechik).
-/
namespace Goost.Props
open Spec Spec.Modes Spec.Vectors
variable {W σ τ : Type}

theorem kuzKeyText_value : BitVec.ofNat 256 (hexNat kuzKeyText) = kuzKey := by decide +kernel

theorem sampleKeyText_value : BitVec.ofNat 256 (hexNat sampleKeyText) = magmaKey := by
  decide +kernel

/-- GOST R 34.12-2015, A.2.4 with `EncryptionBase`. -/
example : Magma.EncryptionBase.transform (Magma.LazyKey.ofString sampleKeyText) 0xfedcba9876543210 =
    .ok 0x4ee901e5c2d8ca3d := by
  rw [C03_encryptionBase_conforms _ (by decide) (by decide), sampleKeyText_value, magma_enc]

/-- GOST R 34.13-2015, A.2.1 with `ECBSink`: the bytes of a block are in memory order. -/
example (wr : τ → List Byte → Io W τ) (s : τ) :
    Magma.ECBSink.write wr ⟨s, Magma.LazyKey.ofString sampleKeyText⟩ (unblocks64 magmaText) =
      writeAll wr s ([0x2b073f0494f372a0, 0xde70e715d3556e48, 0x11d8d9e9eacfbc1e,
        0x7c68260996c67efb].map bytesOf64) >>= fun s' =>
          pure ⟨s', Magma.LazyKey.ofString sampleKeyText⟩ := by
  rw [C12_conforms wr s _ (by decide) (by decide) _ (by decide), blocks64_unblocks64,
    sampleKeyText_value, magma_ecb]

/-- GOST R 34.13-2015, A.2.5 with `CFBSink`, the message written in two unequal pieces. -/
example (m : Machine) (wr : τ → List Byte → Io W τ) (s : τ) :
    (do let t ← writeAll (Magma.CFBSink.write m wr) (Magma.CFBSink.new s
          (Magma.LazyKey.ofString sampleKeyText) 0x1234567890abcdef 0x234567890abcdef1)
          [(unblocks64 magmaText).take 13, (unblocks64 magmaText).drop 13]
        pure t.sink) =
      writeAll wr s ([0xdb37e0e266903c83, 0x0d46644c1f9a089c, 0x24bdd2035315d38b,
        0xbcc0321421075505].map bytesOf64) := by
  rw [C18_conforms m wr s _ (by decide) (by decide)]
  simp only [List.flatten_cons, List.flatten_nil, List.append_nil, List.take_append_drop]
  rw [blocks64_unblocks64, sampleKeyText_value, magma_cfb]

/-- GOST R 34.13-2015, A.2.6 with `Imit` over any source of the message. -/
example (rd : σ → Nat → Io W (List Byte × σ)) (s : σ) (w : W)
    (hs : SuppliesBlocks rd s w (unblocks64 magmaText)) :
    ∃ v w', Magma.Imit.value .x86 rd 4 s (some (Magma.LazyKey.ofString sampleKeyText)) w =
      (.ok v, w') ∧ join32 v = 0x154e72102030c5bb := by
  have := C32_conforms sampleKeyText (by decide) (by decide) rd s w
    [0x92def06b3c130a59, 0xdb54c704f8189d20, 0x4a98fb2e67a8024c] 0x8912409b17b57e41 hs 4 (by decide)
  simp only [sampleKeyText_value, magma_mac] at this
  exact this

/-- The key of the examples for the 128-bit cipher. -/
theorem kuzKey_encrypts (m : Machine) (hm : m.unalignedLoad = true) :
    ∃ key, Kuz.Key.ofString kuzKeyText = .ok key ∧ Encrypts m key kuzKey := by
  have := C44_key_from_text m hm kuzKeyText (by decide) (by decide)
  rwa [kuzKeyText_value] at this

/-- GOST R 34.12-2015, A.1.5. -/
example : ∃ key, Kuz.Key.ofString kuzKeyText = .ok key ∧
    (Kuz.BlkEncrypted (.raw 0xffeeddccbbaa9988 0x1122334455667700) key).value .x86 =
      .ok (0x5a468d42b9d4edcd, 0x7f679d90bebc2430) := by
  obtain ⟨key, r, h1, h2, h3⟩ := C37_conforms .x86 rfl kuzKeyText (by decide) (by decide)
    (.raw 0xffeeddccbbaa9988 0x1122334455667700) _ rfl
  rw [kuzKeyText_value, show join64 (0xffeeddccbbaa9988, 0x1122334455667700) =
    0x1122334455667700ffeeddccbbaa9988 from rfl, kuz_ecb1] at h3
  refine ⟨key, h1, ?_⟩
  rw [h2, join64_inj (u := r) (v := (0x5a468d42b9d4edcd, 0x7f679d90bebc2430)) h3]

/-- The words of the message of the examples for the 128-bit cipher, as `StMemory` takes them. -/
def kuzWords : List W64 :=
  [0xffeeddccbbaa9988, 0x1122334455667700, 0x8899aabbcceeff0a, 0x0011223344556677,
   0x99aabbcceeff0a00, 0x1122334455667788, 0xaabbcceeff0a0011, 0x2233445566778899]

/-- GOST R 34.13-2015, A.1.2 with `StCTREncrypted` over `StMemory`. -/
example : ∃ key i j cs, Kuz.Key.ofString kuzKeyText = .ok key ∧
    Kuz.StMemory.iter kuzWords = .ok (some i) ∧
    Kuz.StCTREncrypted.iter (.ok (some i)) key 0x1234567890abcef0 = .ok (some j) ∧
    Shows (Kuz.ItCTR.impl .x86 (Kuz.ItMemory.impl kuzWords)) 16 j cs ∧
    cs.map join64 = [0xf195d8bec10ed1dbd57b5fa240bda1b8, 0x85eee733f6a13e5df33ce4b33c45dee4,
      0xa5eae88be6356ed3d5e877f13564a3a5, 0xcb91fab1f20cbab6d1c6d15820bdba73] := by
  obtain ⟨key, hk, he⟩ := kuzKey_encrypts .x86 rfl
  obtain ⟨i, hi, hs⟩ := Shows_memory kuzWords rfl (by simp [kuzWords])
  obtain ⟨j, cs, h1, h2, h3⟩ := C44_ctr_conforms .x86 key kuzKey he _ 16 i _ hs 0x1234567890abcef0
  rw [show (wordPairs kuzWords).map join64 = kuzText from rfl, kuz_ctr] at h3
  exact ⟨key, i, j, cs, hk, hi, h1, h2, h3⟩

/-- GOST R 34.13-2015, A.1.6 with `Imit` over `StMemory`. -/
example : ∃ key r, Kuz.Key.ofString kuzKeyText = .ok key ∧
    Kuz.Imit.value .x86 (Kuz.ItMemory.impl kuzWords) (Kuz.StMemory.iter kuzWords) 4 key = .ok r ∧
    join64 r = 0x336f4d296059fbe34ddeb35b37749c67 := by
  obtain ⟨key, hk, he⟩ := kuzKey_encrypts .x86 rfl
  obtain ⟨r, h1, h2⟩ := C50_mac_conforms .x86 key kuzKey he kuzWords rfl
    [(0xffeeddccbbaa9988, 0x1122334455667700), (0x8899aabbcceeff0a, 0x0011223344556677),
     (0x99aabbcceeff0a00, 0x1122334455667788)] (0xaabbcceeff0a0011, 0x2233445566778899) rfl 4
    (by decide)
  refine ⟨key, r, hk, h1, ?_⟩
  rw [h2]
  exact kuz_mac

end Goost.Props
