import Verif.Lemmas.Iv
import Verif.Props.KuzStream
import Verif.Props.Cfb
/-
Property C94: what the initialization vector decides.
-/
namespace Goost.Props
open Spec Spec.Magma Spec.Modes
variable {W σ τ ι : Type}

/-! ### C94 -/

/-- C94, magma CFB, encryption: one message is written to two `CFBSink`s with the same key, in any
pieces. The ciphertexts agree in the blocks with an even number exactly if the left halves of the
initialization vectors are the same, and in those with an odd number exactly if the right halves are.
`content` is what the underlying sink has got. -/
theorem C94_cfb_encryption (m : Machine) (key : Magma.Key) (h : Usable key) (hl : key.isLazy = true)
    (ivl ivr ivl' ivr' : BitVec 64) (wr : τ → List Byte → Io W τ) (content : τ → W → List Byte)
    (hw : Collects wr content) (s : τ) (w : W) (hs : content s w = []) (ds ds' : List (List Byte))
    (hd : ds.flatten = ds'.flatten) :
    ∃ t1 w1 t2 w2,
      writeAll (Magma.CFBSink.write m wr) (Magma.CFBSink.new s key ivl ivr) ds w = (.ok t1, w1) ∧
      writeAll (Magma.CFBSink.write m wr) (Magma.CFBSink.new s key ivl' ivr') ds' w = (.ok t2, w2) ∧
      ∀ i, 8 * i + 8 ≤ ds.flatten.length →
        (((content t1.sink w1).drop (8 * i)).take 8 = ((content t2.sink w2).drop (8 * i)).take 8 ↔
          if i % 2 = 0 then ivl = ivl' else ivr = ivr') := by
  obtain ⟨f, hf⟩ := h.computes
  rw [C18_state m wr s key f hf hl ivl ivr ds _ rfl, C18_state m wr s key f hf hl ivl' ivr' ds' _ rfl, ← hd]
  obtain ⟨s1, w1, e1, c1⟩ := hw.writeAll
    ((cfbEnc (encF f) [ivl, ivr] (blocks64 ds.flatten)).map bytesOf64) s w
  obtain ⟨s2, w2, e2, c2⟩ := hw.writeAll
    ((cfbEnc (encF f) [ivl', ivr'] (blocks64 ds.flatten)).map bytesOf64) s w
  rw [hs, List.nil_append] at c1 c2
  refine ⟨_, w1, _, w2, by rw [Io.bind_run_ok e1]; rfl, by rw [Io.bind_run_ok e2]; rfl, ?_⟩
  intro i hi
  have hb : i < (blocks64 ds.flatten).length := by rw [blocks64_length]; omega
  have u := unblocks64_block_iff (cfbEnc (encF f) [ivl, ivr] (blocks64 ds.flatten))
    (cfbEnc (encF f) [ivl', ivr'] (blocks64 ds.flatten)) i
    (by rw [cfbEnc_length _ _ _ (by simp)]; exact hb) (by rw [cfbEnc_length _ _ _ (by simp)]; exact hb)
  simp only [c1, c2]
  refine u.trans ?_
  rw [cfbEnc_block_iff (encF f) (fun x y h => Goost.Magma.encF_injective f h) [ivl, ivr] [ivl', ivr'] _ (by simp) rfl i hb]
  rcases Nat.mod_two_eq_zero_or_one i with e | e <;> simp [e]

example (m : Machine) := C94_cfb_encryption m _ sampleKey_computes.usable rfl 1 2 3 2 fileWrite _ fileWrite_collects () [] rfl
  [sampleData] [sampleData.take 3, sampleData.drop 3] (by decide)

/-- C94, gost89 CFB, encryption: the ciphertexts of one message differ in every block if the
initialization vectors differ, and in none if they do not. -/
theorem C94_gost89_cfb_encryption (m : Machine) (key : Magma.Key) (h : Usable key)
    (hl : key.isLazy = true) (iv iv' : BitVec 64) (wr : τ → List Byte → Io W τ)
    (content : τ → W → List Byte) (hw : Collects wr content) (s : τ) (w : W) (hs : content s w = [])
    (ds ds' : List (List Byte)) (hd : ds.flatten = ds'.flatten) :
    ∃ t1 w1 t2 w2,
      writeAll (Gost89.CFBSink.write m wr) (Gost89.CFBSink.new s key iv) ds w = (.ok t1, w1) ∧
      writeAll (Gost89.CFBSink.write m wr) (Gost89.CFBSink.new s key iv') ds' w = (.ok t2, w2) ∧
      ∀ i, 8 * i + 8 ≤ ds.flatten.length →
        (((content t1.sink w1).drop (8 * i)).take 8 = ((content t2.sink w2).drop (8 * i)).take 8 ↔
          iv = iv') := by
  obtain ⟨f, hf⟩ := h.computes
  rw [gost89_CFBSink_writes_eq m wr hf hl ds s iv _ rfl, gost89_CFBSink_writes_eq m wr hf hl ds' s iv' _ rfl,
    ← hd]
  obtain ⟨s1, w1, e1, c1⟩ := hw.writeAll
    ((cfbEnc (encF f) [iv] (blocks64 ds.flatten)).map bytesOf64) s w
  obtain ⟨s2, w2, e2, c2⟩ := hw.writeAll
    ((cfbEnc (encF f) [iv'] (blocks64 ds.flatten)).map bytesOf64) s w
  rw [hs, List.nil_append] at c1 c2
  refine ⟨_, w1, _, w2, by rw [Io.bind_run_ok e1]; rfl, by rw [Io.bind_run_ok e2]; rfl, ?_⟩
  intro i hi
  have hb : i < (blocks64 ds.flatten).length := by rw [blocks64_length]; omega
  have u := unblocks64_block_iff (cfbEnc (encF f) [iv] (blocks64 ds.flatten))
    (cfbEnc (encF f) [iv'] (blocks64 ds.flatten)) i
    (by rw [cfbEnc_length _ _ _ (by simp)]; exact hb) (by rw [cfbEnc_length _ _ _ (by simp)]; exact hb)
  simp only [c1, c2]
  refine u.trans ?_
  rw [cfbEnc_block_iff (encF f) (fun x y h => Goost.Magma.encF_injective f h) [iv] [iv'] _ (by simp) rfl i hb]
  simp [Nat.mod_one]

example (m : Machine) := C94_gost89_cfb_encryption m _ sampleKey_computes.usable rfl 1 2 fileWrite _ fileWrite_collects () [] rfl
  [sampleData] [sampleData.take 3, sampleData.drop 3] (by decide)

/-- C94, magma CFB, decryption: one ciphertext is decrypted with two initialization vectors. The first
block is the same exactly if the left halves are, the second exactly if the right halves are, and all
others are always the same. -/
theorem C94_cfb_decryption (m : Machine) (rd : σ → Nat → Io W (List Byte × σ)) (s : σ) (w : W)
    (key : Magma.Key) (h : Usable key) (hl : key.isLazy = true) (ivl ivr ivl' ivr' : BitVec 64)
    (c : List Byte) (hc : c.length % 8 = 0) (hs : SuppliesBlocks rd s w c) :
    ∃ d d', Supplies (Magma.CFBSource.read m rd) (Magma.CFBSource.new s key ivl ivr) w d ∧
      Supplies (Magma.CFBSource.read m rd) (Magma.CFBSource.new s key ivl' ivr') w d' ∧
      d.length = c.length ∧ d'.length = c.length ∧
      ∀ i, 8 * i + 8 ≤ c.length →
        ((d.drop (8 * i)).take 8 = (d'.drop (8 * i)).take 8 ↔
          (i = 0 → ivl = ivl') ∧ (i = 1 → ivr = ivr')) := by
  obtain ⟨f, hf⟩ := h.computes
  rw [← unblocks64_blocks64_whole hc] at hs
  refine ⟨_, _, C22_magma_supplies m rd s w key f hf hl ivl ivr _ hs,
    C22_magma_supplies m rd s w key f hf hl ivl' ivr' _ hs, ?_, ?_, ?_⟩
  · rw [unblocks64_length, cfbDec_length _ _ _ (by simp), blocks64_length]; omega
  · rw [unblocks64_length, cfbDec_length _ _ _ (by simp), blocks64_length]; omega
  · intro i hi
    have hb : i < (blocks64 c).length := by rw [blocks64_length]; omega
    rw [unblocks64_block_iff _ _ i (by rw [cfbDec_length _ _ _ (by simp)]; exact hb)
      (by rw [cfbDec_length _ _ _ (by simp)]; exact hb),
      cfbDec_block_iff (encF f) (fun x y h => Goost.Magma.encF_injective f h) [ivl, ivr] [ivl', ivr'] _ (by simp) rfl i hb]
    match i with
    | 0 => simp
    | 1 => simp
    | i + 2 => simp

example (m : Machine) := C94_cfb_decryption m (memRead (W := Unit)) sampleData () _ sampleKey_computes.usable rfl 1 2 3 2
  sampleData (by decide) (memRead_supplies _ ()).blocks

/-- C94, gost89 CFB, decryption: the first block is the same exactly if the initialization vectors are;
all others are always the same. -/
theorem C94_gost89_cfb_decryption (m : Machine) (rd : σ → Nat → Io W (List Byte × σ)) (s : σ) (w : W)
    (key : Magma.Key) (h : Usable key) (hl : key.isLazy = true) (iv iv' : BitVec 64)
    (c : List Byte) (hc : c.length % 8 = 0) (hs : SuppliesBlocks rd s w c) :
    ∃ d d', Supplies (Gost89.CFBSource.read m rd) (Gost89.CFBSource.new s key iv) w d ∧
      Supplies (Gost89.CFBSource.read m rd) (Gost89.CFBSource.new s key iv') w d' ∧
      d.length = c.length ∧ d'.length = c.length ∧
      ∀ i, 8 * i + 8 ≤ c.length →
        ((d.drop (8 * i)).take 8 = (d'.drop (8 * i)).take 8 ↔ (i = 0 → iv = iv')) := by
  obtain ⟨f, hf⟩ := h.computes
  rw [← unblocks64_blocks64_whole hc] at hs
  refine ⟨_, _, C22_gost89_supplies m rd s w key f hf hl iv _ hs,
    C22_gost89_supplies m rd s w key f hf hl iv' _ hs, ?_, ?_, ?_⟩
  · rw [unblocks64_length, cfbDec_length _ _ _ (by simp), blocks64_length]; omega
  · rw [unblocks64_length, cfbDec_length _ _ _ (by simp), blocks64_length]; omega
  · intro i hi
    have hb : i < (blocks64 c).length := by rw [blocks64_length]; omega
    rw [unblocks64_block_iff _ _ i (by rw [cfbDec_length _ _ _ (by simp)]; exact hb)
      (by rw [cfbDec_length _ _ _ (by simp)]; exact hb),
      cfbDec_block_iff (encF f) (fun x y h => Goost.Magma.encF_injective f h) [iv] [iv'] _ (by simp) rfl i hb]
    match i with
    | 0 => simp
    | i + 1 => simp

example (m : Machine) := C94_gost89_cfb_decryption m (memRead (W := Unit)) sampleData () _ sampleKey_computes.usable rfl 1 2
  sampleData (by decide) (memRead_supplies _ ()).blocks

/-- C94, CTR: one stream encrypted with two starting values. Every block of the results is the same
exactly if the starting values are. -/
theorem C94_ctr (m : Machine) (key : Kuz.Key) (K : BitVec 256) (hk : Encrypts m key K)
    (it : Kuz.IterImpl ι) (size : Nat) (i : ι) (p : List (W64 × W64)) (hs : Shows it size i p)
    (iv iv' : BitVec 64) (n : Nat) (hn : n < p.length) :
    ∃ ca cb, blockAt (Kuz.ItCTR.impl m it) (Kuz.StCTREncrypted.iter (.ok (some i)) key iv) n = .ok ca ∧
      blockAt (Kuz.ItCTR.impl m it) (Kuz.StCTREncrypted.iter (.ok (some i)) key iv') n = .ok cb ∧
      (ca = cb ↔ iv = iv') := by
  have ha : p[n]? = some p[n] := List.getElem?_eq_getElem hn
  obtain ⟨j, jn, ca, h1, h2, h3, h4, -⟩ := C44_ctr_block m key K hk it size i p hs iv n _ ha
  obtain ⟨j', jn', cb, h1', h2', h3', h4', -⟩ := C44_ctr_block m key K hk it size i p hs iv' n _ ha
  refine ⟨ca, cb, ?_, ?_, ?_⟩
  · simp only [blockAt, h1, Exec.ok_bind, Kuz.deref, h2, h3]
  · simp only [blockAt, h1', Exec.ok_bind, Kuz.deref, h2', h3']
  · constructor
    · intro e
      rw [e, h4'] at h4
      have e2 := congrArg (join64 p[n] ^^^ ·) h4
      simp only [← BitVec.xor_assoc, BitVec.xor_self, BitVec.zero_xor] at e2
      have e3 := congrArg BitVec.toNat (kuz_enc_injective K e2)
      simp only [BitVec.toNat_ofNat] at e3
      have := iv.isLt
      have := iv'.isLt
      apply BitVec.eq_of_toNat_eq
      omega
    · intro e
      subst e
      rw [← h4'] at h4
      exact join64_inj h4

example : Collects fileWrite (fun _ file => file) ∧ 16 ≤ sampleData.length ∧ sampleData.length % 8 = 0 ∧
    Usable sampleGostKey ∧ sampleGostKey.isLazy = true :=
  ⟨fileWrite_collects, by decide, by decide, sampleGostKey_usable, rfl⟩

end Goost.Props
