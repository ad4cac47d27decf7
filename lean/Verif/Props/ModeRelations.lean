import Verif.Lemmas.ModeRelations
import Verif.Props.Iv
import Verif.Props.Ecb
/-
Property C98: how the modes are related.
-/
namespace Goost.Props
open Spec Spec.Magma Spec.Modes
open Goost.Kuz
variable {W σ τ ι : Type}

/-! ### C98 -/

/-- C98, encryption. What `magma::CFBSink` writes for a message is two streams of `gost89::CFBSink` with
the same key, one block of each in turn: the blocks with an even number are what `gost89::CFBSink` with
the left half of the initialization vector writes for the even blocks of the message, the others what it
writes with the right half for the odd blocks. -/
theorem C98_cfb_interleaves (m : Machine) (key : Magma.Key) (h : Usable key) (hl : key.isLazy = true)
    (ivl ivr : BitVec 64) (wr : τ → List Byte → Io W τ) (content : τ → W → List Byte)
    (hw : Collects wr content) (s : τ) (w : W) (hs : content s w = []) (ds es os : List (List Byte))
    (he : es.flatten = unblocks64 (evens (blocks64 ds.flatten)))
    (ho : os.flatten = unblocks64 (odds (blocks64 ds.flatten))) :
    ∃ t w1 te we to wo,
      writeAll (Magma.CFBSink.write m wr) (Magma.CFBSink.new s key ivl ivr) ds w = (.ok t, w1) ∧
      writeAll (Gost89.CFBSink.write m wr) (Gost89.CFBSink.new s key ivl) es w = (.ok te, we) ∧
      writeAll (Gost89.CFBSink.write m wr) (Gost89.CFBSink.new s key ivr) os w = (.ok to, wo) ∧
      content te.sink we = unblocks64 (evens (blocks64 (content t.sink w1))) ∧
      content to.sink wo = unblocks64 (odds (blocks64 (content t.sink w1))) ∧
      (content t.sink w1).length = 8 * (ds.flatten.length / 8) := by
  obtain ⟨f, hf⟩ := h.computes
  rw [C18_state m wr s key f hf hl ivl ivr ds _ rfl, gost89_CFBSink_writes_eq m wr hf hl es s ivl _ rfl,
    gost89_CFBSink_writes_eq m wr hf hl os s ivr _ rfl]
  obtain ⟨s1, w1, e1, c1⟩ := hw.writeAll
    ((cfbEnc (encF f) [ivl, ivr] (blocks64 ds.flatten)).map bytesOf64) s w
  obtain ⟨s2, w2, e2, c2⟩ := hw.writeAll
    ((cfbEnc (encF f) [ivl] (blocks64 es.flatten)).map bytesOf64) s w
  obtain ⟨s3, w3, e3, c3⟩ := hw.writeAll
    ((cfbEnc (encF f) [ivr] (blocks64 os.flatten)).map bytesOf64) s w
  rw [hs, List.nil_append] at c1 c2 c3
  refine ⟨_, w1, _, w2, _, w3, by rw [Io.bind_run_ok e1]; rfl, by rw [Io.bind_run_ok e2]; rfl,
    by rw [Io.bind_run_ok e3]; rfl, ?_, ?_, ?_⟩
  · simp only [c1, c2]
    rw [← unblocks64, ← unblocks64, he, blocks64_unblocks64, blocks64_unblocks64, cfbEnc_evens]
  · simp only [c1, c3]
    rw [← unblocks64, ← unblocks64, ho, blocks64_unblocks64, blocks64_unblocks64, cfbEnc_odds]
  · simp only [c1]
    rw [← unblocks64, unblocks64_length, cfbEnc_length _ _ _ (by simp), blocks64_length]

example (m : Machine) := C98_cfb_interleaves m _ sampleKey_computes.usable rfl 1 2 fileWrite _ fileWrite_collects () [] rfl
  [sampleData.take 3, sampleData.drop 3] [unblocks64 (evens (blocks64 sampleData))] [unblocks64 (odds (blocks64 sampleData))]
  (by decide) (by decide)

/-- C98, decryption: what `magma::CFBSource` yields is, block by block in turn, what two
`gost89::CFBSource`s yield for the even and for the odd blocks of the ciphertext. -/
theorem C98_cfb_interleaves_decryption (m : Machine) (rd : σ → Nat → Io W (List Byte × σ)) (s se so : σ)
    (w we wo : W) (key : Magma.Key) (h : Usable key) (hl : key.isLazy = true) (ivl ivr : BitVec 64)
    (c : List Byte) (hc : c.length % 8 = 0) (hs : SuppliesBlocks rd s w c)
    (he : SuppliesBlocks rd se we (unblocks64 (evens (blocks64 c))))
    (ho : SuppliesBlocks rd so wo (unblocks64 (odds (blocks64 c)))) :
    ∃ d, d.length = c.length ∧
      Supplies (Magma.CFBSource.read m rd) (Magma.CFBSource.new s key ivl ivr) w d ∧
      Supplies (Gost89.CFBSource.read m rd) (Gost89.CFBSource.new se key ivl) we
        (unblocks64 (evens (blocks64 d))) ∧
      Supplies (Gost89.CFBSource.read m rd) (Gost89.CFBSource.new so key ivr) wo
        (unblocks64 (odds (blocks64 d))) := by
  obtain ⟨f, hf⟩ := h.computes
  have hs' := hs
  rw [← unblocks64_blocks64_whole hc] at hs'
  refine ⟨_, ?_, C22_magma_supplies m rd s w key f hf hl ivl ivr _ hs', ?_, ?_⟩
  · rw [unblocks64_length, cfbDec_length _ _ _ (by simp), blocks64_length]; omega
  · rw [blocks64_unblocks64, cfbDec_evens]
    exact C22_gost89_supplies m rd se we key f hf hl ivl _ he
  · rw [blocks64_unblocks64, cfbDec_odds]
    exact C22_gost89_supplies m rd so wo key f hf hl ivr _ ho

example (m : Machine) := C98_cfb_interleaves_decryption m (memRead (W := Unit)) sampleData _ _ () () () _
  sampleKey_computes.usable rfl 1 2 sampleData (by decide) (memRead_supplies _ ()).blocks (memRead_supplies _ ()).blocks
  (memRead_supplies _ ()).blocks

/-- C98, cipher feedback and codebook: the ciphertext of `magma::CFBSink` is the message XOR what
`ECBSink` with the same key writes for the initialization vector followed by that ciphertext. -/
theorem C98_cfb_by_ecb (m : Machine) (key : Magma.Key) (h : Usable key) (hl : key.isLazy = true)
    (ivl ivr : BitVec 64) (wr : τ → List Byte → Io W τ) (content : τ → W → List Byte)
    (hw : Collects wr content) (s : τ) (w : W) (hs : content s w = []) (ds : List (List Byte)) :
    ∃ t w1 te we,
      writeAll (Magma.CFBSink.write m wr) (Magma.CFBSink.new s key ivl ivr) ds w = (.ok t, w1) ∧
      Magma.ECBSink.write wr ⟨s, key⟩ (bytesOf64 ivl ++ bytesOf64 ivr ++ content t.sink w1) w =
        (.ok te, we) ∧
      blocks64 (content t.sink w1) =
        List.zipWith (· ^^^ ·) (blocks64 ds.flatten) (blocks64 (content te.sink we)) := by
  obtain ⟨f, hf⟩ := h.computes
  rw [C18_state m wr s key f hf hl ivl ivr ds _ rfl]
  obtain ⟨s1, w1, e1, c1⟩ := hw.writeAll
    ((cfbEnc (encF f) [ivl, ivr] (blocks64 ds.flatten)).map bytesOf64) s w
  obtain ⟨s2, w2, e2, c2⟩ := hw.writeAll ((ecb (encF f)
    ([ivl, ivr] ++ cfbEnc (encF f) [ivl, ivr] (blocks64 ds.flatten))).map bytesOf64) s w
  rw [hs, List.nil_append, ← unblocks64] at c1 c2
  have hx : bytesOf64 ivl ++ bytesOf64 ivr ++ content s1 w1 =
      unblocks64 ([ivl, ivr] ++ cfbEnc (encF f) [ivl, ivr] (blocks64 ds.flatten)) := by
    rw [c1]; simp [unblocks64]
  refine ⟨_, w1, ⟨s2, key⟩, w2, by rw [Io.bind_run_ok e1]; rfl, ?_, ?_⟩
  · rw [hx, C12_aligned_write wr s key f hf _ (by rw [unblocks64_length]; omega), blocks64_unblocks64,
      Io.bind_run_ok e2]
    rfl
  · simp only [c1, c2]
    rw [blocks64_unblocks64, blocks64_unblocks64]
    exact cfbEnc_eq_ecb (encF f) _ _ _

example (m : Machine) := C98_cfb_by_ecb m _ sampleKey_computes.usable rfl 1 2 fileWrite _ fileWrite_collects () [] rfl
  [sampleData.take 3, sampleData.drop 3]

/-- C98, cipher feedback and codebook, for `gost89::CFBSink`. -/
theorem C98_gost89_cfb_by_ecb (m : Machine) (key : Magma.Key) (h : Usable key) (hl : key.isLazy = true)
    (iv : BitVec 64) (wr : τ → List Byte → Io W τ) (content : τ → W → List Byte)
    (hw : Collects wr content) (s : τ) (w : W) (hs : content s w = []) (ds : List (List Byte)) :
    ∃ t w1 te we,
      writeAll (Gost89.CFBSink.write m wr) (Gost89.CFBSink.new s key iv) ds w = (.ok t, w1) ∧
      Magma.ECBSink.write wr ⟨s, key⟩ (bytesOf64 iv ++ content t.sink w1) w = (.ok te, we) ∧
      blocks64 (content t.sink w1) =
        List.zipWith (· ^^^ ·) (blocks64 ds.flatten) (blocks64 (content te.sink we)) := by
  obtain ⟨f, hf⟩ := h.computes
  rw [gost89_CFBSink_writes_eq m wr hf hl ds s iv _ rfl]
  obtain ⟨s1, w1, e1, c1⟩ := hw.writeAll
    ((cfbEnc (encF f) [iv] (blocks64 ds.flatten)).map bytesOf64) s w
  obtain ⟨s2, w2, e2, c2⟩ := hw.writeAll ((ecb (encF f)
    ([iv] ++ cfbEnc (encF f) [iv] (blocks64 ds.flatten))).map bytesOf64) s w
  rw [hs, List.nil_append, ← unblocks64] at c1 c2
  have hx : bytesOf64 iv ++ content s1 w1 =
      unblocks64 ([iv] ++ cfbEnc (encF f) [iv] (blocks64 ds.flatten)) := by
    rw [c1]; simp [unblocks64]
  refine ⟨_, w1, ⟨s2, key⟩, w2, by rw [Io.bind_run_ok e1]; rfl, ?_, ?_⟩
  · rw [hx, C12_aligned_write wr s key f hf _ (by rw [unblocks64_length]; omega), blocks64_unblocks64,
      Io.bind_run_ok e2]
    rfl
  · simp only [c1, c2]
    rw [blocks64_unblocks64, blocks64_unblocks64]
    exact cfbEnc_eq_ecb (encF f) _ _ _

/-- The hypotheses of the four theorems are met: a file, a usable key that works, a message of five
blocks in three pieces. -/
example : Collects fileWrite (fun _ w => w) ∧ Usable sampleGostKey ∧ sampleGostKey.isLazy = true ∧
    unblocks64 (evens (blocks64 (sampleData ++ sampleData ++ sampleData))) ≠ [] :=
  ⟨fileWrite_collects, sampleGostKey_usable, rfl, by decide⟩

/-- C98, counter mode: two layers of `StCTREncrypted`, with any two keys and initialization vectors, may
be put in either order: the streams show the same blocks, the same size and the same end. -/
theorem C98_ctr_layers_commute (m : Machine) (key key' : Kuz.Key) (K K' : BitVec 256)
    (hk : Encrypts m key K) (hk' : Encrypts m key' K') (it : IterImpl ι) (size : Nat) (i : ι)
    (p : List (W64 × W64)) (hs : Shows it size i p) (iv iv' : BitVec 64) :
    ∃ j j' l l' q, StCTREncrypted.iter (.ok (some i)) key iv = .ok (some j) ∧
      StCTREncrypted.iter (.ok (some j)) key' iv' = .ok (some l) ∧
      StCTREncrypted.iter (.ok (some i)) key' iv' = .ok (some j') ∧
      StCTREncrypted.iter (.ok (some j')) key iv = .ok (some l') ∧
      Shows (ItCTR.impl m (ItCTR.impl m it)) size l q ∧
      Shows (ItCTR.impl m (ItCTR.impl m it)) size l' q := by
  obtain ⟨j, cs, e1, s1, v1⟩ := C44_ctr_conforms m key K hk it size i p hs iv
  obtain ⟨l, ds, e2, s2, v2⟩ := C44_ctr_conforms m key' K' hk' _ size j cs s1 iv'
  obtain ⟨j', cs', e1', s1', v1'⟩ := C44_ctr_conforms m key' K' hk' it size i p hs iv'
  obtain ⟨l', ds', e2', s2', v2'⟩ := C44_ctr_conforms m key K hk _ size j' cs' s1' iv
  refine ⟨j, j', l, l', ds, e1, e2, e1', e2', s2, ?_⟩
  have : ds.map join64 = ds'.map join64 := by
    rw [v2, v2', v1, v1', ctr_ctr_comm]
  rw [show ds = ds' from (List.map_inj_right (fun _ _ h => join64_inj h)).1 this]
  exact s2'

/-- Two keys, and a stream of two blocks. -/
example (m : Machine) (hm : m.unalignedLoad = true) : ∃ key key' K K', Encrypts m key K ∧ Encrypts m key' K' ∧ K ≠ K' ∧
    ∃ i, StMemory.iter [1, 2, 3, 4] = .ok (some i) ∧
      Shows (ItMemory.impl [1, 2, 3, 4]) 16 i [(1, 2), (3, 4)] :=
  ⟨_, _, _, _, encrypts_ofBlocks (high := .raw 1 2) (low := .raw 3 4) hm rfl rfl 0,
    encrypts_ofBlocks (high := .raw 5 6) (low := .raw 7 8) hm rfl rfl 0, by decide,
    Shows_memory [1, 2, 3, 4] rfl (by simp)⟩

end Goost.Props
