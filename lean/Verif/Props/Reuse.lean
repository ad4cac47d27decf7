import Verif.Lemmas.Reuse
import Verif.Props.KuzStream
import Verif.Props.Cfb
/-
Property C76: what ciphertexts of several messages with the same key and initialization vector have in
common.
-/
namespace Goost.Props
open Spec Spec.Magma Spec.Modes
variable {W τ ι : Type}

/-! ### C76 -/

/-- C76, ECB: two blocks of a message have equal ciphertexts exactly if they are equal. `content` is what
the underlying sink has got. -/
theorem C76_ecb_equal_blocks (key : Magma.Key) (h : Usable key) (wr : τ → List Byte → Io W τ)
    (content : τ → W → List Byte) (hw : Collects wr content) (s : τ) (w : W) (hs : content s w = [])
    (d : List Byte) (hd : d.length % 8 = 0) :
    ∃ t w', Magma.ECBSink.write wr ⟨s, key⟩ d w = (.ok t, w') ∧
      ∀ i j, 8 * i + 8 ≤ d.length → 8 * j + 8 ≤ d.length →
        (((content t.sink w').drop (8 * i)).take 8 = ((content t.sink w').drop (8 * j)).take 8 ↔
          (d.drop (8 * i)).take 8 = (d.drop (8 * j)).take 8) := by
  obtain ⟨f, hf⟩ := h.computes
  rw [C12_aligned_write wr s key f hf d hd]
  obtain ⟨s', w', e1, e2⟩ := hw.writeAll ((ecb (encF f) (blocks64 d)).map bytesOf64) s w
  refine ⟨⟨s', key⟩, w', by rw [Io.bind_run_ok e1]; rfl, ?_⟩
  intro i j hi hj
  have hc : content s' w' = unblocks64 (ecb (encF f) (blocks64 d)) := by rw [e2, hs]; rfl
  simp only [hc]
  have len : (unblocks64 (ecb (encF f) (blocks64 d))).length = d.length := by
    rw [unblocks64_length, ecb, List.length_map, blocks64_length]; omega
  have len8 : ∀ (l : List Byte) k, 8 * k + 8 ≤ l.length → ((l.drop (8 * k)).take 8).length = 8 := by
    intro l k hk; rw [List.length_take, List.length_drop]; omega
  have get : ∀ k, 8 * k + 8 ≤ d.length →
      block64 (((unblocks64 (ecb (encF f) (blocks64 d))).drop (8 * k)).take 8) =
        encF f (block64 ((d.drop (8 * k)).take 8)) := by
    intro k hk
    have h1 := blocks64_getElem (unblocks64 (ecb (encF f) (blocks64 d))) k (by omega)
    rw [blocks64_unblocks64, ecb, List.getElem?_map, blocks64_getElem d k hk] at h1
    simpa [ecb] using h1.symm
  constructor
  · intro e
    have e := congrArg block64 e
    rw [get i hi, get j hj] at e
    have e := congrArg (decF f) e
    rw [Goost.Magma.decF_encF, Goost.Magma.decF_encF] at e
    exact block64_inj (len8 d i hi) (len8 d j hj) e
  · intro e
    have : block64 (((unblocks64 (ecb (encF f) (blocks64 d))).drop (8 * i)).take 8) =
        block64 (((unblocks64 (ecb (encF f) (blocks64 d))).drop (8 * j)).take 8) := by
      rw [get i hi, get j hj, e]
    exact block64_inj (len8 _ i (by omega)) (len8 _ j (by omega)) this

/-- C76, CFB: two messages are written to two `CFBSink`s with the same key and initialization vector.
The ciphertexts agree in their first `n` blocks exactly if the messages do, and if they do, the XOR of
the next blocks of the ciphertexts is the XOR of the next blocks of the messages. -/
theorem C76_cfb_repeated_iv (m : Machine) (key : Magma.Key) (h : Usable key) (hl : key.isLazy = true)
    (ivl ivr : BitVec 64) (wr : τ → List Byte → Io W τ) (content : τ → W → List Byte)
    (hw : Collects wr content) (s : τ) (w : W) (hs : content s w = []) (ds1 ds2 : List (List Byte)) :
    ∃ t1 w1 t2 w2,
      writeAll (Magma.CFBSink.write m wr) (Magma.CFBSink.new s key ivl ivr) ds1 w = (.ok t1, w1) ∧
      writeAll (Magma.CFBSink.write m wr) (Magma.CFBSink.new s key ivl ivr) ds2 w = (.ok t2, w2) ∧
      (∀ n, 8 * n ≤ ds1.flatten.length → 8 * n ≤ ds2.flatten.length →
        ((content t1.sink w1).take (8 * n) = (content t2.sink w2).take (8 * n) ↔
          ds1.flatten.take (8 * n) = ds2.flatten.take (8 * n))) ∧
      ∀ n, 8 * n + 8 ≤ ds1.flatten.length → 8 * n + 8 ≤ ds2.flatten.length →
        ds1.flatten.take (8 * n) = ds2.flatten.take (8 * n) →
        block64 (((content t1.sink w1).drop (8 * n)).take 8) ^^^
            block64 (((content t2.sink w2).drop (8 * n)).take 8) =
          block64 ((ds1.flatten.drop (8 * n)).take 8) ^^^
            block64 ((ds2.flatten.drop (8 * n)).take 8) := by
  obtain ⟨f, hf⟩ := h.computes
  rw [C18_state m wr s key f hf hl ivl ivr ds1 _ rfl, C18_state m wr s key f hf hl ivl ivr ds2 _ rfl]
  obtain ⟨s1, w1, e1, c1⟩ := hw.writeAll
    ((cfbEnc (encF f) [ivl, ivr] (blocks64 ds1.flatten)).map bytesOf64) s w
  obtain ⟨s2, w2, e2, c2⟩ := hw.writeAll
    ((cfbEnc (encF f) [ivl, ivr] (blocks64 ds2.flatten)).map bytesOf64) s w
  rw [hs, List.nil_append] at c1 c2
  refine ⟨_, w1, _, w2, by rw [Io.bind_run_ok e1]; rfl, by rw [Io.bind_run_ok e2]; rfl, ?_, ?_⟩
  · intro n h1 h2
    simp only [c1, c2]
    exact cfb_common_prefix (encF f) [ivl, ivr] (by simp) _ _ n h1 h2
  · intro n h1 h2 hp
    simp only [c1, c2]
    exact cfb_first_difference (encF f) [ivl, ivr] (by simp) _ _ n h1 h2 hp

/-- C76 for the `gost89::CFBSink`. -/
theorem C76_gost89_cfb_repeated_iv (m : Machine) (key : Magma.Key) (h : Usable key)
    (hl : key.isLazy = true) (iv : BitVec 64) (wr : τ → List Byte → Io W τ)
    (content : τ → W → List Byte) (hw : Collects wr content) (s : τ) (w : W) (hs : content s w = [])
    (ds1 ds2 : List (List Byte)) :
    ∃ t1 w1 t2 w2,
      writeAll (Gost89.CFBSink.write m wr) (Gost89.CFBSink.new s key iv) ds1 w = (.ok t1, w1) ∧
      writeAll (Gost89.CFBSink.write m wr) (Gost89.CFBSink.new s key iv) ds2 w = (.ok t2, w2) ∧
      (∀ n, 8 * n ≤ ds1.flatten.length → 8 * n ≤ ds2.flatten.length →
        ((content t1.sink w1).take (8 * n) = (content t2.sink w2).take (8 * n) ↔
          ds1.flatten.take (8 * n) = ds2.flatten.take (8 * n))) ∧
      ∀ n, 8 * n + 8 ≤ ds1.flatten.length → 8 * n + 8 ≤ ds2.flatten.length →
        ds1.flatten.take (8 * n) = ds2.flatten.take (8 * n) →
        block64 (((content t1.sink w1).drop (8 * n)).take 8) ^^^
            block64 (((content t2.sink w2).drop (8 * n)).take 8) =
          block64 ((ds1.flatten.drop (8 * n)).take 8) ^^^
            block64 ((ds2.flatten.drop (8 * n)).take 8) := by
  obtain ⟨f, hf⟩ := h.computes
  rw [gost89_CFBSink_writes_eq m wr hf hl ds1 s iv _ rfl, gost89_CFBSink_writes_eq m wr hf hl ds2 s iv _ rfl]
  obtain ⟨s1, w1, e1, c1⟩ := hw.writeAll
    ((cfbEnc (encF f) [iv] (blocks64 ds1.flatten)).map bytesOf64) s w
  obtain ⟨s2, w2, e2, c2⟩ := hw.writeAll
    ((cfbEnc (encF f) [iv] (blocks64 ds2.flatten)).map bytesOf64) s w
  rw [hs, List.nil_append] at c1 c2
  refine ⟨_, w1, _, w2, by rw [Io.bind_run_ok e1]; rfl, by rw [Io.bind_run_ok e2]; rfl, ?_, ?_⟩
  · intro n h1 h2
    simp only [c1, c2]
    exact cfb_common_prefix (encF f) [iv] (by simp) _ _ n h1 h2
  · intro n h1 h2 hp
    simp only [c1, c2]
    exact cfb_first_difference (encF f) [iv] (by simp) _ _ n h1 h2 hp

/-- C76, CTR: with the same key and starting value the XOR of blocks at the same place of two encrypted
streams is the XOR of the blocks of the streams, everywhere. -/
theorem C76_ctr_repeated_iv {κ : Type} (m : Machine) (key : Kuz.Key) (K : BitVec 256)
    (hk : Encrypts m key K) (it : Kuz.IterImpl ι) (size : Nat) (i : ι) (p : List (W64 × W64))
    (hs : Shows it size i p) (it' : Kuz.IterImpl κ) (size' : Nat) (i' : κ) (p' : List (W64 × W64))
    (hs' : Shows it' size' i' p') (iv : BitVec 64) (n : Nat) (a b : W64 × W64)
    (ha : p[n]? = some a) (hb : p'[n]? = some b) :
    ∃ ca cb, blockAt (Kuz.ItCTR.impl m it) (Kuz.StCTREncrypted.iter (.ok (some i)) key iv) n = .ok ca ∧
      blockAt (Kuz.ItCTR.impl m it') (Kuz.StCTREncrypted.iter (.ok (some i')) key iv) n = .ok cb ∧
      join64 ca ^^^ join64 cb = join64 a ^^^ join64 b := by
  obtain ⟨j, jn, ca, h1, h2, h3, h4, -⟩ := C44_ctr_block m key K hk it size i p hs iv n a ha
  obtain ⟨j', jn', cb, h1', h2', h3', h4', -⟩ := C44_ctr_block m key K hk it' size' i' p' hs' iv n b hb
  refine ⟨ca, cb, ?_, ?_, ?_⟩
  · simp only [blockAt, h1, Exec.ok_bind, Kuz.deref, h2, h3]
  · simp only [blockAt, h1', Exec.ok_bind, Kuz.deref, h2', h3']
  · rw [h4, h4']
    generalize Spec.Kuz.enc K _ = e
    rw [BitVec.xor_comm (join64 b) e, BitVec.xor_assoc, ← BitVec.xor_assoc e e, BitVec.xor_self,
      BitVec.zero_xor]

example : Collects fileWrite (fun _ file => file) ∧ sampleData.length % 8 = 0 ∧ Usable sampleGostKey :=
  ⟨fileWrite_collects, by decide, sampleGostKey_usable⟩

example := C76_ecb_equal_blocks _ sampleGostKey_usable _ _ fileWrite_collects () [] rfl sampleData (by decide)

example (m : Machine) := C76_cfb_repeated_iv m _ sampleGostKey_usable rfl 1 2 _ _ fileWrite_collects () [] rfl
  [sampleData] [sampleData.take 9, [4, 5]]

example (m : Machine) := C76_gost89_cfb_repeated_iv m _ sampleGostKey_usable rfl 1 _ _ fileWrite_collects () [] rfl
  [sampleData] [sampleData.take 9, [4, 5]]

end Goost.Props
