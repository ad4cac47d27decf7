import Verif.Lemmas.OneKey
import Verif.Props.KuzStream
import Verif.Props.Cfb
/-
Property C121: what ciphertexts say about authentication codes under the same key.
-/
namespace Goost.Props
open Spec Spec.Magma Spec.Modes
variable {W τ ι : Type}

/-! ### C121 -/

/-- C121, ECB: a block of data and its ciphertext, under the key of the authentication code. Whoever knows the code `v` of a
message knows another message with the same code: the block, then the message with the ciphertext block added to its
first 8 bytes. `content` is what the underlying sink has got. -/
theorem C121_ecb (key : Magma.Key) (h : Usable key) (wr : τ → List Byte → Io W τ) (content : τ → W → List Byte)
    (hw : Collects wr content) (s : τ) (w : W) (hs : content s w = []) (d : List Byte) (hd : d.length % 8 = 0) :
    ∃ t w', Magma.ECBSink.write wr ⟨s, key⟩ d w = (.ok t, w') ∧
      ∀ n, 8 * n + 8 ≤ d.length → ∀ message v, 8 ≤ message.length → MagmaCode key message v →
        MagmaCode key ((d.drop (8 * n)).take 8 ++
          List.zipWith (· ^^^ ·) (message.take 8) (((content t.sink w').drop (8 * n)).take 8) ++ message.drop 8) v := by
  obtain ⟨f, hf⟩ := h.computes
  rw [C12_aligned_write wr s key f hf d hd]
  obtain ⟨s', w', e1, e2⟩ := hw.writeAll ((ecb (encF f) (blocks64 d)).map bytesOf64) s w
  refine ⟨⟨s', key⟩, w', by rw [Io.bind_run_ok e1]; rfl, ?_⟩
  intro n hn message v hm hv
  have hc : content s' w' = unblocks64 (ecb (encF f) (blocks64 d)) := by rw [e2, hs]; rfl
  simp only [hc]
  have len : (unblocks64 (ecb (encF f) (blocks64 d))).length = d.length := by
    rw [unblocks64_length, ecb, List.length_map, blocks64_length]; omega
  have len8 : ∀ (l : List Byte) k, 8 * k + 8 ≤ l.length → ((l.drop (8 * k)).take 8).length = 8 := by
    intro l k hk; rw [List.length_take, List.length_drop]; omega
  refine MagmaCode_in_front hf (len8 d n hn) (len8 _ n (by omega)) ?_ hm hv
  have h1 := blocks64_getElem (unblocks64 (ecb (encF f) (blocks64 d))) n (by omega)
  rw [blocks64_unblocks64, ecb, List.getElem?_map, blocks64_getElem d n hn] at h1
  simpa [ecb] using h1.symm

example := C121_ecb _ sampleKey_computes.usable fileWrite _ fileWrite_collects () [] rfl sampleData (by decide)

/-- C121, CFB: the same with data and ciphertext of a `CFBSink` under the key of the code, whatever the initialization
vector. In front of the message comes a block of `ivl ‖ ivr ‖ ciphertext`, and to its first 8 bytes the data block and the
ciphertext block of that number are added. -/
theorem C121_cfb (m : Machine) (key : Magma.Key) (h : Usable key) (hl : key.isLazy = true)
    (ivl ivr : BitVec 64) (wr : τ → List Byte → Io W τ) (content : τ → W → List Byte)
    (hw : Collects wr content) (s : τ) (w : W) (hs : content s w = []) (ds : List (List Byte)) :
    ∃ t w', writeAll (Magma.CFBSink.write m wr) (Magma.CFBSink.new s key ivl ivr) ds w = (.ok t, w') ∧
      ∀ n, 8 * n + 8 ≤ ds.flatten.length → ∀ message v, 8 ≤ message.length → MagmaCode key message v →
        MagmaCode key (((bytesOf64 ivl ++ bytesOf64 ivr ++ content t.sink w').drop (8 * n)).take 8 ++
          List.zipWith (· ^^^ ·) (message.take 8) (List.zipWith (· ^^^ ·) ((ds.flatten.drop (8 * n)).take 8)
            (((content t.sink w').drop (8 * n)).take 8)) ++ message.drop 8) v := by
  obtain ⟨f, hf⟩ := h.computes
  rw [C18_state m wr s key f hf hl ivl ivr ds _ rfl]
  obtain ⟨s1, w1, e1, c1⟩ := hw.writeAll
    ((cfbEnc (encF f) [ivl, ivr] (blocks64 ds.flatten)).map bytesOf64) s w
  rw [hs, List.nil_append] at c1
  refine ⟨_, w1, by rw [Io.bind_run_ok e1]; rfl, ?_⟩
  intro n hn message v hm hv
  simp only [c1]
  rw [show bytesOf64 ivl ++ bytesOf64 ivr = unblocks64 [ivl, ivr] by simp [unblocks64]]
  exact MagmaCode_in_front_cfb hf [ivl, ivr] (by simp) ds.flatten n hn hm hv

example (m : Machine) := C121_cfb m _ sampleKey_computes.usable rfl 1 2 fileWrite _ fileWrite_collects () [] rfl
  [sampleData.take 3, sampleData.drop 3]

/-- C121 for a `gost89::CFBSink` with the key of a magma authentication code. -/
theorem C121_gost89_cfb (m : Machine) (key : Magma.Key) (h : Usable key) (hl : key.isLazy = true)
    (iv : BitVec 64) (wr : τ → List Byte → Io W τ) (content : τ → W → List Byte)
    (hw : Collects wr content) (s : τ) (w : W) (hs : content s w = []) (ds : List (List Byte)) :
    ∃ t w', writeAll (Gost89.CFBSink.write m wr) (Gost89.CFBSink.new s key iv) ds w = (.ok t, w') ∧
      ∀ n, 8 * n + 8 ≤ ds.flatten.length → ∀ message v, 8 ≤ message.length → MagmaCode key message v →
        MagmaCode key (((bytesOf64 iv ++ content t.sink w').drop (8 * n)).take 8 ++
          List.zipWith (· ^^^ ·) (message.take 8) (List.zipWith (· ^^^ ·) ((ds.flatten.drop (8 * n)).take 8)
            (((content t.sink w').drop (8 * n)).take 8)) ++ message.drop 8) v := by
  obtain ⟨f, hf⟩ := h.computes
  rw [gost89_CFBSink_writes_eq m wr hf hl ds s iv _ rfl]
  obtain ⟨s1, w1, e1, c1⟩ := hw.writeAll
    ((cfbEnc (encF f) [iv] (blocks64 ds.flatten)).map bytesOf64) s w
  rw [hs, List.nil_append] at c1
  refine ⟨_, w1, by rw [Io.bind_run_ok e1]; rfl, ?_⟩
  intro n hn message v hm hv
  simp only [c1]
  rw [show bytesOf64 iv = unblocks64 [iv] by simp [unblocks64]]
  exact MagmaCode_in_front_cfb hf [iv] (by simp) ds.flatten n hn hm hv

example (m : Machine) := C121_gost89_cfb m _ sampleKey_computes.usable rfl 1 fileWrite _ fileWrite_collects () [] rfl
  [sampleData.take 3, sampleData.drop 3]

/-- C121, CTR: block `n` of a stream is `a`, that of the encrypted stream `c`. A stream with one more block, which is the
counter of that place, and then `a` and `c` added to the first block of a message, has the code of the message. -/
theorem C121_ctr {κ κ' : Type} (m : Machine) (key : Kuz.Key) (K : BitVec 256) (hk : Encrypts m key K)
    (it : Kuz.IterImpl ι) (size : Nat) (i : ι) (p : List (W64 × W64)) (hs : Shows it size i p) (iv : BitVec 64)
    (n : Nat) (a : W64 × W64) (ha : p[n]? = some a) :
    ∃ c, blockAt (Kuz.ItCTR.impl m it) (Kuz.StCTREncrypted.iter (.ok (some i)) key iv) n = .ok c ∧
      ∀ (messageIt : Kuz.IterImpl κ) (messageStart : κ) (size' : Nat) (first : W64 × W64) (rest : List (W64 × W64))
        (forgedIt : Kuz.IterImpl κ') (forgedStart : κ') (x y : W64 × W64) (fuel : Nat), rest.length + 2 ≤ fuel →
        join64 x = BitVec.ofNat 128 (iv.toNat * 2 ^ 64 + n) → join64 y = join64 first ^^^ join64 a ^^^ join64 c →
        Shows messageIt size' messageStart (first :: rest) → Shows forgedIt size' forgedStart (x :: y :: rest) →
        ∃ v, Kuz.Imit.value m messageIt (.ok (some messageStart)) fuel key = .ok v ∧
          Kuz.Imit.value m forgedIt (.ok (some forgedStart)) fuel key = .ok v := by
  obtain ⟨j, jn, c, h1, h2, h3, h4, -⟩ := C44_ctr_block m key K hk it size i p hs iv n a ha
  refine ⟨c, by simp only [blockAt, h1, Exec.ok_bind, Kuz.deref, h2, h3], ?_⟩
  intro mIt ms size' first rest fIt fs x y fuel hf hx hy hM hF
  have ez : join64 a ^^^ join64 c = Spec.Kuz.enc K (join64 x) := by
    rw [h4, hx, ← BitVec.xor_assoc, BitVec.xor_self, BitVec.zero_xor]
  rw [BitVec.xor_assoc, ez] at hy
  rcases List.eq_nil_or_concat rest with rfl | ⟨q, l, rfl⟩
  · obtain ⟨v, e, hv⟩ := C50_mac_any_stream m key K hk mIt size' ms [] first hM fuel (by simp; omega)
    obtain ⟨v', e', hv'⟩ := C50_mac_any_stream m key K hk fIt size' fs [x] y hF fuel (by simp; simp at hf; omega)
    simp only [List.map_cons, List.map_nil, hy] at hv'
    rw [omac_in_front_last] at hv'
    cases join64_inj (hv.trans hv'.symm)
    exact ⟨v, e, e'⟩
  · simp only [List.concat_eq_append] at *
    obtain ⟨v, e, hv⟩ := C50_mac_any_stream m key K hk mIt size' ms (first :: q) l hM fuel (by simp at hf ⊢; omega)
    obtain ⟨v', e', hv'⟩ := C50_mac_any_stream m key K hk fIt size' fs (x :: y :: q) l hF fuel (by simp at hf ⊢; omega)
    simp only [List.map_cons, hy] at hv hv'
    rw [omac_in_front] at hv'
    cases join64_inj (hv.trans hv'.symm)
    exact ⟨v, e, e'⟩

example : Collects fileWrite (fun _ file => file) ∧ sampleData.length % 8 = 0 ∧ 8 ≤ sampleData.length ∧
    Usable sampleGostKey ∧ ∃ v, MagmaCode sampleGostKey sampleData v := by
  refine ⟨fileWrite_collects, by decide, by decide, sampleGostKey_usable, ?_⟩
  obtain ⟨f, hf⟩ := sampleGostKey_usable.computes
  obtain ⟨p, tail, e, ht, ht8, -⟩ := split_message (d := sampleData) (by decide)
  obtain ⟨v, hv, -⟩ := MagmaCode_exists hf p tail ht ht8
  exact ⟨v, e ▸ hv⟩

end Goost.Props
