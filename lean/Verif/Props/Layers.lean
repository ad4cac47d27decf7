import Verif.Lemmas.Layers
import Verif.Props.Mac
import Verif.Props.KuzStream
/-
Property C57 for stacks of any depth, and C67: authentication on top of a pipeline.
-/
namespace Goost.Props
open Goost.Magma Goost.Layers Spec Spec.Magma Spec.Modes
variable {W σ τ : Type}

/-! ### C57 -/

/-- C57. Writing to a stack of any number of layers and finalizing them does to the sink below (any sink,
also a failing one) what writing the blocks does that come out when the data go through the modes of
operation of all the layers. The data are of whole blocks; the pieces in which they are written are
arbitrary if the outermost layer is a `CFBSink`, and of whole blocks otherwise. -/
theorem C57_stack_ciphertext (m : Machine) (wr : τ → List Byte → Io W τ) (s : τ) (l : Layer)
    (ls : List Layer) (hl : ∀ x ∈ l :: ls, Layer.Usable x) (ds : List (List Byte))
    (hd : ds.flatten.length % 8 = 0) (hp : Layer.AnySizes l ∨ ∀ d ∈ ds, d.length % 8 = 0) :
    (do let t ← writeAll (Sinks.write m wr (l :: ls)) (Sinks.new s (l :: ls)) ds
        Sinks.finalize m wr (l :: ls) t) =
      writeAll wr s ((stackEnc (l :: ls) (blocks64 ds.flatten)).map bytesOf64) := by
  rw [Sinks_step m wr s l ls (hl l (by simp)) ds hd hp,
    Sinks_blocks m wr s ls (fun x hx => hl x (by simp [hx]))]
  rfl

/-- C57. Reading blocks through the stack of sources gives what comes out when the blocks of the source go
through the inverse modes in the opposite order; if the outermost layer is a `CFBSource`, whatever sizes
are read. -/
theorem C57_stack_plaintext (m : Machine) (rd : σ → Nat → Io W (List Byte × σ)) (s : σ) (w : W)
    (l : Layer) (ls : List Layer) (hl : ∀ x ∈ l :: ls, Layer.Usable x) (c : List (BitVec 64))
    (h : SuppliesBlocks rd s w (unblocks64 c)) :
    SuppliesBlocks (Sources.read m rd (l :: ls)) (Sources.new s (l :: ls)) w
        (unblocks64 (stackDec (l :: ls) c)) ∧
    (Layer.AnySizes l → Supplies (Sources.read m rd (l :: ls)) (Sources.new s (l :: ls)) w
        (unblocks64 (stackDec (l :: ls) c))) :=
  Sources_step m rd s w l ls (hl l (by simp)) _
    (Sources_blocks m rd s w ls (fun x hx => hl x (by simp [hx])) c h)

/-- C57. Data of whole blocks written through a stack of any depth into a collecting sink come back when the
collected bytes are read through the mirrored stack of sources. -/
theorem C57_stack_round_trip {W' : Type} (m : Machine) (l : Layer) (ls : List Layer)
    (hl : ∀ x ∈ l :: ls, Layer.Usable x) (wr : τ → List Byte → Io W τ)
    (content : τ → W → List Byte) (hw : Collects wr content) (s : τ) (w : W)
    (hs : content s w = []) (ds : List (List Byte)) (hd : ds.flatten.length % 8 = 0)
    (hp : Layer.AnySizes l ∨ ∀ d ∈ ds, d.length % 8 = 0) :
    ∃ s' w', (do
        let t ← writeAll (Sinks.write m wr (l :: ls)) (Sinks.new s (l :: ls)) ds
        Sinks.finalize m wr (l :: ls) t) w = (.ok s', w') ∧
      ∀ (rd : σ → Nat → Io W' (List Byte × σ)) (src : σ) (v : W'),
        SuppliesBlocks rd src v (content s' w') →
        SuppliesBlocks (Sources.read m rd (l :: ls)) (Sources.new src (l :: ls)) v ds.flatten ∧
        (Layer.AnySizes l →
          Supplies (Sources.read m rd (l :: ls)) (Sources.new src (l :: ls)) v ds.flatten) := by
  rw [C57_stack_ciphertext m wr s l ls hl ds hd hp]
  obtain ⟨s', w', e1, e2⟩ :=
    hw.writeAll ((stackEnc (l :: ls) (blocks64 ds.flatten)).map bytesOf64) s w
  refine ⟨s', w', e1, fun rd src v hsrc => ?_⟩
  rw [e2, hs, List.nil_append, pieces_flatten] at hsrc
  have := C57_stack_plaintext m rd src v l ls hl _ hsrc
  rwa [stackDec_stackEnc, unblocks64_blocks64_whole hd] at this

/-- Three layers of all three kinds, with two keys. -/
example : ∀ x ∈ [Layer.cfb (LazyKey.ofString sampleKeyText) 1 2, .gostCfb sampleGostKey 3,
    .ecb (LazyKey.ofString sampleKeyText)], Layer.Usable x := by
  have h1 := sampleKey_computes.usable
  have h2 := sampleGostKey_usable
  intro x hx
  simp only [List.mem_cons, List.not_mem_nil, or_false] at hx
  rcases hx with rfl | rfl | rfl
  · exact ⟨h1, rfl⟩
  · exact ⟨h2, rfl⟩
  · exact ⟨h1, rfl⟩

/-! ### C67 -/

/-- C67. Authenticating what a stack of sources delivers gives the MAC of the data that were written
through the mirrored stack of sinks. `p` and `last` are the blocks of the data, `key` is the key of
the MAC. -/
theorem C67_mac_of_decrypted {W' : Type} (l : Layer) (ls : List Layer)
    (hl : ∀ x ∈ l :: ls, Layer.Usable x) (wr : τ → List Byte → Io W τ)
    (content : τ → W → List Byte) (hw : Collects wr content) (s : τ) (w : W)
    (hs : content s w = []) (ds : List (List Byte)) (p : List (BitVec 64)) (last : BitVec 64)
    (hd : ds.flatten = unblocks64 (p ++ [last]))
    (hp : Layer.AnySizes l ∨ ∀ d ∈ ds, d.length % 8 = 0)
    (key : Key) (f : Fin 8 → BitVec 32 → BitVec 32) (h : Computes key f) (fuel : Nat)
    (hf : p.length < fuel) :
    ∃ s' w', (do
        let t ← writeAll (Sinks.write .x86 wr (l :: ls)) (Sinks.new s (l :: ls)) ds
        Sinks.finalize .x86 wr (l :: ls) t) w = (.ok s', w') ∧
      ∀ (rd : σ → Nat → Io W' (List Byte × σ)) (src : σ) (v : W'),
        SuppliesBlocks rd src v (content s' w') →
        ∃ r v', Imit.value .x86 (Sources.read .x86 rd (l :: ls)) fuel (Sources.new src (l :: ls))
            (some key) v = (.ok r, v') ∧
          join32 r = omac (encF f) (macK1 (encF f) 0x1b) p last := by
  obtain ⟨s', w', e1, e2⟩ := C57_stack_round_trip (σ := σ) (W' := W') .x86 l ls hl wr content hw s w
    hs ds (by rw [hd, unblocks64_length]; omega) hp
  refine ⟨s', w', e1, fun rd src v hsrc => ?_⟩
  have := (e2 rd src v hsrc).1
  rw [hd] at this
  exact C32_omac key f h _ _ v p last this fuel hf

/-- C67. Authenticating an encrypted kuznyechik stream gives the MAC of the ciphertext, authenticating a
stream that is encrypted twice (that is, decrypted) gives the MAC of the plaintext. `keyM` is the key of
the MAC. -/
theorem C67_kuznyechik_mac_of_ctr {ι : Type} (m : Machine) (key keyM : Kuz.Key) (K M : BitVec 256)
    (hk : Encrypts m key K) (hm : Encrypts m keyM M) (it : Kuz.IterImpl ι) (i : ι)
    (p : List (W64 × W64)) (hs : Shows it 16 i p) (iv : BitVec 64) (fuel : Nat)
    (hf : p.length ≤ fuel) :
    (∃ r, Kuz.Imit.value m (Kuz.ItCTR.impl m it) (Kuz.StCTREncrypted.iter (.ok (some i)) key iv) fuel
          keyM = .ok r ∧
      ∃ q last, ctr (k := 64) (Spec.Kuz.enc K) iv (p.map join64) = q ++ [last] ∧
        join64 r = omac (Spec.Kuz.enc M) (macK1 (Spec.Kuz.enc M) 0x87) q last) ∧
    Kuz.Imit.value m (Kuz.ItCTR.impl m (Kuz.ItCTR.impl m it))
        (Kuz.StCTREncrypted.iter (Kuz.StCTREncrypted.iter (.ok (some i)) key iv) key iv) fuel keyM =
      Kuz.Imit.value m it (.ok (some i)) fuel keyM := by
  have lastOf : ∀ {κ : Type} (it : Kuz.IterImpl κ) (j : κ) (c : List (W64 × W64)), Shows it 16 j c →
      c.length ≤ fuel → ∃ q last r, c = q ++ [last] ∧
        Kuz.Imit.value m it (.ok (some j)) fuel keyM = .ok r ∧
        join64 r = omac (Spec.Kuz.enc M) (macK1 (Spec.Kuz.enc M) 0x87) (q.map join64)
          (join64 last) := by
    intro κ it j c hc hlen
    obtain ⟨q, last, rfl⟩ := Shows.split hc
    obtain ⟨r, e1, e2⟩ := C50_mac_any_stream m keyM M hm it 16 j q last hc fuel
      (by simp at hlen; omega)
    rw [if_pos rfl] at e2
    exact ⟨q, last, r, rfl, e1, e2⟩
  constructor
  · obtain ⟨j, cs, h1, h2, h3⟩ := C44_ctr_conforms m key K hk it 16 i p hs iv
    have hlen : cs.length = p.length := by
      have := congrArg List.length h3
      simpa [ctr] using this
    obtain ⟨q, last, r, rfl, e1, e2⟩ := lastOf _ j cs h2 (by omega)
    exact ⟨r, by rw [h1]; exact e1, q.map join64, join64 last, by rw [← h3]; simp, e2⟩
  · obtain ⟨j, h1, h2⟩ := C45_ctr_involution m key K hk it 16 i p hs iv
    obtain ⟨q, last, r, hq, e1, e2⟩ := lastOf _ j p h2 hf
    obtain ⟨q', last', r', hq', e1', e2'⟩ := lastOf it i p hs hf
    rw [hq] at hq'
    obtain ⟨rfl, hlast⟩ := List.append_inj hq' (by
      have := congrArg List.length hq'
      simpa using this)
    obtain rfl : last = last' := by simpa using hlast
    rw [h1, e1, e1', join64_inj (e2.trans e2'.symm)]

/-- The blocks of the 24 bytes used in the examples. -/
example : sampleData = unblocks64 ((blocks64 sampleData).dropLast ++ [(blocks64 sampleData).getLast!]) := by
  decide

/-- Three layers of all three kinds, with two keys. -/
theorem sampleLayers_usable : ∀ x ∈ [Layer.cfb (LazyKey.ofString sampleKeyText) 1 2, .gostCfb sampleGostKey 3,
    .ecb (LazyKey.ofString sampleKeyText)], Layer.Usable x := by
  intro x hx
  simp only [List.mem_cons, List.not_mem_nil, or_false] at hx
  rcases hx with rfl | rfl | rfl
  · exact ⟨sampleKey_computes.usable, rfl⟩
  · exact ⟨sampleGostKey_usable, rfl⟩
  · exact ⟨sampleKey_computes.usable, rfl⟩

/-! The theorems at these layers -/

example (m : Machine) := C57_stack_ciphertext m (memWrite (W := Unit)) [] _ _ sampleLayers_usable
  [sampleData.take 5, sampleData.drop 5] (by decide) (.inl trivial)

example (m : Machine) := C57_stack_plaintext m (memRead (W := Unit)) (unblocks64 [1, 2, 3]) () _ _ sampleLayers_usable [1, 2, 3]
  (memRead_supplies _ ()).blocks

example := C67_mac_of_decrypted (σ := List Byte) (W' := Unit) _ _ sampleLayers_usable memWrite _ (memWrite_collects (W := Unit))
  [] () rfl [sampleData.take 5, sampleData.drop 5] (blocks64 (sampleData.take 16)) (block64 (sampleData.drop 16)) (by decide)
  (.inl trivial) _ _ sampleKey_computes 3 (by decide)

end Goost.Props
