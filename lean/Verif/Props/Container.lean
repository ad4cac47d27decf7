import Verif.Model.UserContainer
import Verif.Props.Ecb
import Verif.Props.TestSupport
import Verif.Lemmas.Layers
/-
Property C103: keys from containers of the user.
-/
namespace Goost.Props
open Goost.Magma Spec Spec.Magma Spec.Modes
variable {W σ τ : Type}

/-- C103. Making an `ECBSource` from a container calls `key()` once and then `sbox()` once, and the source
is the one made from the bytes they returned. (The key is one that fits: 1 … 32 bytes.) -/
theorem C103_asked_once (c : UserContainer W) (source : σ) (k s : List Byte) (w w1 w2 : W)
    (hk : c.key w = (.ok k, w1)) (h0 : k ≠ []) (hl : k.length ≤ 32) (hs : c.sbox w1 = (.ok s, w2)) :
    ECBSource.ofUserContainer source c w = (ECBSource.ofContainer source ⟨k, s⟩, w2) := by
  have hb : copyInto 32 k = .ok (k ++ List.replicate (32 - k.length) 0) := by
    rw [copyInto, if_neg h0, if_pos hl]
  have hload : ∀ i, i + 4 ≤ 32 → ∃ x, load32 (k ++ List.replicate (32 - k.length) 0) i = .ok x := by
    intro i hi
    have hget : ∀ j, j < 32 → ∃ x, vget (k ++ List.replicate (32 - k.length) (0 : Byte)) j = .ok x := by
      intro j hj
      have : j < (k ++ List.replicate (32 - k.length) (0 : Byte)).length := by simp; omega
      exact ⟨_, by rw [vget, List.getElem?_eq_getElem this]⟩
    obtain ⟨b0, e0⟩ := hget i (by omega)
    obtain ⟨b1, e1⟩ := hget (i + 1) (by omega)
    obtain ⟨b2, e2⟩ := hget (i + 2) (by omega)
    obtain ⟨b3, e3⟩ := hget (i + 3) (by omega)
    exact ⟨_, by simp only [load32, e0, e1, e2, e3, Exec.ok_bind]; rfl⟩
  obtain ⟨x0, e0⟩ := hload 0 (by omega)
  obtain ⟨x1, e1⟩ := hload 4 (by omega)
  obtain ⟨x2, e2⟩ := hload 8 (by omega)
  obtain ⟨x3, e3⟩ := hload 12 (by omega)
  obtain ⟨x4, e4⟩ := hload 16 (by omega)
  obtain ⟨x5, e5⟩ := hload 20 (by omega)
  obtain ⟨x6, e6⟩ := hload 24 (by omega)
  obtain ⟨x7, e7⟩ := hload 28 (by omega)
  simp only [ECBSource.ofUserContainer, ECBSource.makeKeyUser, ECBSource.ofContainer, ECBSource.makeKey,
    Io.bind_def, Io.bind, hk, Io.lift, hb, e0, e1, e2, e3, e4, e5, e6, e7, hs, Exec.ok_bind]
  cases copyInto 64 s <;> rfl

example := C103_asked_once (⟨fun n : Nat => (.ok sampleData, n + 1), fun n => (.ok [], n), fun n => (.ok (sampleData ++ sampleData), n + 1)⟩)
  () sampleData (sampleData ++ sampleData) 0 1 2 rfl (by decide) (by decide) rfl

/-- C103. What the container throws comes out of the constructor, nothing else of the container is called,
and there is no source. -/
theorem C103_container_failure (c : UserContainer W) (source : σ) (w w1 : W) (e : Exn) :
    (c.key w = (.throw e, w1) → ECBSource.ofUserContainer source c w = (.throw e, w1)) ∧
    (∀ k w2, c.key w = (.ok k, w1) → k.length = 32 → c.sbox w1 = (.throw e, w2) →
      ECBSource.ofUserContainer source c w = (.throw e, w2)) := by
  refine ⟨fun h => ?_, fun k w2 hk hl hs => ?_⟩
  · simp only [ECBSource.ofUserContainer, ECBSource.makeKeyUser, Io.bind_def, Io.bind, h]
  · have hb : copyInto 32 k = .ok k := by
      rw [copyInto, if_neg (by intro q; rw [q] at hl; simp at hl), if_pos (by omega), hl]
      simp
    have hload : ∀ i, i + 4 ≤ 32 → ∃ x, load32 k i = .ok x := by
      intro i hi
      have hget : ∀ j, j < 32 → ∃ x, vget k j = .ok x := by
        intro j hj
        exact ⟨_, by rw [vget, List.getElem?_eq_getElem (by omega)]⟩
      obtain ⟨b0, e0⟩ := hget i (by omega)
      obtain ⟨b1, e1⟩ := hget (i + 1) (by omega)
      obtain ⟨b2, e2⟩ := hget (i + 2) (by omega)
      obtain ⟨b3, e3⟩ := hget (i + 3) (by omega)
      exact ⟨_, by simp only [load32, e0, e1, e2, e3, Exec.ok_bind]; rfl⟩
    obtain ⟨x0, e0⟩ := hload 0 (by omega)
    obtain ⟨x1, e1⟩ := hload 4 (by omega)
    obtain ⟨x2, e2⟩ := hload 8 (by omega)
    obtain ⟨x3, e3⟩ := hload 12 (by omega)
    obtain ⟨x4, e4⟩ := hload 16 (by omega)
    obtain ⟨x5, e5⟩ := hload 20 (by omega)
    obtain ⟨x6, e6⟩ := hload 24 (by omega)
    obtain ⟨x7, e7⟩ := hload 28 (by omega)
    simp only [ECBSource.ofUserContainer, ECBSource.makeKeyUser, Io.bind_def, Io.bind, hk, Io.lift, hb,
      e0, e1, e2, e3, e4, e5, e6, e7, hs]

/-- C103. A stream written with a key is read by an `ECBSource` made from a container, if the 32 key bytes
of the container (first byte most significant) and its 64 bytes of packed tables are that key. -/
theorem C103_container_opens {W' : Type} (m : Machine) (c : UserContainer W') (k s : List Byte)
    (v v1 v2 : W') (hk : c.key v = (.ok k, v1)) (hkl : k.length = 32) (hs : c.sbox v1 = (.ok s, v2))
    (hsl : s.length = 64) (key : Key)
    (hkey : Computes key fun i => g (packedRows s) (keyWord (BitVec.ofNat 256 (natOfBytes k.reverse)) i))
    (wr : τ → List Byte → Io W τ) (content : τ → W → List Byte) (hw : Collects wr content) (t0 : τ) (w : W)
    (ht : content t0 w = []) (ds : List (List Byte)) (hd : ∀ d ∈ ds, d.length % 8 = 0) :
    ∃ t w', writeAll (ECBSink.write wr) ⟨t0, key⟩ ds w = (.ok t, w') ∧
      ∀ (rd : σ → Nat → Io W' (List Byte × σ)) (src : σ),
        SuppliesBlocks rd src v2 (content t.sink w') →
        ∃ source, ECBSource.ofUserContainer src c v = (.ok source, v2) ∧
          SuppliesBlocks (ECBSource.read m rd) source v2 ds.flatten := by
  have hdl := whole_flatten hd
  obtain ⟨t', w', e1, e2⟩ := hw.writeAll ((ecb (encF _) (blocks64 ds.flatten)).map bytesOf64) t0 w
  refine ⟨⟨t', key⟩, w', by rw [ECBSink_writes_eq wr hkey _ _ hd, Io.bind_run_ok e1]; rfl, ?_⟩
  intro rd src hsrc
  simp only [e2, ht, List.nil_append, pieces_flatten] at hsrc
  have hk0 : k ≠ [] := by intro q; rw [q] at hkl; simp at hkl
  refine ⟨.ecb src (LazyKey.ofNative (keyWords (BitVec.ofNat 256 (natOfBytes k.reverse)))
    (SboxTwisted (SboxByte s))), ?_, ?_⟩
  · rw [C103_asked_once c src k s v v1 v2 hk hk0 (by omega) hs, ECBSource.ofContainer,
      makeKey_eq hkl hsl]
    rfl
  · have hcc : Computes (LazyKey.ofNative (keyWords (BitVec.ofNat 256 (natOfBytes k.reverse)))
        (SboxTwisted (SboxByte s)))
        fun i => g (packedRows s) (keyWord (BitVec.ofNat 256 (natOfBytes k.reverse)) i) := by
      intro x i
      have h1 := LazyKey_ofNative_computes
        (kd := keyWords (BitVec.ofNat 256 (natOfBytes k.reverse))) (by rw [keyWords_length]; omega)
        (fun v => SboxTwisted_eq (SboxByte_eq (uz := s) (by omega) v)) x i
      rw [h1]
      simp only [g, keyWords_get]
    have := ECBSource_supplies hcc rfl m rd src v2 _ hsrc (by rw [unblocks64_length]; omega)
    rw [ecbPlain, blocks64_unblocks64, ecb, ecb, List.map_map] at this
    rw [show (decF _ ∘ encF _) = id from funext fun x => decF_encF _ x, List.map_id,
      unblocks64_blocks64_whole hdl] at this
    exact this

/-- C103. The key may have been given as eight words or as 64 digits; it is enough that they denote the
number that the bytes of the container denote. -/
theorem C103_other_forms (k s : List Byte) (hsl : s.length = 64) :
    (∀ ws : List (BitVec 32), ws.length = 8 → natOfBytes k.reverse = natOfWords ws →
      Computes (LazyKey.ofNative ws (SboxTwisted (SboxByte s)))
        fun i => g (packedRows s) (keyWord (BitVec.ofNat 256 (natOfBytes k.reverse)) i)) ∧
    (∀ text : List Char, IsHex text → text.length = 64 → natOfBytes k.reverse = hexNat text →
      Computes (LazyKey.ofStringSbox text (SboxTwisted (SboxByte s)))
        fun i => g (packedRows s) (keyWord (BitVec.ofNat 256 (natOfBytes k.reverse)) i)) := by
  refine ⟨fun ws hw e x i => ?_, fun text ht hl e x i => ?_⟩
  · have h1 := LazyKey_ofNative_computes (kd := ws) (by omega)
      (fun v => SboxTwisted_eq (SboxByte_eq (uz := s) (by omega) v)) x i
    rw [h1, e]
    simp only [g, native_word hw]
  · have h1 := LazyKey_ofStringSbox_computes ht hl
      (fun v => SboxTwisted_eq (SboxByte_eq (uz := s) (by omega) v)) x i
    rw [h1, e]
    rfl

/-- C103, false of the code: the mask of a container has no effect. Whatever `mask()` returns or does, it
is not called; a key kept under a mask is used as it is stored. -/
theorem C103_mask_ignored (c : UserContainer W) (mask : Io W (List Byte)) (source : σ) :
    ECBSource.ofUserContainer source { c with mask := mask } = ECBSource.ofUserContainer source c := rfl

/-- A container that counts its calls and forbids a second `key()`, with the key of the standard. -/
def sampleContainer : UserContainer Nat where
  key n := if n = 0 then (.ok [0xff, 0xee, 0xdd, 0xcc, 0xbb, 0xaa, 0x99, 0x88, 0x77, 0x66, 0x55, 0x44,
      0x33, 0x22, 0x11, 0x00, 0xf0, 0xf1, 0xf2, 0xf3, 0xf4, 0xf5, 0xf6, 0xf7, 0xf8, 0xf9, 0xfa, 0xfb,
      0xfc, 0xfd, 0xfe, 0xff], 1)
    else (.throw (.runtimeError "Once"), n)
  mask n := (.throw (.runtimeError "No mask"), n)
  sbox n := (.ok TestSupport.HexContainer.sbox, n + 1)

example (m : Machine) : ∃ t, writeAll (ECBSink.write memWrite)
      ⟨[], LazyKey.ofStringSbox sampleKeyText (SboxTwisted (SboxByte TestSupport.HexContainer.sbox))⟩
      [sampleData.take 16, sampleData.drop 16] () = (.ok t, ()) ∧
    ∃ source, ECBSource.ofUserContainer t.sink sampleContainer 0 = (.ok source, 2) ∧
      SuppliesBlocks (ECBSource.read m memRead) source 2 sampleData := by
  obtain ⟨t, w', e, h⟩ := C103_container_opens (σ := List Byte) m sampleContainer _ _ 0 1 2 rfl (by decide)
    rfl (by decide) _ ((C103_other_forms _ _ (by decide)).2 sampleKeyText (by decide) (by decide) (by decide))
    memWrite _ memWrite_collects [] () rfl [sampleData.take 16, sampleData.drop 16] (by decide)
  exact ⟨t, e, h memRead t.sink (memRead_supplies _ 2).blocks⟩

end Goost.Props
