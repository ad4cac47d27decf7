import Verif.Lemmas.RelatedKeys
import Verif.Props.Mac
import Verif.Props.Cfb
/-
Property C84 for streams and authentication codes: keys that differ in the highest bits of all words.
-/
namespace Goost.Props
open Spec Spec.Magma Spec.Modes
variable {W τ : Type}

/-- C84, CFB: two keys that differ in the highest bits of all their words, and two initialization vectors that differ in the
highest bits of all words. The ciphertexts of the same data, written in any pieces, differ in the highest bits of all
words and in nothing else. `content` is what the underlying sink has got. -/
theorem C84_highest_bits_cfb (m : Machine) (ws : List W32) (h8 : ws.length = 8) (sbox : Magma.Sbox)
    (hsb : ∀ v, ∃ r, sbox v = .ok r) (ivl ivr : BitVec 64) (wr : τ → List Byte → Io W τ) (content : τ → W → List Byte)
    (hw : Collects wr content) (s : τ) (w : W) (hs : content s w = []) (ds ds' : List (List Byte))
    (hd : ds.flatten = ds'.flatten) :
    ∃ t1 w1 t2 w2,
      writeAll (Magma.CFBSink.write m wr) (Magma.CFBSink.new s (Magma.LazyKey.ofNative ws sbox) ivl ivr) ds w =
        (.ok t1, w1) ∧
      writeAll (Magma.CFBSink.write m wr) (Magma.CFBSink.new s (Magma.LazyKey.ofNative (ws.map (· ^^^ 0x80000000)) sbox)
        (ivl ^^^ 0x8000000080000000) (ivr ^^^ 0x8000000080000000)) ds' w = (.ok t2, w2) ∧
      blocks64 (content t2.sink w2) = (blocks64 (content t1.sink w1)).map (· ^^^ 0x8000000080000000) := by
  obtain ⟨t, ht⟩ : ∃ t : W32 → W32, ∀ v, sbox v = .ok (t v) :=
    ⟨fun v => (hsb v).choose, fun v => (hsb v).choose_spec⟩
  have hf := Magma.LazyKey_ofNative_computes (kd := ws) (by omega) ht
  have hf' := Magma.LazyKey_ofNative_computes (kd := ws.map (· ^^^ 0x80000000)) (by rw [List.length_map]; omega) ht
  rw [C18_state m wr s _ _ hf rfl ivl ivr ds _ rfl, C18_state m wr s _ _ hf' rfl _ _ ds' _ rfl, ← hd]
  obtain ⟨s1, w1, e1, c1⟩ := hw.writeAll ((cfbEnc (encF _) [ivl, ivr] (blocks64 ds.flatten)).map bytesOf64) s w
  obtain ⟨s2, w2, e2, c2⟩ := hw.writeAll
    ((cfbEnc (encF _) [ivl ^^^ 0x8000000080000000, ivr ^^^ 0x8000000080000000] (blocks64 ds.flatten)).map bytesOf64) s w
  rw [hs, List.nil_append] at c1 c2
  refine ⟨_, w1, _, w2, by rw [Io.bind_run_ok e1]; rfl, by rw [Io.bind_run_ok e2]; rfl, ?_⟩
  simp only [c1, c2]
  show blocks64 (unblocks64 _) = (blocks64 (unblocks64 _)).map _
  rw [blocks64_unblocks64, blocks64_unblocks64]
  exact cfbEnc_tops (encF_tops fun i v => by
    rw [List.getElem_map]; exact congrArg t (add_top v _)) [ivl, ivr] _

example (m : Machine) := C84_highest_bits_cfb m [1, 2, 3, 4, 5, 6, 7, 8] rfl (fun v => .ok (v * 3)) (fun _ => ⟨_, rfl⟩) 1 2
  fileWrite _ fileWrite_collects () [] rfl [sampleData] [sampleData.take 3, sampleData.drop 3] (by decide)

/-- C84 for the `gost89::CFBSink`. -/
theorem C84_highest_bits_gost89_cfb (m : Machine) (ws : List W32) (h8 : ws.length = 8) (sbox : Magma.Sbox)
    (hsb : ∀ v, ∃ r, sbox v = .ok r) (iv : BitVec 64) (wr : τ → List Byte → Io W τ) (content : τ → W → List Byte)
    (hw : Collects wr content) (s : τ) (w : W) (hs : content s w = []) (ds ds' : List (List Byte))
    (hd : ds.flatten = ds'.flatten) :
    ∃ t1 w1 t2 w2,
      writeAll (Gost89.CFBSink.write m wr) (Gost89.CFBSink.new s (Magma.LazyKey.ofNative ws sbox) iv) ds w =
        (.ok t1, w1) ∧
      writeAll (Gost89.CFBSink.write m wr) (Gost89.CFBSink.new s (Magma.LazyKey.ofNative (ws.map (· ^^^ 0x80000000)) sbox)
        (iv ^^^ 0x8000000080000000)) ds' w = (.ok t2, w2) ∧
      blocks64 (content t2.sink w2) = (blocks64 (content t1.sink w1)).map (· ^^^ 0x8000000080000000) := by
  obtain ⟨t, ht⟩ : ∃ t : W32 → W32, ∀ v, sbox v = .ok (t v) :=
    ⟨fun v => (hsb v).choose, fun v => (hsb v).choose_spec⟩
  have hf := Magma.LazyKey_ofNative_computes (kd := ws) (by omega) ht
  have hf' := Magma.LazyKey_ofNative_computes (kd := ws.map (· ^^^ 0x80000000)) (by rw [List.length_map]; omega) ht
  rw [gost89_CFBSink_writes_eq m wr hf rfl ds s iv _ rfl, gost89_CFBSink_writes_eq m wr hf' rfl ds' s _ _ rfl, ← hd]
  obtain ⟨s1, w1, e1, c1⟩ := hw.writeAll ((cfbEnc (encF _) [iv] (blocks64 ds.flatten)).map bytesOf64) s w
  obtain ⟨s2, w2, e2, c2⟩ := hw.writeAll
    ((cfbEnc (encF _) [iv ^^^ 0x8000000080000000] (blocks64 ds.flatten)).map bytesOf64) s w
  rw [hs, List.nil_append] at c1 c2
  refine ⟨_, w1, _, w2, by rw [Io.bind_run_ok e1]; rfl, by rw [Io.bind_run_ok e2]; rfl, ?_⟩
  simp only [c1, c2]
  show blocks64 (unblocks64 _) = (blocks64 (unblocks64 _)).map _
  rw [blocks64_unblocks64, blocks64_unblocks64]
  exact cfbEnc_tops (encF_tops fun i v => by
    rw [List.getElem_map]; exact congrArg t (add_top v _)) [iv] _

example (m : Machine) := C84_highest_bits_gost89_cfb m [1, 2, 3, 4, 5, 6, 7, 8] rfl (fun v => .ok (v * 3)) (fun _ => ⟨_, rfl⟩) 1
  fileWrite _ fileWrite_collects () [] rfl [sampleData] [sampleData.take 3, sampleData.drop 3] (by decide)

/-- C84, gost89 authentication code: under keys that differ in the highest bits of all their words, the codes of two messages
that differ in the highest bits of the first two words (`x` and `x'` are the first 8 bytes) differ in the highest bits. -/
theorem C84_highest_bits_code (m : Machine) (ws : List W32) (h8 : ws.length = 8) (sbox : Magma.Sbox)
    (hsb : ∀ v, ∃ r, sbox v = .ok r) (x x' rest : List Byte) (hx : x.length = 8) (hx' : x'.length = 8)
    (hxx : block64 x' = block64 x ^^^ 0x8000000080000000) :
    ∃ code code', Gost89.DataImit.value m (x ++ rest) (some (Magma.LazyKey.ofNative ws sbox)) = .ok code ∧
      Gost89.DataImit.value m (x' ++ rest) (some (Magma.LazyKey.ofNative (ws.map (· ^^^ 0x80000000)) sbox)) = .ok code' ∧
      code.length = 8 ∧ code'.length = 8 ∧ block64 code' = block64 code ^^^ 0x8000000080000000 := by
  obtain ⟨t, ht⟩ : ∃ t : W32 → W32, ∀ v, sbox v = .ok (t v) :=
    ⟨fun v => (hsb v).choose, fun v => (hsb v).choose_spec⟩
  have hf := Magma.LazyKey_ofNative_computes (kd := ws) (by omega) ht
  have hf' := Magma.LazyKey_ofNative_computes (kd := ws.map (· ^^^ 0x80000000)) (by rw [List.length_map]; omega) ht
  refine ⟨_, _, C29_gost89_mac m _ _ hf _, C29_gost89_mac m _ _ hf' _, bytesOf64_length _, bytesOf64_length _, ?_⟩
  rw [block64_bytesOf64, block64_bytesOf64]
  obtain ⟨r, h1, h2⟩ : ∃ r, zeroPadded (x ++ rest) = x ++ r ∧ zeroPadded (x' ++ rest) = x' ++ r := by
    refine ⟨_, by rw [zeroPadded, List.append_assoc], ?_⟩
    rw [zeroPadded, List.append_assoc]
    simp only [List.length_append, hx, hx']
  rw [h1, h2, blocks64_append_whole (a := x) (by rw [hx]), blocks64_append_whole (a := x') (by rw [hx']), blocks64_eight hx,
    blocks64_eight hx', hxx]
  have st := macStep_tops (f := fun i v => t (v + ws[i.val]'(by omega)))
    (f' := fun i v => t (v + (ws.map (· ^^^ (0x80000000 : W32)))[i.val]'(by rw [List.length_map]; omega)))
    (fun i v => by rw [List.getElem_map]; exact congrArg t (add_top v _))
  have := chain_tops st
  rw [List.singleton_append, List.singleton_append, chain_cons, chain_cons]
  have z : ∀ y : W64, y ^^^ 0 = y := fun _ => BitVec.xor_zero
  rw [z, z]
  exact (congrArg (fun c => chain _ c _) (st (block64 x))).trans (this _ _)

example : ([1, 2, 3, 4, 5, 6, 7, 8] : List W32).length = 8 ∧ (sampleData.take 8).length = 8 ∧
    Collects fileWrite (fun _ file => file) ∧
    (∀ (uz : List Byte) (_ : uz.length = 64) (v : W32), ∃ r, Magma.SboxTwisted (Magma.SboxByte uz) v = .ok r) ∧
    block64 [0x10, 0, 0, 0x80, 0, 0, 0, 0x90] = block64 [0x10, 0, 0, 0, 0, 0, 0, 0x10] ^^^ 0x8000000080000000 :=
  ⟨rfl, by decide, fileWrite_collects, fun _ h v => ⟨_, Magma.packed_total (by omega) v⟩, by decide⟩

end Goost.Props
