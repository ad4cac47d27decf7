import Verif.Lemmas.OrderModel
import Verif.Spec.VectorsOrder
import Verif.Props.Vectors
/-
Property C90: what the library computes does not depend on the byte order of the machine.
-/
namespace Goost.Props
open Spec Spec.Magma Spec.Modes Goost.Magma Spec.Vectors
variable {W σ τ : Type}

/-! ### C90: the model -/

/-- The functions with a byte order agree with the rest of the model on a little-endian machine, so what
C90 says about little-endian machines is said about the code as modelled everywhere else. -/
theorem C90_little_endian_is_the_model (m : Machine) (wr : τ → List Byte → Io W τ)
    (rd : σ → Nat → Io W (List Byte × σ)) (n : Nat) (d : List Byte) (k : Option Key) (x : σ) :
    (∀ t, ECBSink.writeIn .little wr t d = ECBSink.write wr t d) ∧
    (∀ t, ECBSource.readIn .little m rd t n = ECBSource.read m rd t n) ∧
    (∀ t, CFBSink.writeIn .little m wr t d = CFBSink.write m wr t d) ∧
    (∀ t, CFBSource.readIn .little m rd t n = CFBSource.read m rd t n) ∧
    Imit.valueIn .little m rd n x k = Imit.value m rd n x k ∧
    (∀ t, Gost89.CFBSink.writeIn .little m wr t d = Gost89.CFBSink.write m wr t d) ∧
    (∀ t, Gost89.CFBSource.readIn .little m rd t n = Gost89.CFBSource.read m rd t n) ∧
    Gost89.DataImit.valueIn .little m d k = Gost89.DataImit.value m d k ∧
    (∀ c, ECBSource.makeKeyIn .little c = ECBSource.makeKey c) ∧
    ∀ b : Kuz.Blk, b.valueIn .little m = b.value m :=
  ⟨fun t => ECBSink_loopIn_little wr t.key d [] t.sink, fun t => ECBSource_readIn_little m rd t n,
    fun t => CFBSink_loopIn_little m wr t.key d t.sink t.plain t.ivl t.ivr,
    fun t => CFBSource_loopIn_little m rd t.key n (n + 1) t.source t.plain t.ivl t.ivr [],
    Imit_valueIn_little m rd n x k,
    fun t => gost89_CFBSink_loopIn_little m wr t.key d t.sink t.plain t.iv,
    fun t => gost89_CFBSource_loopIn_little m rd t.key n (n + 1) t.source t.plain t.iv [],
    DataImit_valueIn_little m d k, makeKeyIn_little, Kuz_valueIn_little m⟩

/-! ### C90: what does not depend on the byte order -/

/-- C90, a part that holds: the key of a container is the same on every machine. -/
theorem C90_container_key_partial (o : ByteOrder) (c : Container) :
    ECBSource.makeKeyIn o c = ECBSource.makeKeyIn .little c := by
  rw [makeKeyIn_eq, makeKeyIn_eq]

/-- C90, a part that holds: what a `CFBSink` wrote on a machine of either byte order is read back by a
`CFBSource` on a machine of the same byte order. Missing: the same with two machines of different byte
order, where it is false. -/
theorem C90_cfb_round_trip_partial {W' : Type} (o : ByteOrder) (m : Machine) (key : Key) (h : Usable key)
    (hl : key.isLazy = true) (ivl ivr : BitVec 64) (wr : τ → List Byte → Io W τ)
    (content : τ → W → List Byte) (hw : Collects wr content) (s : τ) (w : W)
    (hs : content s w = []) (ds : List (List Byte)) (hd : ds.flatten.length % 8 = 0) :
    ∃ s' w', (do let t ← writeAll (CFBSink.writeIn o m wr) (CFBSink.new s key ivl ivr) ds
                 CFBSink.finalize m wr t) w = (.ok s', w') ∧
      ∀ (rd : σ → Nat → Io W' (List Byte × σ)) (src : σ) (v : W'),
        SuppliesBlocks rd src v (content s' w') →
        Supplies (CFBSource.readIn o m rd) (CFBSource.new src key ivl ivr) v ds.flatten := by
  obtain ⟨f, hf⟩ := h.computes
  rw [CFBSink_writes_eq_in o m wr hf hl ds s ivl ivr _ rfl, bind_assoc]
  obtain ⟨s', w', e1, e2⟩ := hw.writeAll ((cfbEnc (fun x => encF f (seen o x))
    [seen o ivl, seen o ivr] (blocks64 ds.flatten)).map bytesOf64) s w
  have hp : ds.flatten.drop (8 * (ds.flatten.length / 8)) = [] :=
    List.drop_of_length_le (by omega)
  refine ⟨s', w', ?_, ?_⟩
  · rw [Io.bind_run_ok e1, hp]
    simp [CFBSink.finalize]
    rfl
  · intro rd src v hsrc
    have hc : content s' w' = unblocks64 (cfbEnc (fun x => encF f (seen o x))
        [seen o ivl, seen o ivr] (blocks64 ds.flatten)) := by
      rw [e2, hs]; rfl
    rw [hc] at hsrc
    have := CFBSource_supplies_in o m rd hf hl src v _ hsrc (by rw [unblocks64_length]; omega) ivl ivr
    rwa [cfbPlainIn, blocks64_unblocks64, cfbDec_cfbEnc _ _ _ (by simp),
      unblocks64_blocks64_whole hd] at this

/-- The same for the classes of gost89. -/
theorem C90_gost89_cfb_round_trip_partial {W' : Type} (o : ByteOrder) (m : Machine) (key : Key)
    (h : Usable key) (hl : key.isLazy = true) (iv : BitVec 64) (wr : τ → List Byte → Io W τ)
    (content : τ → W → List Byte) (hw : Collects wr content) (s : τ) (w : W)
    (hs : content s w = []) (ds : List (List Byte)) (hd : ds.flatten.length % 8 = 0) :
    ∃ s' w', (do let t ← writeAll (Gost89.CFBSink.writeIn o m wr) (Gost89.CFBSink.new s key iv) ds
                 Gost89.CFBSink.finalize m wr t) w = (.ok s', w') ∧
      ∀ (rd : σ → Nat → Io W' (List Byte × σ)) (src : σ) (v : W'),
        SuppliesBlocks rd src v (content s' w') →
        Supplies (Gost89.CFBSource.readIn o m rd) (Gost89.CFBSource.new src key iv) v ds.flatten := by
  obtain ⟨f, hf⟩ := h.computes
  rw [gost89_CFBSink_writes_eq_in o m wr hf hl ds s iv _ rfl, bind_assoc]
  obtain ⟨s', w', e1, e2⟩ := hw.writeAll ((cfbEnc (fun x => encF f (seen o x))
    [seen o iv] (blocks64 ds.flatten)).map bytesOf64) s w
  have hp : ds.flatten.drop (8 * (ds.flatten.length / 8)) = [] :=
    List.drop_of_length_le (by omega)
  refine ⟨s', w', ?_, ?_⟩
  · rw [Io.bind_run_ok e1, hp]
    simp [Gost89.CFBSink.finalize]
    rfl
  · intro rd src v hsrc
    have hc : content s' w' = unblocks64 (cfbEnc (fun x => encF f (seen o x))
        [seen o iv] (blocks64 ds.flatten)) := by
      rw [e2, hs]; rfl
    rw [hc] at hsrc
    have := gost89_CFBSource_supplies_in o m rd hf hl src v _ hsrc (by rw [unblocks64_length]; omega) iv
    rwa [cfbPlainIn, blocks64_unblocks64, cfbDec_cfbEnc _ _ _ (by simp),
      unblocks64_blocks64_whole hd] at this

example (m : Machine) : ∃ c, (do
      let t ← writeAll (CFBSink.writeIn .big m memWrite)
        (CFBSink.new [] (LazyKey.ofString sampleKeyText) 0x1234567890abcdef 0x234567890abcdef1)
        [sampleData.take 3, [], sampleData.drop 3]
      CFBSink.finalize m memWrite t) () = (.ok c, ()) ∧
    Supplies (CFBSource.readIn .big m memRead) (CFBSource.new c (LazyKey.ofString sampleKeyText)
      0x1234567890abcdef 0x234567890abcdef1) () sampleData := by
  obtain ⟨c, w', e, h⟩ := C90_cfb_round_trip_partial (σ := List Byte) (W' := Unit) .big m
    (LazyKey.ofString sampleKeyText) sampleKey_computes.usable rfl 0x1234567890abcdef
    0x234567890abcdef1 memWrite _ memWrite_collects [] () rfl
    [sampleData.take 3, [], sampleData.drop 3] (by decide)
  exact ⟨c, e, h memRead c () (memRead_supplies _ ()).blocks⟩

/-! ### C90: cipher feedback -/

/-- C90, a part that holds, and how far: two machines of different byte order encrypt the same message by
`CFBSink` with the same key and register. The first 16 bytes of the two ciphertexts are the same. The
third block is the same only if the first block of the ciphertext reads the same from both ends. -/
theorem C90_cfb_first_blocks_partial (m m' : Machine) (key : Key) (h : Usable key)
    (hl : key.isLazy = true) (ivl ivr : BitVec 64) (wr : τ → List Byte → Io W τ)
    (content : τ → W → List Byte) (hw : Collects wr content) (s : τ) (w : W)
    (hs : content s w = []) (ds : List (List Byte)) :
    ∃ t1 w1 t2 w2,
      writeAll (CFBSink.writeIn .little m wr) (CFBSink.new s key ivl ivr) ds w = (.ok t1, w1) ∧
      writeAll (CFBSink.writeIn .big m' wr) (CFBSink.new s key ivl ivr) ds w = (.ok t2, w2) ∧
      (content t1.sink w1).length = (content t2.sink w2).length ∧
      (content t1.sink w1).take 16 = (content t2.sink w2).take 16 ∧
      (24 ≤ ds.flatten.length →
        (((content t1.sink w1).drop 16).take 8 = ((content t2.sink w2).drop 16).take 8 ↔
          ((content t1.sink w1).take 8).reverse = (content t1.sink w1).take 8)) := by
  obtain ⟨f, hf⟩ := h.computes
  rw [CFBSink_writes_eq_in .little m wr hf hl ds s ivl ivr _ rfl,
    CFBSink_writes_eq_in .big m' wr hf hl ds s ivl ivr _ rfl]
  obtain ⟨s1, w1, e1, c1⟩ := hw.writeAll ((cfbEnc (fun x => encF f (seen .little x))
    [seen .little ivl, seen .little ivr] (blocks64 ds.flatten)).map bytesOf64) s w
  obtain ⟨s2, w2, e2, c2⟩ := hw.writeAll ((cfbEnc (fun x => encF f (seen .big x))
    [seen .big ivl, seen .big ivr] (blocks64 ds.flatten)).map bytesOf64) s w
  refine ⟨_, w1, _, w2, by rw [Io.bind_run_ok e1]; rfl, by rw [Io.bind_run_ok e2]; rfl, ?_⟩
  simp only
  replace c1 : content s1 w1 = unblocks64 (cfbEnc (encF f) [ivl, ivr] (blocks64 ds.flatten)) := by
    rw [c1, hs]; rfl
  replace c2 : content s2 w2 = unblocks64 (cfbEnc (fun x => encF f (seen .big x))
    [seen .big ivl, seen .big ivr] (blocks64 ds.flatten)) := by rw [c2, hs]; rfl
  rw [c1, c2]
  refine ⟨by rw [unblocks64_length, unblocks64_length, cfbEnc_length _ _ _ (by simp),
    cfbEnc_length _ _ _ (by simp)], ?_, ?_⟩
  · rw [show 16 = 8 * 2 from rfl, ← unblocks64_take, ← unblocks64_take, cfbEnc_two]
  · intro h24
    have hb : 3 ≤ (blocks64 ds.flatten).length := by rw [blocks64_length]; omega
    generalize blocks64 ds.flatten = ps at hb
    match ps, hb with
    | x :: y :: z :: ps, _ =>
      rw [show 16 = 8 * 2 from rfl, show 8 = 8 * 1 from rfl, unblocks64_drop, unblocks64_drop,
        ← unblocks64_take, ← unblocks64_take, ← unblocks64_take]
      simp only [cfbEnc, List.cons_append, List.nil_append, List.drop_succ_cons, List.drop_zero,
        List.take_succ_cons, List.take_zero, unblocks64_cons, unblocks64_nil, List.append_nil, seen_seen]
      rw [← seen_big_eq_self]
      constructor
      · intro e
        have := bytesOf64_inj e
        rw [BitVec.xor_right_inj] at this
        exact (encF_injective f this).symm
      · intro e; rw [e]

example (m m' : Machine) := C90_cfb_first_blocks_partial m m' _ sampleKey_computes.usable rfl 1 2 memWrite _
  (memWrite_collects (W := Unit)) [] () rfl [sampleData.take 3, sampleData.drop 3]

/-- The same for the classes of gost89: the first block is the same, the second only if the first block
of the ciphertext reads the same from both ends. -/
theorem C90_gost89_cfb_first_block_partial (m m' : Machine) (key : Key) (h : Usable key)
    (hl : key.isLazy = true) (iv : BitVec 64) (wr : τ → List Byte → Io W τ)
    (content : τ → W → List Byte) (hw : Collects wr content) (s : τ) (w : W)
    (hs : content s w = []) (ds : List (List Byte)) :
    ∃ t1 w1 t2 w2,
      writeAll (Gost89.CFBSink.writeIn .little m wr) (Gost89.CFBSink.new s key iv) ds w = (.ok t1, w1) ∧
      writeAll (Gost89.CFBSink.writeIn .big m' wr) (Gost89.CFBSink.new s key iv) ds w = (.ok t2, w2) ∧
      (content t1.sink w1).length = (content t2.sink w2).length ∧
      (content t1.sink w1).take 8 = (content t2.sink w2).take 8 ∧
      (16 ≤ ds.flatten.length →
        (((content t1.sink w1).drop 8).take 8 = ((content t2.sink w2).drop 8).take 8 ↔
          ((content t1.sink w1).take 8).reverse = (content t1.sink w1).take 8)) := by
  obtain ⟨f, hf⟩ := h.computes
  rw [gost89_CFBSink_writes_eq_in .little m wr hf hl ds s iv _ rfl,
    gost89_CFBSink_writes_eq_in .big m' wr hf hl ds s iv _ rfl]
  obtain ⟨s1, w1, e1, c1⟩ := hw.writeAll ((cfbEnc (fun x => encF f (seen .little x))
    [seen .little iv] (blocks64 ds.flatten)).map bytesOf64) s w
  obtain ⟨s2, w2, e2, c2⟩ := hw.writeAll ((cfbEnc (fun x => encF f (seen .big x))
    [seen .big iv] (blocks64 ds.flatten)).map bytesOf64) s w
  refine ⟨_, w1, _, w2, by rw [Io.bind_run_ok e1]; rfl, by rw [Io.bind_run_ok e2]; rfl, ?_⟩
  simp only
  replace c1 : content s1 w1 = unblocks64 (cfbEnc (encF f) [iv] (blocks64 ds.flatten)) := by
    rw [c1, hs]; rfl
  replace c2 : content s2 w2 = unblocks64 (cfbEnc (fun x => encF f (seen .big x))
    [seen .big iv] (blocks64 ds.flatten)) := by rw [c2, hs]; rfl
  rw [c1, c2]
  refine ⟨by rw [unblocks64_length, unblocks64_length, cfbEnc_length _ _ _ (by simp),
    cfbEnc_length _ _ _ (by simp)], ?_, ?_⟩
  · rw [show 8 = 8 * 1 from rfl, ← unblocks64_take, ← unblocks64_take, cfbEnc_one]
  · intro h16
    have hb : 2 ≤ (blocks64 ds.flatten).length := by rw [blocks64_length]; omega
    generalize blocks64 ds.flatten = ps at hb
    match ps, hb with
    | x :: y :: ps, _ =>
      rw [show 8 = 8 * 1 from rfl, unblocks64_drop, unblocks64_drop,
        ← unblocks64_take, ← unblocks64_take, ← unblocks64_take]
      simp only [cfbEnc, List.nil_append, List.drop_succ_cons, List.drop_zero,
        List.take_succ_cons, List.take_zero, unblocks64_cons, unblocks64_nil, List.append_nil, seen_seen]
      rw [← seen_big_eq_self]
      constructor
      · intro e
        have := bytesOf64_inj e
        rw [BitVec.xor_right_inj] at this
        exact (encF_injective f this).symm
      · intro e; rw [e]

example (wr : List Byte → List Byte → Io Unit (List Byte)) (h : wr = memWrite) :
    Collects wr (fun s _ => s) ∧ Usable (LazyKey.ofString sampleKeyText) ∧
      24 ≤ [sampleData].flatten.length := by
  subst h
  exact ⟨memWrite_collects, sampleKey_computes.usable, by decide⟩

/-- C90 is false of the code: a message of at least three blocks encrypted by `CFBSink` on one machine
and read by `CFBSource` on a machine of the other byte order. The first 16 bytes read are right. The third
block read is right only if the first block of the ciphertext reads the same from both ends. -/
theorem C90_cfb_other_machine {W' : Type} (o o' : ByteOrder) (ho : o ≠ o') (m m' : Machine) (key : Key)
    (h : Usable key) (hl : key.isLazy = true) (ivl ivr : BitVec 64) (wr : τ → List Byte → Io W τ)
    (content : τ → W → List Byte) (hw : Collects wr content) (s : τ) (w : W)
    (hs : content s w = []) (ds : List (List Byte)) (hd : ds.flatten.length % 8 = 0) :
    ∃ t w1 d, writeAll (CFBSink.writeIn o m wr) (CFBSink.new s key ivl ivr) ds w = (.ok t, w1) ∧
      (∀ (rd : σ → Nat → Io W' (List Byte × σ)) (src : σ) (v : W'),
        SuppliesBlocks rd src v (content t.sink w1) →
        Supplies (CFBSource.readIn o' m' rd) (CFBSource.new src key ivl ivr) v d) ∧
      d.length = ds.flatten.length ∧ d.take 16 = ds.flatten.take 16 ∧
      (24 ≤ ds.flatten.length →
        ((d.drop 16).take 8 = (ds.flatten.drop 16).take 8 ↔
          ((content t.sink w1).take 8).reverse = (content t.sink w1).take 8)) := by
  obtain ⟨f, hf⟩ := h.computes
  rw [CFBSink_writes_eq_in o m wr hf hl ds s ivl ivr _ rfl]
  obtain ⟨s1, w1, e1, c1⟩ := hw.writeAll ((cfbEnc (fun x => encF f (seen o x))
    [seen o ivl, seen o ivr] (blocks64 ds.flatten)).map bytesOf64) s w
  replace c1 : content s1 w1 = unblocks64 (cfbEnc (fun x => encF f (seen o x))
    [seen o ivl, seen o ivr] (blocks64 ds.flatten)) := by rw [c1, hs]; rfl
  refine ⟨_, w1, cfbPlainIn o' f [seen o' ivl, seen o' ivr] (content s1 w1),
    by rw [Io.bind_run_ok e1]; rfl, ?_, ?_⟩
  · intro rd src v hsrc
    simp only [c1] at hsrc ⊢
    exact CFBSource_supplies_in o' m' rd hf hl src v _ hsrc (by rw [unblocks64_length]; omega) ivl ivr
  simp only [c1]
  have e := (unblocks64_blocks64_whole hd).symm
  generalize ds.flatten = data at e hd
  generalize blocks64 data = ps at e
  subst e
  rw [cfbPlainIn, blocks64_unblocks64]
  match ps with
  | [] => exact ⟨rfl, rfl, fun h => absurd h (by simp)⟩
  | [x] => simp [cfbEnc, cfbDec, seen_seen, BitVec.xor_assoc]
  | [x, y] => simp [cfbEnc, cfbDec, seen_seen, BitVec.xor_assoc]
  | x :: y :: z :: ps =>
    rw [show 16 = 8 * 2 from rfl, show 8 = 8 * 1 from rfl, unblocks64_drop, unblocks64_drop,
      ← unblocks64_take, ← unblocks64_take, ← unblocks64_take, ← unblocks64_take, ← unblocks64_take]
    refine ⟨?_, ?_, fun _ => ?_⟩
    · rw [unblocks64_length, unblocks64_length, cfbDec_length _ _ _ (by simp),
        cfbEnc_length _ _ _ (by simp)]
    · simp [cfbEnc, cfbDec, seen_seen, BitVec.xor_assoc]
    · simp only [cfbEnc, cfbDec, List.cons_append, List.nil_append, List.drop_succ_cons,
        List.drop_zero, List.take_succ_cons, List.take_zero, unblocks64_cons, unblocks64_nil,
        List.append_nil, seen_seen]
      rw [← seen_ne ho]
      constructor
      · intro e
        have := bytesOf64_inj e
        rw [BitVec.xor_assoc] at this
        have h0 := (BitVec.xor_right_inj z (y := 0#64)).1 (this.trans (by simp))
        exact encF_injective f (BitVec.xor_eq_zero_iff.1 h0)
      · intro e; rw [e, BitVec.xor_assoc, BitVec.xor_self, BitVec.xor_zero]

example (m m' : Machine) := C90_cfb_other_machine (σ := List Byte) (W' := Unit) .big .little (by decide) m m' _
  sampleKey_computes.usable rfl 1 2 memWrite _ (memWrite_collects (W := Unit)) [] () rfl [sampleData.take 3, sampleData.drop 3]
  (by decide)

/-! ### C90: electronic codebook -/

/-- C90, what an `ECBSink` writes on a machine of either byte order. -/
theorem C90_ecb_written (o : ByteOrder) (wr : τ → List Byte → Io W τ) (s : τ) (key : Key)
    (f : Fin 8 → BitVec 32 → BitVec 32) (h : Computes key f) (d : List Byte) (hd : d.length % 8 = 0) :
    ECBSink.writeIn o wr ⟨s, key⟩ d =
      writeAll wr s ((chunks8 d).map fun p => bytesIn o (encF f (blockIn o p))) >>= fun s' =>
        pure ⟨s', key⟩ := by
  have := ECBSink_loop_eq_in o wr h d [] (by simp) s
  simp only [List.nil_append, hd, if_true] at this
  exact this

example := C90_ecb_written .big (memWrite (W := Unit)) [] _ _ sampleKey_computes sampleData (by decide)

/-- C90, what a block of an `ECBSource` is on a machine of either byte order. On a big-endian machine the
source takes a block for two words and the sink for one number. -/
theorem C90_ecb_read (o : ByteOrder) (m : Machine) (rd : σ → Nat → Io W (List Byte × σ)) (s s' : σ)
    (key : Key) (f : Fin 8 → BitVec 32 → BitVec 32) (h : Computes key f) (hl : key.isLazy = true)
    (n : Nat) (hn : 8 ≤ n) (w w' : W) (p : List Byte) (hr : rd s 8 w = (.ok (p, s'), w'))
    (hp : p.length = 8) :
    ECBSource.readIn o m rd (.ecb s key) n w =
      (.ok (wordBytesIn o (decF f (wordsIn o p)), .ecb s' key), w') :=
  ECBSource_block_in o h hl m rd s s' n hn w w' p hr hp

example (m : Machine) := C90_ecb_read .big m (memRead (W := Unit)) sampleData (sampleData.drop 8) _ _ sampleKey_computes
  rfl 9 (by decide) () () (sampleData.take 8) rfl (by decide)

/-- The block of the standard's example in memory. -/
def orderBlock : List Byte := bytesOf64 0xfedcba9876543210

/-- C90 is false of the code: the same 8 bytes written through an `ECBSink` with the same key on two
machines give different bytes. -/
theorem C90_ecb_depends_on_machine :
    ECBSink.writeIn (W := Unit) .little memWrite ⟨[], LazyKey.ofString sampleKeyText⟩ orderBlock () =
      (.ok ⟨[0x3d, 0xca, 0xd8, 0xc2, 0xe5, 0x01, 0xe9, 0x4e], LazyKey.ofString sampleKeyText⟩, ()) ∧
    ECBSink.writeIn (W := Unit) .big memWrite ⟨[], LazyKey.ofString sampleKeyText⟩ orderBlock () =
      (.ok ⟨[0x49, 0xc3, 0xd0, 0xe8, 0x77, 0xa6, 0x8e, 0x0b], LazyKey.ofString sampleKeyText⟩, ()) := by
  constructor
  · rw [C90_ecb_written .little _ _ _ _ sampleKey_computes _ (by decide), sampleKeyText_value]
    have e : (chunks8 orderBlock).map (fun p => bytesIn .little
        (encF (fun i => g pi (keyWord magmaKey i)) (blockIn .little p))) =
        [[0x3d, 0xca, 0xd8, 0xc2, 0xe5, 0x01, 0xe9, 0x4e]] := by decide +kernel
    rw [e]; rfl
  · rw [C90_ecb_written .big _ _ _ _ sampleKey_computes _ (by decide), sampleKeyText_value]
    have e : (chunks8 orderBlock).map (fun p => bytesIn .big
        (encF (fun i => g pi (keyWord magmaKey i)) (blockIn .big p))) =
        [[0x49, 0xc3, 0xd0, 0xe8, 0x77, 0xa6, 0x8e, 0x0b]] := by decide +kernel
    rw [e]; rfl

/-- C90 is false of the code in another way: on a big-endian machine an `ECBSource` does not even read
back what an `ECBSink` has written on the same machine with the same key. -/
theorem C90_ecb_big_endian_round_trip_fails (m : Machine) :
    ∃ c, ECBSink.writeIn (W := Unit) .big memWrite ⟨[], LazyKey.ofString sampleKeyText⟩ orderBlock () =
        (.ok ⟨c, LazyKey.ofString sampleKeyText⟩, ()) ∧
      ∃ d t, ECBSource.readIn .big m memRead (.ecb c (LazyKey.ofString sampleKeyText)) 8 () =
        (.ok (d, t), ()) ∧ d ≠ orderBlock := by
  refine ⟨_, C90_ecb_depends_on_machine.2, _, _, C90_ecb_read .big m _ _ _ _ _ sampleKey_computes rfl 8
    (by omega) () () _ rfl rfl, ?_⟩
  rw [sampleKeyText_value]
  decide +kernel

/-! ### C90: MACs -/

/-- C90, the MAC of the 64-bit cipher of GOST R 34.13-2015 on a machine of either byte order: the blocks
are those the machine sees. -/
theorem C90_mac_value (o : ByteOrder) (key : Key) (f : Fin 8 → BitVec 32 → BitVec 32)
    (h : Computes key f) (rd : σ → Nat → Io W (List Byte × σ)) (s : σ) (w : W) (p : List (BitVec 64))
    (last : BitVec 64) (hs : SuppliesBlocks rd s w (unblocks64 (p ++ [last]))) (fuel : Nat)
    (hf : p.length < fuel) :
    ∃ v w', Imit.valueIn o .x86 rd fuel s (some key) w = (.ok v, w') ∧
      join32 v = omac (encF f) (macK1 (encF f) 0x1b) (p.map (seen o)) (seen o last) := by
  rw [unblocks64_append, unblocks64_cons, unblocks64_nil, List.append_nil] at hs
  have := Imit_value_x86_in o h rd s w p (bytesOf64 last)
    (by intro e; have := congrArg List.length e; simp at this) (by simp) hs fuel hf
  rwa [if_pos (by simp), padIn_bytesOf64] at this

example := C90_mac_value .big _ _ sampleKey_computes (memRead (W := Unit)) (unblocks64 [1, 2, 3]) () [1, 2] 3
  (memRead_supplies _ ()).blocks 3 (by decide)

/-- C90 is false of the code for every key: the MACs of a message of one block on two machines of different
byte order are the same only if the block reads the same from both ends. -/
theorem C90_mac_one_block (o o' : ByteOrder) (ho : o ≠ o') (key : Key) (h : Usable key)
    (rd : σ → Nat → Io W (List Byte × σ)) (s : σ) (w : W) (x : List Byte) (hx : x.length = 8)
    (hs : SuppliesBlocks rd s w x) (fuel : Nat) (hf : 0 < fuel) :
    ∃ v v' w1 w2, Imit.valueIn o .x86 rd fuel s (some key) w = (.ok v, w1) ∧
      Imit.valueIn o' .x86 rd fuel s (some key) w = (.ok v', w2) ∧
      (v = v' ↔ x.reverse = x) := by
  obtain ⟨f, hc⟩ := h.computes
  have e : x = unblocks64 ([] ++ [block64 x]) := by
    simp [bytesOf64_block64 hx]
  rw [e] at hs
  obtain ⟨v, w1, h1, h2⟩ := C90_mac_value o key f hc rd s w [] _ hs fuel hf
  obtain ⟨v', w2, h3, h4⟩ := C90_mac_value o' key f hc rd s w [] _ hs fuel hf
  refine ⟨v, v', w1, w2, h1, h3, ?_⟩
  have hb : x.reverse = x ↔ seen o (block64 x) = seen o' (block64 x) := by
    rw [seen_ne ho, bytesOf64_block64 hx]
  rw [hb]
  simp only [omac, chain, List.map_nil, List.foldl_nil] at h2 h4
  constructor
  · intro e
    rw [e, h4] at h2
    have := encF_injective f h2
    simpa using this.symm
  · intro e
    rw [e] at h2
    exact join32_inj (h2.trans h4.symm)

example : SuppliesBlocks (memRead (W := Unit)) orderBlock () orderBlock ∧
    orderBlock.length = 8 ∧ orderBlock.reverse ≠ orderBlock :=
  ⟨(memRead_supplies _ ()).blocks, by decide, by decide⟩

/-- C90, the MAC of GOST 28147-89 on a machine of either byte order. -/
theorem C90_gost89_mac_value (o : ByteOrder) (m : Machine) (key : Key)
    (f : Fin 8 → BitVec 32 → BitVec 32) (h : Computes key f) (d : List Byte) :
    Gost89.DataImit.valueIn o m d (some key) =
      .ok (wordBytesIn o (chain (macStep f) 0 ((chunks8 (zeroPadded d)).map (wordsIn o)))) :=
  DataImit_value_eq_in o h m d

example (m : Machine) := C90_gost89_mac_value .big m _ _ sampleKey_computes (sampleData.take 13)

/-- C90 is false of the code: the MAC of the same 8 bytes with the same key on two machines. -/
theorem C90_gost89_mac_depends_on_machine (m : Machine) :
    Gost89.DataImit.valueIn .little m orderBlock (some (LazyKey.ofString sampleKeyText)) =
      .ok [0x1f, 0x10, 0xec, 0xe0, 0x82, 0xca, 0x69, 0xff] ∧
    Gost89.DataImit.valueIn .big m orderBlock (some (LazyKey.ofString sampleKeyText)) =
      .ok [0x82, 0xb7, 0x2b, 0xb5, 0x48, 0xfd, 0x28, 0xa3] := by
  rw [C90_gost89_mac_value .little m _ _ sampleKey_computes,
    C90_gost89_mac_value .big m _ _ sampleKey_computes, sampleKeyText_value]
  exact ⟨congrArg Exec.ok (by decide +kernel), congrArg Exec.ok (by decide +kernel)⟩

/-! ### C90: the 128-bit cipher -/

/-- C90, a part that holds: the substitution of the 128-bit cipher is the same on every machine. Missing:
the linear transformation, where it is false. -/
theorem C90_kuznyechik_substitution_partial (o : ByteOrder) (m : Machine) (b : Kuz.Blk)
    (h : b.valueIn o m = b.value m) : (Kuz.Blk.blkS b).valueIn o m = (Kuz.Blk.blkS b).value m := by
  simp only [Kuz.Blk.valueIn, Kuz.Blk.value, h, sValueIn_eq]

example (o : ByteOrder) (m : Machine) : (Kuz.Blk.raw 1 2).valueIn o m = (Kuz.Blk.raw 1 2).value m := rfl

/-- C90, what a big-endian machine computes: the cipher with every step of the linear transformation
done on halves in the opposite order. -/
theorem C90_kuznyechik_big_endian_value (m : Machine) (hm : m.unalignedLoad = true)
    (high low b : Kuz.Blk) (h l v : W64 × W64) (hh : high.valueIn .big m = .ok h)
    (hl : low.valueIn .big m = .ok l) (hb : b.valueIn .big m = .ok v) :
    ∃ r, (Kuz.BlkEncrypted b (Kuz.Key.ofBlocks high low)).valueIn .big m = .ok r ∧
      join64 r = Spec.Kuz.encBig (join64 h ++ join64 l) (join64 v) :=
  encrypt_value_big hm ⟨h, hh, rfl⟩ ⟨l, hl, rfl⟩ 0 ⟨v, hb, rfl⟩

example := C90_kuznyechik_big_endian_value .x86 rfl (.raw 1 2) (.raw 3 4) (.raw 5 6) _ _ _ rfl rfl rfl

/-- C90 is false of the code: the example of GOST R 34.12-2015, A.1.5 on two machines. -/
theorem C90_kuznyechik_depends_on_machine (m : Machine) (hm : m.unalignedLoad = true) :
    ∃ b, b = Kuz.BlkEncrypted (.raw 0xffeeddccbbaa9988 0x1122334455667700)
        (Kuz.Key.ofBlocks (.raw 0x0011223344556677 0x8899aabbccddeeff)
          (.raw 0x0123456789abcdef 0xfedcba9876543210)) ∧
      b.valueIn .little m = .ok (0x5a468d42b9d4edcd, 0x7f679d90bebc2430) ∧
      b.valueIn .big m = .ok (0xbd7a333fc6f0a1b7, 0x59e9d3db3b7aeda9) := by
  have k : join64 (0x0011223344556677, 0x8899aabbccddeeff) ++
    join64 (0x0123456789abcdef, 0xfedcba9876543210) = kuzKey := by decide
  have x : join64 (0xffeeddccbbaa9988, 0x1122334455667700) = 0x1122334455667700ffeeddccbbaa9988 := by
    decide
  refine ⟨_, rfl, ?_, ?_⟩
  · refine (Kuz_valueIn_little m _).trans ?_
    obtain ⟨r, h1, h2⟩ := C37_conforms_any_key_data m hm (.raw 0x0011223344556677 0x8899aabbccddeeff)
      (.raw 0x0123456789abcdef 0xfedcba9876543210) _ _ rfl rfl
      (.raw 0xffeeddccbbaa9988 0x1122334455667700) _ rfl
    rw [k, x, kuz_ecb1] at h2
    exact h1.trans (congrArg Exec.ok
      (join64_inj (u := r) (v := (0x5a468d42b9d4edcd, 0x7f679d90bebc2430)) h2))
  · obtain ⟨r, h1, h2⟩ := C90_kuznyechik_big_endian_value m hm
      (.raw 0x0011223344556677 0x8899aabbccddeeff) (.raw 0x0123456789abcdef 0xfedcba9876543210)
      (.raw 0xffeeddccbbaa9988 0x1122334455667700) _ _ _ rfl rfl rfl
    rw [k, x, kuz_big] at h2
    exact h1.trans (congrArg Exec.ok
      (join64_inj (u := r) (v := (0xbd7a333fc6f0a1b7, 0x59e9d3db3b7aeda9)) h2))

example : Machine.x86.unalignedLoad = true := rfl

end Goost.Props
