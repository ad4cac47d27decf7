import Verif.Props.Ecb
/-
Properties C18 – C28, C56, C57: cipher feedback streams, and streams on top of each other.
-/
namespace Goost.Props
open Goost.Magma Spec Spec.Magma Spec.Modes
variable {W σ τ : Type}

/-- A key of native words, used in the examples. -/
def sampleGostKey : Key :=
  LazyKey.ofNative [0xE0F67504, 0xFAFB3850, 0x90C3C7D2, 0x3DCAB3ED, 0x42124715, 0x8A1EAE91,
    0x9ECD792F, 0xBDEFBCD2] SboxR3412

theorem sampleGostKey_usable : Usable sampleGostKey := by
  refine (LazyKey_ofNative_computes (t := fun v => (t pi v).rotateLeft 11) (by decide) ?_).usable
  exact SboxR3412_eq

/-! ### C18 -/

/-- C18. After any sequence of writes to a new `CFBSink`, the underlying sink (any sink, also a
failing one) has got one write of 8 bytes for every complete block of the whole data, in order: the
cipher feedback encryption of these blocks with the register `ivl ‖ ivr`. -/
theorem C18_ciphertext (m : Machine) (wr : τ → List Byte → Io W τ) (s : τ) (key : Key)
    (f : Fin 8 → BitVec 32 → BitVec 32) (h : Computes key f) (hl : key.isLazy = true)
    (ivl ivr : BitVec 64) (ds : List (List Byte)) :
    (do let t ← writeAll (CFBSink.write m wr) (CFBSink.new s key ivl ivr) ds; pure t.sink) =
      writeAll wr s ((cfbEnc (encF f) [ivl, ivr] (blocks64 ds.flatten)).map bytesOf64) := by
  rw [CFBSink_writes_eq m wr h hl ds s ivl ivr _ rfl, bind_assoc]
  simp

example (m : Machine) := C18_ciphertext m (memWrite (W := Unit)) [] _ _ sampleKey_computes rfl 1 2
  [sampleData.take 3, sampleData.drop 3]

/-- C18 for a key given by 64 hexadecimal digits: the block cipher is that of GOST R 34.12-2015. -/
theorem C18_conforms (m : Machine) (wr : τ → List Byte → Io W τ) (s : τ) (k : List Char)
    (hk : IsHex k) (hl : k.length = 64) (ivl ivr : BitVec 64) (ds : List (List Byte)) :
    (do let t ← writeAll (CFBSink.write m wr) (CFBSink.new s (LazyKey.ofString k) ivl ivr) ds
        pure t.sink) =
      writeAll wr s ((cfbEnc (Spec.Magma.enc (BitVec.ofNat 256 (hexNat k))) [ivl, ivr]
        (blocks64 ds.flatten)).map bytesOf64) :=
  C18_ciphertext m wr s _ _ (LazyKey_ofString_computes hk hl) rfl ivl ivr ds

example (m : Machine) := C18_conforms m (memWrite (W := Unit)) [] sampleKeyText (by decide) (by decide) 1 2
  [sampleData.take 3, sampleData.drop 3]

/-- C18, the object returned: it keeps the bytes of the incomplete block, and its register holds the
last two blocks of `ivl ‖ ivr ‖ ciphertext`. -/
theorem C18_state (m : Machine) (wr : τ → List Byte → Io W τ) (s : τ) (key : Key)
    (f : Fin 8 → BitVec 32 → BitVec 32) (h : Computes key f) (hl : key.isLazy = true)
    (ivl ivr : BitVec 64) (ds : List (List Byte)) (c : List (BitVec 64))
    (hc : c = cfbEnc (encF f) [ivl, ivr] (blocks64 ds.flatten)) :
    writeAll (CFBSink.write m wr) (CFBSink.new s key ivl ivr) ds =
      (do let s' ← writeAll wr s (c.map bytesOf64)
          pure ⟨s', key, ([ivl, ivr] ++ c).getD c.length 0, ([ivl, ivr] ++ c).getD (c.length + 1) 0,
            ds.flatten.drop (8 * (ds.flatten.length / 8))⟩) :=
  CFBSink_writes_eq m wr h hl ds s ivl ivr c hc

example : Computes (LazyKey.ofString sampleKeyText)
      (fun i => g pi (keyWord (BitVec.ofNat 256 (hexNat sampleKeyText)) i)) ∧
    (LazyKey.ofString sampleKeyText).isLazy = true := ⟨sampleKey_computes, rfl⟩

/-! ### C19 -/

/-- C19. However the data are split into writes, the effect on the underlying sink, the outcome and
the object returned are the same; for any key, also a failing one, and any sink. -/
theorem C19_magma_split_irrelevant (m : Machine) (wr : τ → List Byte → Io W τ) (t : CFBSink τ)
    (ds es : List (List Byte)) (h : ds.flatten = es.flatten) :
    writeAll (CFBSink.write m wr) t ds = writeAll (CFBSink.write m wr) t es := by
  rw [CFBSink_writes, CFBSink_writes, h]

example (m : Machine) (key : Key) := C19_magma_split_irrelevant m (memWrite (W := Unit)) (CFBSink.new [] key 1 2)
  [sampleData.take 3, [], sampleData.drop 3] [sampleData] (by decide)

/-- C19 for gost89. -/
theorem C19_gost89_split_irrelevant (m : Machine) (wr : τ → List Byte → Io W τ)
    (t : Gost89.CFBSink τ) (ds es : List (List Byte)) (h : ds.flatten = es.flatten) :
    writeAll (Gost89.CFBSink.write m wr) t ds = writeAll (Gost89.CFBSink.write m wr) t es := by
  rw [gost89_CFBSink_writes, gost89_CFBSink_writes, h]

example : [sampleData.take 3, [], sampleData.drop 3].flatten = [sampleData].flatten := by decide

/-! ### C20 -/

/-- C20. After any history of writes that succeeds, with any key, the underlying sink has got as many
bytes as there are in the complete blocks of the data, and the last `total mod 8` bytes are held
back. -/
theorem C20_magma_held_back (m : Machine) (wr : τ → List Byte → Io W τ)
    (content : τ → W → List Byte) (hw : Collects wr content) (s : τ) (key : Key)
    (ivl ivr : BitVec 64) (ds : List (List Byte)) (w w' : W) (t : CFBSink τ)
    (h : writeAll (CFBSink.write m wr) (CFBSink.new s key ivl ivr) ds w = (.ok t, w')) :
    (content t.sink w').length = (content s w).length + 8 * (ds.flatten.length / 8) ∧
    t.plain = ds.flatten.drop (8 * (ds.flatten.length / 8)) ∧
    t.plain.length = ds.flatten.length % 8 := by
  rw [CFBSink_writes] at h
  obtain ⟨h1, c, h2, h3⟩ := CFBSink_loop_plain m wr key content hw ds.flatten [] (by simp) s ivl ivr
    w w' t h
  rw [List.nil_append] at h1 h3
  refine ⟨by rw [h2, List.length_append, h3], h1, ?_⟩
  rw [h1, List.length_drop]
  omega

/-- C20 for gost89. -/
theorem C20_gost89_held_back (m : Machine) (wr : τ → List Byte → Io W τ)
    (content : τ → W → List Byte) (hw : Collects wr content) (s : τ) (key : Key)
    (iv : BitVec 64) (ds : List (List Byte)) (w w' : W) (t : Gost89.CFBSink τ)
    (h : writeAll (Gost89.CFBSink.write m wr) (Gost89.CFBSink.new s key iv) ds w = (.ok t, w')) :
    (content t.sink w').length = (content s w).length + 8 * (ds.flatten.length / 8) ∧
    t.plain = ds.flatten.drop (8 * (ds.flatten.length / 8)) ∧
    t.plain.length = ds.flatten.length % 8 := by
  rw [gost89_CFBSink_writes] at h
  obtain ⟨h1, c, h2, h3⟩ := gost89_CFBSink_loop_plain m wr key content hw ds.flatten [] (by simp) s
    iv w w' t h
  rw [List.nil_append] at h1 h3
  refine ⟨by rw [h2, List.length_append, h3], h1, ?_⟩
  rw [h1, List.length_drop]
  omega

/-- With a memory sink and a usable key the writes succeed. -/
example (m : Machine) : ∃ t, writeAll (CFBSink.write m memWrite)
    (CFBSink.new [] (LazyKey.ofString sampleKeyText) 1 2) [sampleData.take 3, sampleData.drop 5] () =
      (.ok t, ()) := by
  rw [C18_state m _ _ _ _ sampleKey_computes rfl 1 2 _ _ rfl]
  obtain ⟨s', w', e, -⟩ := (memWrite_collects (W := Unit)).writeAll _ [] ()
  rw [Io.bind_run_ok e]
  exact ⟨_, rfl⟩

/-! ### C21 -/

/-- C21, the part that holds: when nothing is held back, `finalize` returns the underlying sink and
writes nothing. -/
theorem C21_nothing_held_back_partial (m : Machine) (wr : τ → List Byte → Io W τ) (t : CFBSink τ)
    (h : t.plain = []) (t' : Gost89.CFBSink τ) (h' : t'.plain = []) :
    CFBSink.finalize m wr t = pure t.sink ∧ Gost89.CFBSink.finalize m wr t' = pure t'.sink := by
  simp [CFBSink.finalize, Gost89.CFBSink.finalize, h, h']

example (m : Machine) (key : Key) := C21_nothing_held_back_partial m (memWrite (W := Unit)) (CFBSink.new [1, 2] key 1 2) rfl
  (Gost89.CFBSink.new [1, 2] key 1) rfl

/-- C21 is false of the code: with held-back bytes `finalize` writes outside the vector, whatever the
bytes, the key and the register are, and nothing gets to the underlying sink. -/
theorem C21_magma_finalize_undefined (m : Machine) (wr : τ → List Byte → Io W τ) (t : CFBSink τ)
    (h : Usable t.key) (hl : t.key.isLazy = true) (h0 : t.plain ≠ []) (h8 : t.plain.length < 8) :
    CFBSink.finalize m wr t = Io.lift (.ub .oobWrite) := by
  obtain ⟨f, hf⟩ := h.computes
  obtain ⟨e, he, -⟩ := BlkEncrypted_ofU64 hf m t.ivl
  rw [CFBSink.finalize, if_pos h0, asLazy_of hl, he, Io.lift_ok_bind, xorWords_short h8]
  rfl

example (m : Machine) := C21_magma_finalize_undefined m (memWrite (W := Unit))
  ⟨[], LazyKey.ofString sampleKeyText, 1, 2, [7, 8, 9]⟩ sampleKey_computes.usable rfl (by decide) (by decide)

/-- C21 for gost89. -/
theorem C21_gost89_finalize_undefined (m : Machine) (wr : τ → List Byte → Io W τ)
    (t : Gost89.CFBSink τ) (h : Usable t.key) (hl : t.key.isLazy = true) (h0 : t.plain ≠ [])
    (h8 : t.plain.length < 8) :
    Gost89.CFBSink.finalize m wr t = Io.lift (.ub .oobWrite) := by
  obtain ⟨f, hf⟩ := h.computes
  obtain ⟨e, he, -⟩ := BlkEncrypted_ofU64 hf m t.iv
  rw [Gost89.CFBSink.finalize, if_pos h0, asLazy_of hl, he, Io.lift_ok_bind, xorWords_short h8]
  rfl

example (m : Machine) := C21_gost89_finalize_undefined m (memWrite (W := Unit))
  ⟨[], sampleGostKey, 1, [7, 8, 9]⟩ sampleGostKey_usable rfl (by decide) (by decide)

/-- C21 in terms of histories: after any writes whose total length is not a multiple of 8,
`finalize` is undefined behaviour. -/
theorem C21_history_undefined (m : Machine) (wr : τ → List Byte → Io W τ)
    (content : τ → W → List Byte) (hw : Collects wr content) (s : τ) (key : Key) (h : Usable key)
    (hl : key.isLazy = true) (ivl ivr : BitVec 64) (ds : List (List Byte))
    (hd : ds.flatten.length % 8 ≠ 0) (w : W) :
    ∃ w', (do let t ← writeAll (CFBSink.write m wr) (CFBSink.new s key ivl ivr) ds
              CFBSink.finalize m wr t) w = (.ub .oobWrite, w') := by
  obtain ⟨f, hf⟩ := h.computes
  rw [C18_state m wr s key f hf hl ivl ivr ds _ rfl, bind_assoc]
  obtain ⟨s', w', e, -⟩ := hw.writeAll
    ((cfbEnc (encF f) [ivl, ivr] (blocks64 ds.flatten)).map bytesOf64) s w
  refine ⟨w', ?_⟩
  rw [Io.bind_run_ok e, pure_bind, C21_magma_finalize_undefined m wr _ h hl]
  · rfl
  · intro e
    have := congrArg List.length e
    simp only [List.length_drop, List.length_nil] at this
    omega
  · simp only [List.length_drop]
    omega

example (m : Machine) := C21_history_undefined m memWrite _ (memWrite_collects (W := Unit)) [] _ sampleKey_computes.usable
  rfl 1 2 [sampleData, sampleData.take 3] (by decide) ()

/-- C21 in terms of histories, for gost89. -/
theorem C21_gost89_history_undefined (m : Machine) (wr : τ → List Byte → Io W τ)
    (content : τ → W → List Byte) (hw : Collects wr content) (s : τ) (key : Key) (h : Usable key)
    (hl : key.isLazy = true) (iv : BitVec 64) (ds : List (List Byte))
    (hd : ds.flatten.length % 8 ≠ 0) (w : W) :
    ∃ w', (do let t ← writeAll (Gost89.CFBSink.write m wr) (Gost89.CFBSink.new s key iv) ds
              Gost89.CFBSink.finalize m wr t) w = (.ub .oobWrite, w') := by
  obtain ⟨f, hf⟩ := h.computes
  rw [gost89_CFBSink_writes_eq m wr hf hl ds s iv _ rfl, bind_assoc]
  obtain ⟨s', w', e, -⟩ := hw.writeAll
    ((cfbEnc (encF f) [iv] (blocks64 ds.flatten)).map bytesOf64) s w
  refine ⟨w', ?_⟩
  rw [Io.bind_run_ok e, pure_bind, C21_gost89_finalize_undefined m wr _ h hl]
  · rfl
  · intro e
    have := congrArg List.length e
    simp only [List.length_drop, List.length_nil] at this
    omega
  · simp only [List.length_drop]
    omega

example : [sampleData, sampleData.take 3].flatten.length % 8 ≠ 0 := by decide

/-! ### C22 -/

/-- C22. Over a source that supplies whole blocks of ciphertext, `CFBSource` is a well-behaved source
for every request size: it supplies the decrypted bytes. -/
theorem C22_magma_supplies (m : Machine) (rd : σ → Nat → Io W (List Byte × σ)) (s : σ) (w : W)
    (key : Key) (f : Fin 8 → BitVec 32 → BitVec 32) (h : Computes key f) (hl : key.isLazy = true)
    (ivl ivr : BitVec 64) (c : List (BitVec 64)) (hs : SuppliesBlocks rd s w (unblocks64 c)) :
    Supplies (CFBSource.read m rd) (CFBSource.new s key ivl ivr) w
      (unblocks64 (cfbDec (encF f) [ivl, ivr] c)) := by
  have := CFBSource_supplies m rd h hl s w _ hs (by rw [unblocks64_length]; omega) ivl ivr
  rwa [cfbPlain, blocks64_unblocks64] at this

example (m : Machine) := C22_magma_supplies m (memRead (W := Unit)) (unblocks64 [1, 2, 3]) () _ _ sampleKey_computes rfl 1 2
  [1, 2, 3] (memRead_supplies _ ()).blocks

/-- C22 for gost89. -/
theorem C22_gost89_supplies (m : Machine) (rd : σ → Nat → Io W (List Byte × σ)) (s : σ) (w : W)
    (key : Key) (f : Fin 8 → BitVec 32 → BitVec 32) (h : Computes key f) (hl : key.isLazy = true)
    (iv : BitVec 64) (c : List (BitVec 64)) (hs : SuppliesBlocks rd s w (unblocks64 c)) :
    Supplies (Gost89.CFBSource.read m rd) (Gost89.CFBSource.new s key iv) w
      (unblocks64 (cfbDec (encF f) [iv] c)) := by
  have := gost89_CFBSource_supplies m rd h hl s w _ hs (by rw [unblocks64_length]; omega) iv
  rwa [cfbPlain, blocks64_unblocks64] at this

example (m : Machine) := C22_gost89_supplies m (memRead (W := Unit)) (unblocks64 [1, 2, 3]) () _ _ sampleKey_computes rfl 1
  [1, 2, 3] (memRead_supplies _ ()).blocks

/-- C22 in terms of reads: reading with any sizes gives, put together, the first bytes of the
plaintext, as many as asked for in total (or all of it). -/
theorem C22_reads_concatenate (m : Machine) (rd : σ → Nat → Io W (List Byte × σ)) (s : σ) (w : W)
    (key : Key) (f : Fin 8 → BitVec 32 → BitVec 32) (h : Computes key f) (hl : key.isLazy = true)
    (ivl ivr : BitVec 64) (c : List (BitVec 64)) (hs : SuppliesBlocks rd s w (unblocks64 c))
    (sizes : List Nat) :
    ∃ pieces t w', readAll (CFBSource.read m rd) (CFBSource.new s key ivl ivr) sizes w =
        (.ok (pieces, t), w') ∧
      pieces.flatten = (unblocks64 (cfbDec (encF f) [ivl, ivr] c)).take sizes.sum := by
  obtain ⟨pieces, t, w', h1, h2, -⟩ :=
    (C22_magma_supplies m rd s w key f h hl ivl ivr c hs).readAll sizes
  exact ⟨pieces, t, w', h1, h2⟩

example (m : Machine) := C22_reads_concatenate m (memRead (W := Unit)) (unblocks64 [1, 2, 3]) () _ _ sampleKey_computes rfl
  1 2 [1, 2, 3] (memRead_supplies _ ()).blocks [5, 0, 11, 100]

/-- C22, the model's budget of iterations is not observable: any larger budget gives the same
outcome, for any source and key. -/
theorem C22_budget_irrelevant (m : Machine) (rd : σ → Nat → Io W (List Byte × σ)) (t : CFBSource σ)
    (t' : Gost89.CFBSource σ) (size budget : Nat) (hb : size + 1 ≤ budget) :
    CFBSource.read m rd t size =
      CFBSource.loop m rd t.key size budget t.source t.plain t.ivl t.ivr [] ∧
    Gost89.CFBSource.read m rd t' size =
      Gost89.CFBSource.loop m rd t'.key size budget t'.source t'.plain t'.iv [] := by
  constructor
  · apply CFBSource.loop_fuel
    · omega
    · omega
    · simp only [List.length_nil]; split <;> omega
    · simp only [List.length_nil]; split <;> omega
  · apply gost89_CFBSource_loop_fuel
    · omega
    · omega
    · simp only [List.length_nil]; split <;> omega
    · simp only [List.length_nil]; split <;> omega

example : SuppliesBlocks memRead (unblocks64 [1, 2, 3]) () (unblocks64 [1, 2, 3]) :=
  (memRead_supplies _ ()).blocks

/-! ### C23 -/

/-- C23. Data of whole blocks, written to a `CFBSink` over a collecting sink in any pieces, are
supplied again by a `CFBSource` with the same key and initialisation vector over any source of the
collected bytes, whatever sizes are read. -/
theorem C23_round_trip {W' : Type} (m : Machine) (key : Key) (h : Usable key)
    (hl : key.isLazy = true) (ivl ivr : BitVec 64) (wr : τ → List Byte → Io W τ)
    (content : τ → W → List Byte) (hw : Collects wr content) (s : τ) (w : W)
    (hs : content s w = []) (ds : List (List Byte)) (hd : ds.flatten.length % 8 = 0) :
    ∃ s' w', (do let t ← writeAll (CFBSink.write m wr) (CFBSink.new s key ivl ivr) ds
                 CFBSink.finalize m wr t) w = (.ok s', w') ∧
      ∀ (rd : σ → Nat → Io W' (List Byte × σ)) (src : σ) (v : W'),
        SuppliesBlocks rd src v (content s' w') →
        Supplies (CFBSource.read m rd) (CFBSource.new src key ivl ivr) v ds.flatten := by
  obtain ⟨f, hf⟩ := h.computes
  rw [C18_state m wr s key f hf hl ivl ivr ds _ rfl, bind_assoc]
  obtain ⟨s', w', e1, e2⟩ := hw.writeAll
    ((cfbEnc (encF f) [ivl, ivr] (blocks64 ds.flatten)).map bytesOf64) s w
  have hp : ds.flatten.drop (8 * (ds.flatten.length / 8)) = [] :=
    List.drop_of_length_le (by omega)
  refine ⟨s', w', ?_, ?_⟩
  · rw [Io.bind_run_ok e1, hp]
    simp [CFBSink.finalize]
    rfl
  · intro rd src v hsrc
    have hc : content s' w' = unblocks64 (cfbEnc (encF f) [ivl, ivr] (blocks64 ds.flatten)) := by
      rw [e2, hs]; rfl
    rw [hc] at hsrc
    have := C22_magma_supplies m rd src v key f hf hl ivl ivr _ hsrc
    rwa [cfbDec_cfbEnc _ _ _ (by simp), unblocks64_blocks64_whole hd] at this

/-- 24 bytes in three writes, through memory. -/
example (m : Machine) : ∃ c, (do
      let t ← writeAll (CFBSink.write m memWrite)
        (CFBSink.new [] (LazyKey.ofString sampleKeyText) 0x1234567890abcdef 0x234567890abcdef1)
        [sampleData.take 3, [], sampleData.drop 3]
      CFBSink.finalize m memWrite t) () = (.ok c, ()) ∧
    Supplies (CFBSource.read m memRead) (CFBSource.new c (LazyKey.ofString sampleKeyText)
      0x1234567890abcdef 0x234567890abcdef1) () sampleData := by
  obtain ⟨c, w', e, h⟩ := C23_round_trip (σ := List Byte) (W' := Unit) m
    (LazyKey.ofString sampleKeyText) sampleKey_computes.usable rfl 0x1234567890abcdef
    0x234567890abcdef1 memWrite _ memWrite_collects [] () rfl
    [sampleData.take 3, [], sampleData.drop 3] (by decide)
  exact ⟨c, e, h memRead c () (memRead_supplies _ ()).blocks⟩

/-! ### C24 -/

/-- C24 is false of the code: when the underlying source returns a chunk that is not empty and not 8
bytes long, `read` runs into undefined behaviour, for every content, key, register and number of
bytes asked for (more than the buffered ones). -/
theorem C24_magma_bad_chunk_undefined (m : Machine) (rd : σ → Nat → Io W (List Byte × σ))
    (t : CFBSource σ) (h : Usable t.key) (hl : t.key.isLazy = true) (n : Nat)
    (hn : t.plain.length < n) (w w' : W) (p : List Byte) (s : σ)
    (hr : rd t.source 8 w = (.ok (p, s), w')) (h0 : p ≠ []) (h8 : p.length ≠ 8) :
    CFBSource.read m rd t n w = (.ub (if p.length < 8 then .oobRead else .oobWrite), w') :=
  CFBSource_bad_chunk m rd t h hl n hn w w' p s hr h0 h8

example (m : Machine) := C24_magma_bad_chunk_undefined m (memRead (W := Unit))
  (CFBSource.new [1, 2, 3] (LazyKey.ofString sampleKeyText) 1 2) sampleKey_computes.usable rfl 4 (by decide) () () [1, 2, 3] []
  rfl (by decide) (by decide)

/-- C24 for gost89. -/
theorem C24_gost89_bad_chunk_undefined (m : Machine) (rd : σ → Nat → Io W (List Byte × σ))
    (t : Gost89.CFBSource σ) (h : Usable t.key) (hl : t.key.isLazy = true) (n : Nat)
    (hn : t.plain.length < n) (w w' : W) (p : List Byte) (s : σ)
    (hr : rd t.source 8 w = (.ok (p, s), w')) (h0 : p ≠ []) (h8 : p.length ≠ 8) :
    Gost89.CFBSource.read m rd t n w =
      (.ub (if p.length < 8 then .oobRead else .oobWrite), w') :=
  gost89_CFBSource_bad_chunk m rd t h hl n hn w w' p s hr h0 h8

example (m : Machine) := C24_gost89_bad_chunk_undefined m (memRead (W := Unit))
  (Gost89.CFBSource.new [1, 2, 3] sampleGostKey 1) sampleGostKey_usable rfl 4 (by decide) () () [1, 2, 3] []
  rfl (by decide) (by decide)

/-- C24, the part that holds: over a source that supplies whole blocks, any sequence of reads of any
sizes succeeds. Missing: chunks of other lengths, where it is false. -/
theorem C24_whole_blocks_safe_partial (m : Machine) (rd : σ → Nat → Io W (List Byte × σ)) (s : σ)
    (w : W) (key : Key) (h : Usable key) (hl : key.isLazy = true) (ivl ivr : BitVec 64)
    (c : List (BitVec 64)) (hs : SuppliesBlocks rd s w (unblocks64 c)) (sizes : List Nat) :
    ∃ x w', readAll (CFBSource.read m rd) (CFBSource.new s key ivl ivr) sizes w = (.ok x, w') := by
  obtain ⟨f, hf⟩ := h.computes
  obtain ⟨p, t, w', e, -⟩ := C22_reads_concatenate m rd s w key f hf hl ivl ivr c hs sizes
  exact ⟨_, w', e⟩

example (m : Machine) := C24_whole_blocks_safe_partial m (memRead (W := Unit)) (unblocks64 [1, 2, 3]) () _
  sampleKey_computes.usable rfl 1 2 [1, 2, 3] (memRead_supplies _ ()).blocks [5, 0, 11, 100]

/-- C24, the part that holds, for gost89. -/
theorem C24_gost89_whole_blocks_safe_partial (m : Machine) (rd : σ → Nat → Io W (List Byte × σ))
    (s : σ) (w : W) (key : Key) (h : Usable key) (hl : key.isLazy = true) (iv : BitVec 64)
    (c : List (BitVec 64)) (hs : SuppliesBlocks rd s w (unblocks64 c)) (sizes : List Nat) :
    ∃ x w', readAll (Gost89.CFBSource.read m rd) (Gost89.CFBSource.new s key iv) sizes w =
      (.ok x, w') := by
  obtain ⟨f, hf⟩ := h.computes
  obtain ⟨p, t, w', e, -⟩ := Supplies.readAll
    (C22_gost89_supplies m rd s w key f hf hl iv c hs) sizes
  exact ⟨_, w', e⟩

/-- A file of 5 bytes. -/
example (m : Machine) : CFBSource.read (W := Unit) m memRead
    (CFBSource.new (sampleData.take 5) (LazyKey.ofString sampleKeyText) 1 2) 1 () =
      (.ub .oobRead, ()) :=
  C24_magma_bad_chunk_undefined m memRead _ sampleKey_computes.usable rfl 1 (by decide) () ()
    (sampleData.take 5) [] (by rfl) (by decide) (by decide)

/-! ### C25 -/

/-- C25. Reading with a wrong initialisation vector gives data of the same length which are right
from the third block on. -/
theorem C25_magma_self_synchronising (m : Machine) (rd : σ → Nat → Io W (List Byte × σ)) (s : σ)
    (w : W) (key : Key) (h : Usable key) (hl : key.isLazy = true) (ivl ivr ivl' ivr' : BitVec 64)
    (c : List (BitVec 64)) (hs : SuppliesBlocks rd s w (unblocks64 c)) :
    ∃ d d', Supplies (CFBSource.read m rd) (CFBSource.new s key ivl ivr) w d ∧
      Supplies (CFBSource.read m rd) (CFBSource.new s key ivl' ivr') w d' ∧
      d.length = 8 * c.length ∧ d'.length = 8 * c.length ∧ d.drop 16 = d'.drop 16 := by
  obtain ⟨f, hf⟩ := h.computes
  refine ⟨_, _, C22_magma_supplies m rd s w key f hf hl ivl ivr c hs,
    C22_magma_supplies m rd s w key f hf hl ivl' ivr' c hs, ?_, ?_, ?_⟩
  · rw [unblocks64_length, cfbDec_length _ _ _ (by simp)]
  · rw [unblocks64_length, cfbDec_length _ _ _ (by simp)]
  · have := unblocks64_drop (cfbDec (encF f) [ivl, ivr] c) 2
    have h2 := unblocks64_drop (cfbDec (encF f) [ivl', ivr'] c) 2
    rw [Nat.mul_comm] at this h2
    simp only [Nat.reduceMul] at this h2
    rw [this, h2]
    exact congrArg _ (cfbDec_drop (encF f) [ivl, ivr] [ivl', ivr'] c (by simp) rfl)

example (m : Machine) := C25_magma_self_synchronising m (memRead (W := Unit)) (unblocks64 [1, 2, 3]) () _
  sampleKey_computes.usable rfl 1 2 3 4 [1, 2, 3] (memRead_supplies _ ()).blocks

/-- C25 for gost89: right from the second block on. -/
theorem C25_gost89_self_synchronising (m : Machine) (rd : σ → Nat → Io W (List Byte × σ)) (s : σ)
    (w : W) (key : Key) (h : Usable key) (hl : key.isLazy = true) (iv iv' : BitVec 64)
    (c : List (BitVec 64)) (hs : SuppliesBlocks rd s w (unblocks64 c)) :
    ∃ d d', Supplies (Gost89.CFBSource.read m rd) (Gost89.CFBSource.new s key iv) w d ∧
      Supplies (Gost89.CFBSource.read m rd) (Gost89.CFBSource.new s key iv') w d' ∧
      d.length = 8 * c.length ∧ d'.length = 8 * c.length ∧ d.drop 8 = d'.drop 8 := by
  obtain ⟨f, hf⟩ := h.computes
  refine ⟨_, _, C22_gost89_supplies m rd s w key f hf hl iv c hs,
    C22_gost89_supplies m rd s w key f hf hl iv' c hs, ?_, ?_, ?_⟩
  · rw [unblocks64_length, cfbDec_length _ _ _ (by simp)]
  · rw [unblocks64_length, cfbDec_length _ _ _ (by simp)]
  · have := unblocks64_drop (cfbDec (encF f) [iv] c) 1
    have h2 := unblocks64_drop (cfbDec (encF f) [iv'] c) 1
    simp only [Nat.mul_one] at this h2
    rw [this, h2]
    exact congrArg _ (cfbDec_drop (encF f) [iv] [iv'] c (by simp) rfl)

example (m : Machine) := C25_gost89_self_synchronising m (memRead (W := Unit)) (unblocks64 [1, 2, 3]) () _
  sampleGostKey_usable rfl 1 2 [1, 2, 3] (memRead_supplies _ ()).blocks

/-! ### C26 -/

/-- C26. Replacing block `j` of the ciphertext by another value: block `j` of what is read changes by
the same difference, block `j + 2` (if there is one) changes, all other blocks stay. -/
theorem C26_magma_error_propagation (m : Machine) (rd : σ → Nat → Io W (List Byte × σ)) (s s' : σ)
    (w w' : W) (key : Key) (h : Usable key) (hl : key.isLazy = true) (ivl ivr : BitVec 64)
    (c : List (BitVec 64)) (j : Nat) (x y : BitVec 64) (hx : c[j]? = some x) (hxy : x ≠ y)
    (hs : SuppliesBlocks rd s w (unblocks64 c))
    (hs' : SuppliesBlocks rd s' w' (unblocks64 (c.set j y))) :
    ∃ p p', Supplies (CFBSource.read m rd) (CFBSource.new s key ivl ivr) w (unblocks64 p) ∧
      Supplies (CFBSource.read m rd) (CFBSource.new s' key ivl ivr) w' (unblocks64 p') ∧
      p.length = c.length ∧ p'.length = c.length ∧
      p'[j]? = p[j]?.map (· ^^^ (x ^^^ y)) ∧
      (j + 2 < c.length → p'[j + 2]? ≠ p[j + 2]?) ∧
      ∀ i, i ≠ j → i ≠ j + 2 → p'[i]? = p[i]? := by
  obtain ⟨f, hf⟩ := h.computes
  refine ⟨_, _, C22_magma_supplies m rd s w key f hf hl ivl ivr c hs,
    C22_magma_supplies m rd s' w' key f hf hl ivl ivr _ hs', ?_, ?_,
    cfbDec_change (encF f) (fun x y h => encF_injective f h) [ivl, ivr] c (by simp) j x y hx hxy⟩
  · rw [cfbDec_length _ _ _ (by simp)]
  · rw [cfbDec_length _ _ _ (by simp), List.length_set]

example (m : Machine) := C26_magma_error_propagation m (memRead (W := Unit)) (unblocks64 [10, 20, 30, 40])
  (unblocks64 [10, 21, 30, 40]) () () _ sampleKey_computes.usable rfl 1 2 [10, 20, 30, 40] 1 20 21 rfl (by decide)
  (memRead_supplies _ ()).blocks (memRead_supplies _ ()).blocks

/-- C26 for gost89: block `j + 1` instead of block `j + 2`. -/
theorem C26_gost89_error_propagation (m : Machine) (rd : σ → Nat → Io W (List Byte × σ)) (s s' : σ)
    (w w' : W) (key : Key) (h : Usable key) (hl : key.isLazy = true) (iv : BitVec 64)
    (c : List (BitVec 64)) (j : Nat) (x y : BitVec 64) (hx : c[j]? = some x) (hxy : x ≠ y)
    (hs : SuppliesBlocks rd s w (unblocks64 c))
    (hs' : SuppliesBlocks rd s' w' (unblocks64 (c.set j y))) :
    ∃ p p', Supplies (Gost89.CFBSource.read m rd) (Gost89.CFBSource.new s key iv) w
        (unblocks64 p) ∧
      Supplies (Gost89.CFBSource.read m rd) (Gost89.CFBSource.new s' key iv) w' (unblocks64 p') ∧
      p.length = c.length ∧ p'.length = c.length ∧
      p'[j]? = p[j]?.map (· ^^^ (x ^^^ y)) ∧
      (j + 1 < c.length → p'[j + 1]? ≠ p[j + 1]?) ∧
      ∀ i, i ≠ j → i ≠ j + 1 → p'[i]? = p[i]? := by
  obtain ⟨f, hf⟩ := h.computes
  refine ⟨_, _, C22_gost89_supplies m rd s w key f hf hl iv c hs,
    C22_gost89_supplies m rd s' w' key f hf hl iv _ hs', ?_, ?_,
    cfbDec_change (encF f) (fun x y h => encF_injective f h) [iv] c (by simp) j x y hx hxy⟩
  · rw [cfbDec_length _ _ _ (by simp)]
  · rw [cfbDec_length _ _ _ (by simp), List.length_set]

example : ([10, 20, 30, 40] : List (BitVec 64))[1]? = some 20 ∧ (20 : BitVec 64) ≠ 21 ∧
    1 + 2 < ([10, 20, 30, 40] : List (BitVec 64)).length := by decide

/-! ### C27 -/

/-- C27. After any sequence of writes to a new `gost89::CFBSink`, the underlying sink (any sink, also
a failing one) has got one write of 8 bytes for every complete block, in order: the cipher feedback
encryption (GOST 28147-89, section 4) of these blocks, with a one-block register. `encF f` is the
32-round encryption with the round functions of the key. -/
theorem C27_ciphertext (m : Machine) (wr : τ → List Byte → Io W τ) (s : τ) (key : Key)
    (f : Fin 8 → BitVec 32 → BitVec 32) (h : Computes key f) (hl : key.isLazy = true)
    (iv : BitVec 64) (ds : List (List Byte)) :
    (do let t ← writeAll (Gost89.CFBSink.write m wr) (Gost89.CFBSink.new s key iv) ds
        pure t.sink) =
      writeAll wr s ((cfbEnc (encF f) [iv] (blocks64 ds.flatten)).map bytesOf64) := by
  rw [gost89_CFBSink_writes_eq m wr h hl ds s iv _ rfl, bind_assoc]
  simp

example (m : Machine) := C27_ciphertext m (memWrite (W := Unit)) [] _ _ sampleKey_computes rfl 1
  [sampleData.take 3, sampleData.drop 3]

/-- C27 for native key words and a table of 64 packed bytes, as GOST 28147-89 is used: the round
functions are `g` of the standard with the rows of the table. -/
theorem C27_conforms (m : Machine) (wr : τ → List Byte → Io W τ) (s : τ) (ks : List (BitVec 32))
    (hk : ks.length = 8) (uz : List Byte) (hu : uz.length = 64) (iv : BitVec 64)
    (ds : List (List Byte)) :
    (do let t ← writeAll (Gost89.CFBSink.write m wr)
          (Gost89.CFBSink.new s (LazyKey.ofNative ks (SboxTwisted (SboxByte uz))) iv) ds
        pure t.sink) =
      writeAll wr s ((cfbEnc (encF fun i => g (packedRows uz) (ks.getD i.val 0)) [iv]
        (blocks64 ds.flatten)).map bytesOf64) := by
  refine C27_ciphertext m wr s _ _ ?_ rfl iv ds
  intro v i
  rw [LazyKey_ofNative_computes (by omega) (packed_total (by omega)) v i]
  simp only
  rw [List.getD_eq_getElem?_getD, List.getElem?_eq_getElem (by omega)]
  rfl

example : Usable sampleGostKey ∧ sampleGostKey.isLazy = true := ⟨sampleGostKey_usable, rfl⟩

/-! ### C28 -/

/-- C28. As C23, for gost89. -/
theorem C28_round_trip {W' : Type} (m : Machine) (key : Key) (h : Usable key)
    (hl : key.isLazy = true) (iv : BitVec 64) (wr : τ → List Byte → Io W τ)
    (content : τ → W → List Byte) (hw : Collects wr content) (s : τ) (w : W)
    (hs : content s w = []) (ds : List (List Byte)) (hd : ds.flatten.length % 8 = 0) :
    ∃ s' w', (do let t ← writeAll (Gost89.CFBSink.write m wr) (Gost89.CFBSink.new s key iv) ds
                 Gost89.CFBSink.finalize m wr t) w = (.ok s', w') ∧
      ∀ (rd : σ → Nat → Io W' (List Byte × σ)) (src : σ) (v : W'),
        SuppliesBlocks rd src v (content s' w') →
        Supplies (Gost89.CFBSource.read m rd) (Gost89.CFBSource.new src key iv) v ds.flatten := by
  obtain ⟨f, hf⟩ := h.computes
  rw [gost89_CFBSink_writes_eq m wr hf hl ds s iv _ rfl, bind_assoc]
  obtain ⟨s', w', e1, e2⟩ := hw.writeAll
    ((cfbEnc (encF f) [iv] (blocks64 ds.flatten)).map bytesOf64) s w
  have hp : ds.flatten.drop (8 * (ds.flatten.length / 8)) = [] :=
    List.drop_of_length_le (by omega)
  refine ⟨s', w', ?_, ?_⟩
  · rw [Io.bind_run_ok e1, hp]
    simp [Gost89.CFBSink.finalize]
    rfl
  · intro rd src v hsrc
    have hc : content s' w' = unblocks64 (cfbEnc (encF f) [iv] (blocks64 ds.flatten)) := by
      rw [e2, hs]; rfl
    rw [hc] at hsrc
    have := C22_gost89_supplies m rd src v key f hf hl iv _ hsrc
    rwa [cfbDec_cfbEnc _ _ _ (by simp), unblocks64_blocks64_whole hd] at this

example (m : Machine) : ∃ c, (do
      let t ← writeAll (Gost89.CFBSink.write m memWrite)
        (Gost89.CFBSink.new [] sampleGostKey 0x47E3A8FFC3A7802A)
        [sampleData.take 3, [], sampleData.drop 3]
      Gost89.CFBSink.finalize m memWrite t) () = (.ok c, ()) ∧
    Supplies (Gost89.CFBSource.read m memRead)
      (Gost89.CFBSource.new c sampleGostKey 0x47E3A8FFC3A7802A) () sampleData := by
  obtain ⟨c, w', e, h⟩ := C28_round_trip (σ := List Byte) (W' := Unit) m
    sampleGostKey sampleGostKey_usable rfl 0x47E3A8FFC3A7802A memWrite _ memWrite_collects [] () rfl
    [sampleData.take 3, [], sampleData.drop 3] (by decide)
  exact ⟨c, e, h memRead c () (memRead_supplies _ ()).blocks⟩

/-! ### C56 -/

/-- C56 is false of the code: with a key object whose class is not `LazyKey` the stream classes call a
member through a null pointer as soon as a block is processed, however good the key is. -/
theorem C56_other_keys_undefined (m : Machine) (key : Key) (hl : key.isLazy = false)
    (wr : τ → List Byte → Io W τ) (rd : σ → Nat → Io W (List Byte × σ)) (d : List Byte)
    (hd : 8 ≤ d.length) (s : τ) (src src' : σ) (ivl ivr : BitVec 64) (n : Nat) (hn : 0 < n)
    (w w' : W) (p : List Byte) (hp : p.length = 8) (hr : rd src 8 w = (.ok (p, src'), w')) :
    CFBSink.write m wr (CFBSink.new s key ivl ivr) d w = (.ub .nullDeref, w) ∧
    Gost89.CFBSink.write m wr (Gost89.CFBSink.new s key ivl) d w = (.ub .nullDeref, w) ∧
    CFBSource.read m rd (CFBSource.new src key ivl ivr) n w = (.ub .nullDeref, w) ∧
    Gost89.CFBSource.read m rd (Gost89.CFBSource.new src key ivl) n w = (.ub .nullDeref, w) ∧
    (8 ≤ n → ECBSource.read m rd (.ecb src key) n w = (.ub .nullDeref, w')) := by
  obtain ⟨v, hv, -⟩ := ofU64_value m ivl
  have ha : key.asLazy = none := by simp [Key.asLazy, hl]
  have hnull := BlkEncrypted_null m _ v hv
  refine ⟨?_, ?_, CFBSource_null m rd (.new src key ivl ivr) hl n hn w,
    gost89_CFBSource_null m rd (.new src key ivl) hl n hn w, ?_⟩
  · have : ∀ d p : List Byte, p.length < 8 → 8 ≤ (p ++ d).length →
        CFBSink.loop m wr key d s p ivl ivr w = (.ub .nullDeref, w) := by
      intro d
      induction d with
      | nil => intro p h1 h2; rw [List.append_nil] at h2; omega
      | cons b d ih =>
        intro p h1 h2
        have e : p ++ b :: d = (p ++ [b]) ++ d := by simp
        rw [e] at h2
        unfold CFBSink.loop
        simp only
        split
        · rw [ha, hnull]; rfl
        · rename_i h8
          refine ih _ ?_ h2
          simp only [List.length_append, List.length_cons, List.length_nil] at h8 ⊢
          omega
    exact this d [] (by simp) hd
  · have : ∀ d p : List Byte, p.length < 8 → 8 ≤ (p ++ d).length →
        Gost89.CFBSink.loop m wr key d s p ivl w = (.ub .nullDeref, w) := by
      intro d
      induction d with
      | nil => intro p h1 h2; rw [List.append_nil] at h2; omega
      | cons b d ih =>
        intro p h1 h2
        have e : p ++ b :: d = (p ++ [b]) ++ d := by simp
        rw [e] at h2
        unfold Gost89.CFBSink.loop
        simp only
        split
        · rw [ha, hnull]; rfl
        · rename_i h8
          refine ih _ ?_ h2
          simp only [List.length_append, List.length_cons, List.length_nil] at h8 ⊢
          omega
    exact this d [] (by simp) hd
  · intro h8
    have hne : p ≠ [] := by intro e; rw [e] at hp; simp at hp
    rw [ECBSource_read_ecb m rd src key n h8, Io.bind_run_ok hr]
    simp only
    rw [if_neg hne, ofBytes_eq hp, Io.lift_ok_bind, ha]
    simp [BlkDecrypted, Blk.value, forwardRounds, callKey]
    rfl

example (m : Machine) := C56_other_keys_undefined m ⟨false, fun v i => .ok (v * 3 + BitVec.ofInt 32 i)⟩ rfl
  (memWrite (W := Unit)) memRead sampleData (by decide) [] sampleData (sampleData.drop 8) 1 2 8 (by decide) () ()
  (sampleData.take 8) (by decide) rfl

/-- C56, the part that holds: `ECBSink` works with every class of keys (C12 does not ask for a
`LazyKey`), and so does writing fewer than 8 bytes to a `CFBSink`. -/
theorem C56_ecbsink_any_key_partial (wr : τ → List Byte → Io W τ) (s : τ)
    (transform : BitVec 32 → Int → Exec (BitVec 32)) (f : Fin 8 → BitVec 32 → BitVec 32)
    (h : Computes ⟨false, transform⟩ f) (d : List Byte) (hd : d.length % 8 = 0) :
    ECBSink.write wr ⟨s, ⟨false, transform⟩⟩ d =
      writeAll wr s ((ecb (encF f) (blocks64 d)).map bytesOf64) >>= fun s' =>
        pure ⟨s', ⟨false, transform⟩⟩ :=
  C12_aligned_write wr s _ f h d hd

/-- A user's key class with perfectly good round functions. -/
example : Computes ⟨false, fun v i => .ok (v * 3 + BitVec.ofInt 32 i)⟩
    (fun i v => v * 3 + BitVec.ofInt 32 i.val) := fun _ _ => rfl

/-! ### C57 -/

/-- C57. A `CFBSink` writing into an `ECBSink` over a collecting sink; then a `CFBSource` reading from
an `ECBSource` over any source of the collected bytes: data of whole blocks written in any pieces are
supplied again, whatever sizes are read. -/
theorem C57_layers_compose {W' : Type} (m : Machine) (key1 key2 : Key) (h1 : Usable key1)
    (h2 : Usable key2) (hl1 : key1.isLazy = true) (hl2 : key2.isLazy = true)
    (ivl ivr : BitVec 64) (wr : τ → List Byte → Io W τ) (content : τ → W → List Byte)
    (hw : Collects wr content) (s : τ) (w : W) (hs : content s w = []) (ds : List (List Byte))
    (hd : ds.flatten.length % 8 = 0) :
    ∃ s' w', (do
        let t ← writeAll (CFBSink.write m (ECBSink.write wr)) (CFBSink.new ⟨s, key2⟩ key1 ivl ivr) ds
        let t ← CFBSink.finalize m (ECBSink.write wr) t
        ECBSink.finalize t) w = (.ok s', w') ∧
      ∀ (rd : σ → Nat → Io W' (List Byte × σ)) (src : σ) (v : W'),
        SuppliesBlocks rd src v (content s' w') →
        Supplies (CFBSource.read m (ECBSource.read m rd))
          (CFBSource.new (.ecb src key2) key1 ivl ivr) v ds.flatten := by
  obtain ⟨f, hf⟩ := h1.computes
  have hp : ds.flatten.drop (8 * (ds.flatten.length / 8)) = [] :=
    List.drop_of_length_le (by omega)
  have hall : ∀ x ∈ (cfbEnc (encF f) [ivl, ivr] (blocks64 ds.flatten)).map bytesOf64,
      x.length % 8 = 0 := by
    intro x hx
    obtain ⟨y, -, rfl⟩ := List.mem_map.1 hx
    simp
  obtain ⟨t, w', e1, e2⟩ := C15_round_trip (σ := σ) (W' := W') m key2 h2 hl2 wr content hw s w hs
    _ hall
  refine ⟨t.sink, w', ?_, ?_⟩
  · rw [C18_state m (ECBSink.write wr) _ key1 f hf hl1 ivl ivr ds _ rfl, bind_assoc,
      Io.bind_run_ok e1, hp]
    simp [CFBSink.finalize, ECBSink.finalize]
    rfl
  · intro rd src v hsrc
    have := C22_magma_supplies m (ECBSource.read m rd) _ v key1 f hf hl1 ivl ivr
      (cfbEnc (encF f) [ivl, ivr] (blocks64 ds.flatten)) (e2 rd src v hsrc)
    rwa [cfbDec_cfbEnc _ _ _ (by simp), unblocks64_blocks64_whole hd] at this

example (m : Machine) : ∃ c, (do
      let t ← writeAll (CFBSink.write m (ECBSink.write memWrite))
        (CFBSink.new ⟨[], sampleGostKey⟩ (LazyKey.ofString sampleKeyText) 1 2)
        [sampleData.take 3, [], sampleData.drop 3]
      let t ← CFBSink.finalize m (ECBSink.write memWrite) t
      ECBSink.finalize t) () = (.ok c, ()) ∧
    Supplies (CFBSource.read m (ECBSource.read m memRead))
      (CFBSource.new (.ecb c sampleGostKey) (LazyKey.ofString sampleKeyText) 1 2) () sampleData := by
  obtain ⟨c, w', e, h⟩ := C57_layers_compose (σ := List Byte) (W' := Unit) m
    (LazyKey.ofString sampleKeyText) sampleGostKey sampleKey_computes.usable sampleGostKey_usable
    rfl rfl 1 2 memWrite _ memWrite_collects [] () rfl
    [sampleData.take 3, [], sampleData.drop 3] (by decide)
  exact ⟨c, e, h memRead c () (memRead_supplies _ ()).blocks⟩

end Goost.Props
