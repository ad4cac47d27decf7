import Verif.Props.Crash
import Verif.Props.Failures
import Verif.Lemmas.Crash
/-
Property C69 for the other streams: stacks of sinks and sources of any depth, gost89, ECB.
-/
namespace Goost.Props
open Goost.Magma Goost.Layers Spec Spec.Magma Spec.Modes

theorem stackDec_length (ls : List Layer) (c : List W64) : (stackDec ls c).length = c.length := by
  induction ls with
  | nil => rfl
  | cons l ls ih =>
    show (Layer.dec l (stackDec ls c)).length = c.length
    rw [← ih]
    cases l with
    | ecb k => simp [Layer.dec, ecb]
    | cfb k a b => exact cfbDec_length _ _ _ (by simp)
    | gostCfb k a => exact cfbDec_length _ _ _ (by simp)

/-! ### Sinks -/

/-- C69, what a retry does to a stack of sinks of any depth (so also to an `ECBSink` and to a
`gost89::CFBSink` alone): writing `d` and finalizing fails at its `j`-th operation (counted from 0) on the
file, and is done again with the same object. Then the file has got the first `j` blocks of the ciphertext
and after them the whole ciphertext. -/
theorem C69_stack_sink_retry (m : Machine) (l : Layer) (ls : List Layer)
    (hl : ∀ x ∈ l :: ls, Layer.Usable x) (d file : List Byte) (hd : d.length % 8 = 0) (j : Nat)
    (hj : j < d.length / 8) :
    retry (do
        let t ← Sinks.write m flakyWrite (l :: ls) (Sinks.new () (l :: ls)) d
        Sinks.finalize m flakyWrite (l :: ls) t) ⟨file, List.replicate j false ++ [true]⟩ =
      (.ok (), ⟨file ++ unblocks64 ((stackEnc (l :: ls) (blocks64 d)).take j) ++
        unblocks64 (stackEnc (l :: ls) (blocks64 d)), []⟩) := by
  have hlen : (stackEnc (l :: ls) (blocks64 d)).length = d.length / 8 := by
    rw [stackEnc_length, blocks64_length]
  have hop : (do
      let t ← Sinks.write m flakyWrite (l :: ls) (Sinks.new () (l :: ls)) d
      Sinks.finalize m flakyWrite (l :: ls) t) = (do
      let t ← writeAll (Sinks.write m flakyWrite (l :: ls)) (Sinks.new () (l :: ls)) [d]
      Sinks.finalize m flakyWrite (l :: ls) t) := by
    rw [writeAll_cons]; simp [writeAll]
  have hall := C57_stack_ciphertext m flakyWrite () l ls hl [d] (by simpa using hd)
    (.inr (by simpa using hd))
  rw [List.flatten_singleton] at hall
  rw [hop, hall]
  generalize stackEnc (l :: ls) (blocks64 d) = c at hlen ⊢
  have hsplit : c = c.take j ++ c[j]'(by omega) :: c.drop (j + 1) := by
    rw [List.getElem_cons_drop, List.take_append_drop]
  have h1 := flakyWrite_all ((c.take j).map bytesOf64) file [true]
  rw [List.length_map, List.length_take, Nat.min_eq_left (by omega)] at h1
  have first : writeAll flakyWrite () (c.map bytesOf64) ⟨file, List.replicate j false ++ [true]⟩ =
      (.throw (.user 1), ⟨file ++ unblocks64 (c.take j), []⟩) := by
    conv => lhs; rw [hsplit]
    exact writeAll_fails h1 rfl
  unfold retry
  rw [first]
  exact flakyWrite_all' _ _

example (m : Machine) := C69_stack_sink_retry m _ _ sampleLayers_usable sampleData [9] (by decide) 1 (by decide)

/-- C69 is false of the code for every stack of sinks: if not the first operation fails, the file is
longer than the ciphertext afterwards. If the first one fails, it is as after a call that does not
fail. -/
theorem C69_stack_sink_duplicates_iff (m : Machine) (l : Layer) (ls : List Layer)
    (hl : ∀ x ∈ l :: ls, Layer.Usable x) (d file : List Byte) (hd : d.length % 8 = 0) (j : Nat)
    (hj : j < d.length / 8) :
    (retry (do
        let t ← Sinks.write m flakyWrite (l :: ls) (Sinks.new () (l :: ls)) d
        Sinks.finalize m flakyWrite (l :: ls) t) ⟨file, List.replicate j false ++ [true]⟩ =
      (do let t ← Sinks.write m flakyWrite (l :: ls) (Sinks.new () (l :: ls)) d
          Sinks.finalize m flakyWrite (l :: ls) t) ⟨file, []⟩) ↔ j = 0 := by
  have hlen : (stackEnc (l :: ls) (blocks64 d)).length = d.length / 8 := by
    rw [stackEnc_length, blocks64_length]
  rw [C69_stack_sink_retry m l ls hl d file hd j hj]
  have hop : (do
      let t ← Sinks.write m flakyWrite (l :: ls) (Sinks.new () (l :: ls)) d
      Sinks.finalize m flakyWrite (l :: ls) t) = (do
      let t ← writeAll (Sinks.write m flakyWrite (l :: ls)) (Sinks.new () (l :: ls)) [d]
      Sinks.finalize m flakyWrite (l :: ls) t) := by
    rw [writeAll_cons]; simp [writeAll]
  have hall := C57_stack_ciphertext m flakyWrite () l ls hl [d] (by simpa using hd)
    (.inr (by simpa using hd))
  rw [List.flatten_singleton] at hall
  rw [hop, hall, flakyWrite_all']
  generalize stackEnc (l :: ls) (blocks64 d) = c at hlen ⊢
  have e2 : (c.map bytesOf64).flatten = unblocks64 c := rfl
  rw [e2]
  constructor
  · intro h
    have := congrArg (fun x => x.2.content.length) h
    simp only [List.length_append, unblocks64_length, List.length_take] at this
    omega
  · rintro rfl
    simp

example (m : Machine) := C69_stack_sink_duplicates_iff m _ _ sampleLayers_usable sampleData [9] (by decide) 1 (by decide)

/-! ### Sources -/

theorem readAll_blocks_fail {W σ : Type} {rd : σ → Nat → Io W (List Byte × σ)} (c : List W64) {s s1 : σ}
    {w w1 w2 : W} {e : Exn} (h1 : ReadsBlocks rd s w c s1 w1) (h2 : rd s1 8 w1 = (.throw e, w2)) (n : Nat)
    (hn : c.length < n) : readAll rd s (List.replicate n 8) w = (.throw e, w2) := by
  induction c generalizing s w n with
  | nil =>
    obtain ⟨rfl, rfl⟩ := h1
    cases n with
    | zero => simp at hn
    | succ n =>
      rw [List.replicate_succ, readAll]
      exact bind_run_throw h2
  | cons x c ih =>
    obtain ⟨s', w', e1, e2⟩ := h1
    cases n with
    | zero => simp at hn
    | succ n =>
      rw [List.replicate_succ, readAll, Io.bind_run_ok e1]
      simp only
      exact bind_run_throw (ih e2 n (by simpa using hn))

theorem readAll_blocks_ok {W σ : Type} {rd : σ → Nat → Io W (List Byte × σ)} {s : σ} {w : W}
    {d : List Byte} (h : SuppliesBlocks rd s w d) (n : Nat) :
    ∃ pieces s' w', readAll rd s (List.replicate n 8) w = (.ok (pieces, s'), w') ∧
      pieces.flatten = d.take (8 * n) := by
  obtain ⟨R, h0, h1⟩ := h
  induction n generalizing s w d with
  | zero => exact ⟨[], s, w, rfl, by simp⟩
  | succ n ih =>
    obtain ⟨s1, w1, e1, r1⟩ := h1 _ _ _ h0
    obtain ⟨pieces, s', w', e2, e3⟩ := ih r1
    refine ⟨d.take 8 :: pieces, s', w', ?_, ?_⟩
    · rw [List.replicate_succ, readAll, Io.bind_run_ok e1]
      simp only
      rw [Io.bind_run_ok e2]
      rfl
    · rw [List.flatten_cons, e3, show 8 * (n + 1) = 8 + 8 * n by omega, List.take_add]

/-- C69, what a retry does to a stack of sources of any depth over a file from which bytes are taken: `n`
reads of one block each are made, the `j`-th operation on the file fails, and all is done again with the
same object. Then what is read is the decryption of what is left of the ciphertext, beginning with block
`j`, as if it were the beginning. -/
theorem C69_stack_source_retry (m : Machine) (ls : List Layer) (hl : ∀ x ∈ ls, Layer.Usable x)
    (c : List (BitVec 64)) (j n : Nat) (hj : j ≤ c.length) (hn : j < n) :
    ∃ pieces t w', retry (readAll (Sources.read m flakyRead ls) (Sources.new () ls) (List.replicate n 8))
        ⟨unblocks64 c, List.replicate j false ++ [true]⟩ = (.ok (pieces, t), w') ∧
      pieces.flatten = (unblocks64 (stackDec ls (c.drop j))).take (8 * n) := by
  have h1 := flakyRead_blocks (c.take j) (c.drop j) [true]
  have hlen : (c.take j).length = j := by rw [List.length_take]; omega
  rw [List.take_append_drop, hlen] at h1
  obtain ⟨t, h2, h3⟩ := C68_stack_source_failure m flakyRead () () ls hl (c.take j) _ _
    ⟨unblocks64 (c.drop j), []⟩ (.user 1) h1 rfl
  have first := readAll_blocks_fail _ h2 h3 n (by rw [stackDec_length, hlen]; exact hn)
  have hs : SuppliesBlocks (Sources.read m flakyRead ls) (Sources.new () ls)
      ⟨unblocks64 (c.drop j), []⟩ (unblocks64 (stackDec ls (c.drop j))) := by
    cases ls with
    | nil => exact (flakyRead_supplies _).blocks
    | cons l ls =>
      exact (C57_stack_plaintext m flakyRead () ⟨unblocks64 (c.drop j), []⟩ l ls hl (c.drop j)
        (flakyRead_supplies _).blocks).1
  obtain ⟨pieces, s', w', e1, e2⟩ := readAll_blocks_ok hs n
  refine ⟨pieces, s', w', ?_, e2⟩
  unfold retry
  rw [first]
  exact e1

example (m : Machine) := C69_stack_source_retry m _ sampleLayers_usable [5, 6, 7] 2 4 (by decide) (by decide)

/-- C69 is false of the code for sources of every depth: blocks that had been read before the failure are
lost, the rest comes out shorter. -/
theorem C69_stack_source_retry_loses (m : Machine) (ls : List Layer) (hl : ∀ x ∈ ls, Layer.Usable x)
    (c : List (BitVec 64)) (j : Nat) (hj : j < c.length) :
    ∃ pieces t w', retry (readAll (Sources.read m flakyRead ls) (Sources.new () ls)
          (List.replicate c.length 8)) ⟨unblocks64 c, List.replicate j false ++ [true]⟩ =
        (.ok (pieces, t), w') ∧
      pieces.flatten.length = 8 * (c.length - j) := by
  obtain ⟨pieces, t, w', e, e2⟩ := C69_stack_source_retry m ls hl c j c.length (by omega) hj
  refine ⟨pieces, t, w', e, ?_⟩
  rw [e2, List.length_take, unblocks64_length, stackDec_length, List.length_drop]
  omega

example (m : Machine) := C69_stack_source_retry_loses m _ sampleLayers_usable [5, 6, 7] 2 (by decide)

/-- C69, the part that holds for sources of any depth: if the position is kept in the source object, then
reads that fail at any operation and are made again with the same object return what they would have
returned. -/
theorem C69_stack_position_in_object_partial (m : Machine) (ls : List Layer)
    (hl : ∀ x ∈ ls, Layer.Usable x) (c : List (BitVec 64)) (j n : Nat) (hj : j ≤ c.length) (hn : j < n) :
    ∃ pieces t w', retry (readAll (Sources.read m flakyReadAt ls) (Sources.new 0 ls)
          (List.replicate n 8)) ⟨unblocks64 c, List.replicate j false ++ [true]⟩ =
        (.ok (pieces, t), w') ∧
      pieces.flatten = (unblocks64 (stackDec ls c)).take (8 * n) := by
  have h1 := flakyReadAt_blocks [] (c.take j) (c.drop j) [true]
  have hlen : (c.take j).length = j := by rw [List.length_take]; omega
  rw [List.take_append_drop, hlen, List.nil_append, List.nil_append] at h1
  obtain ⟨t, h2, h3⟩ := C68_stack_source_failure m flakyReadAt 0 _ ls hl (c.take j) _ _
    ⟨unblocks64 c, []⟩ (.user 1) h1 rfl
  have first := readAll_blocks_fail _ h2 h3 n (by rw [stackDec_length, hlen]; exact hn)
  have hs : SuppliesBlocks (Sources.read m flakyReadAt ls) (Sources.new 0 ls)
      ⟨unblocks64 c, []⟩ (unblocks64 (stackDec ls c)) := by
    cases ls with
    | nil => exact (flakyReadAt_supplies _).blocks
    | cons l ls =>
      exact (C57_stack_plaintext m flakyReadAt 0 ⟨unblocks64 c, []⟩ l ls hl c
        (flakyReadAt_supplies _).blocks).1
  obtain ⟨pieces, s', w', e1, e2⟩ := readAll_blocks_ok hs n
  refine ⟨pieces, s', w', ?_, e2⟩
  unfold retry
  rw [first]
  exact e1

example (m : Machine) := C69_stack_position_in_object_partial m _ sampleLayers_usable [5, 6, 7] 2 4 (by decide) (by decide)

/-- C69 for a single `read` of a `gost89::CFBSource` with any size: as `C69_source_retry`. -/
theorem C69_gost89_source_retry (m : Machine) (key : Key) (f : Fin 8 → BitVec 32 → BitVec 32)
    (h : Computes key f) (hl : key.isLazy = true) (iv : BitVec 64) (c : List (BitVec 64))
    (j n : Nat) (hj : j ≤ c.length) (hn : 8 * j < n) :
    ∃ t w', retry (Gost89.CFBSource.read m flakyRead (Gost89.CFBSource.new () key iv) n)
        ⟨unblocks64 c, List.replicate j false ++ [true]⟩ =
      (.ok ((unblocks64 (cfbDec (encF f) [iv] (c.drop j))).take n, t), w') := by
  have h1 := flakyRead_blocks (c.take j) (c.drop j) [true]
  have hlen : (c.take j).length = j := by rw [List.length_take]; omega
  rw [List.take_append_drop, hlen] at h1
  have first := (C68_gost89_cfbsource_failure m flakyRead () () key f h hl iv (c.take j) _ _
    ⟨unblocks64 (c.drop j), []⟩ (.user 1) n h1 rfl).1 (by omega)
  unfold retry
  rw [first]
  simp only
  obtain ⟨R, h0, hR⟩ := C22_gost89_supplies m flakyRead () ⟨unblocks64 (c.drop j), []⟩ key f h hl iv
    (c.drop j) (flakyRead_supplies _).blocks
  obtain ⟨t, w', e, -⟩ := hR _ _ _ h0 n
  exact ⟨t, w', e⟩

example (m : Machine) := C69_gost89_source_retry m _ _ sampleKey_computes rfl 1 [5, 6, 7] 2 20 (by decide) (by decide)

/-- C69, the part that holds for a single `read` of an `ECBSource`: it makes one operation on the source
below, so if that has failed without effect, a retry is a call that does not fail. With any key, any
content and any size. -/
theorem C69_ecbsource_partial (m : Machine) (key : Key) (n : Nat) (hn : 8 ≤ n) (content : List Byte) :
    retry (ECBSource.read m flakyRead (.ecb () key) n) ⟨content, [true]⟩ =
      ECBSource.read m flakyRead (.ecb () key) n ⟨content, []⟩ := by
  unfold retry
  rw [C68_ecbsource_failure m flakyRead () key n hn ⟨content, [true]⟩ ⟨content, []⟩ (.user 1) rfl]

example : (∀ x ∈ [Layer.ecb (LazyKey.ofString sampleKeyText),
      .gostCfb (LazyKey.ofString sampleKeyText) 7, .cfb (LazyKey.ofString sampleKeyText) 1 2],
      Layer.Usable x) ∧ sampleData.length % 8 = 0 ∧ 1 < sampleData.length / 8 := by
  have h := sampleKey_computes.usable
  refine ⟨?_, by decide, by decide⟩
  simp only [List.mem_cons, List.not_mem_nil, or_false]
  rintro x (rfl | rfl | rfl)
  all_goals exact ⟨h, rfl⟩

end Goost.Props
