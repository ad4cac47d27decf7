import Verif.Lemmas.Crash
import Verif.Props.Layers
import Verif.Props.Failures
/-
Property C104: what a crash leaves behind. Also C68 for stacks of any depth.
-/
namespace Goost.Props
open Goost.Magma Goost.Layers Spec Spec.Magma Spec.Modes
variable {W σ τ : Type}

/-! ### C68 for stacks -/

/-- C68 for a stack of sinks of any depth: if the sink below accepts the first blocks of the ciphertext and
throws at the next one, the sequence of writes throws the same exception, and nothing is written after
that. -/
theorem C68_stack_sink_failure (m : Machine) (wr : τ → List Byte → Io W τ) (s s1 : τ) (l : Layer)
    (ls : List Layer) (hl : ∀ x ∈ l :: ls, Layer.Usable x) (ds : List (List Byte))
    (hd : ds.flatten.length % 8 = 0) (hp : Layer.AnySizes l ∨ ∀ d ∈ ds, d.length % 8 = 0)
    (pre post : List (BitVec 64)) (x : BitVec 64)
    (hc : stackEnc (l :: ls) (blocks64 ds.flatten) = pre ++ x :: post) (w w1 w2 : W) (e : Exn)
    (h1 : writeAll wr s (pre.map bytesOf64) w = (.ok s1, w1))
    (h2 : wr s1 (bytesOf64 x) w1 = (.throw e, w2)) :
    (do let t ← writeAll (Sinks.write m wr (l :: ls)) (Sinks.new s (l :: ls)) ds
        Sinks.finalize m wr (l :: ls) t) w = (.throw e, w2) := by
  rw [C57_stack_ciphertext m wr s l ls hl ds hd hp, hc]
  exact writeAll_fails h1 h2

example (m : Machine) := C68_stack_sink_failure m diskWrite () () (.cfb (LazyKey.ofString sampleKeyText) 1 2) []
  (by
    intro x hx
    simp only [List.mem_cons, List.not_mem_nil, or_false] at hx
    subst hx
    exact ⟨sampleKey_computes.usable, rfl⟩) [sampleData.take 5, sampleData.drop 5] (by decide) (.inl trivial)
    [] _ _ rfl (Disk.crashingAt 3) _ _ _ rfl rfl

/-- C68 for a stack of sources of any depth: if the source below returns the blocks `c` and throws then, the
stack returns the decryption of these blocks and throws the same exception then. -/
theorem C68_stack_source_failure (m : Machine) (rd : σ → Nat → Io W (List Byte × σ)) (s s1 : σ)
    (ls : List Layer) (hl : ∀ x ∈ ls, Layer.Usable x) (c : List (BitVec 64)) (w w1 w2 : W) (e : Exn)
    (h1 : ReadsBlocks rd s w c s1 w1) (h2 : rd s1 8 w1 = (.throw e, w2)) :
    ∃ t, ReadsBlocks (Sources.read m rd ls) (Sources.new s ls) w (stackDec ls c) t w1 ∧
      Sources.read m rd ls t 8 w1 = (.throw e, w2) := by
  obtain ⟨t, a1, a2, -⟩ := Sources_reads m rd s s1 ls hl c w w1 h1
  exact ⟨t, a1, a2 (.throw e) w2 h2⟩

/-! ### C104 -/

/-- C104. Data are written through a stack of any number of layers to a device that stops after `k` bytes,
for any `k`: in the middle of a block, between two blocks, during `finalize`, or never. Then the device holds exactly
the first `k` bytes of the complete ciphertext; the caller gets an exception exactly if not
everything has arrived. -/
theorem C104_crash_leaves_prefix (m : Machine) (l : Layer) (ls : List Layer)
    (hl : ∀ x ∈ l :: ls, Layer.Usable x) (ds : List (List Byte))
    (hd : ds.flatten.length % 8 = 0) (hp : Layer.AnySizes l ∨ ∀ d ∈ ds, d.length % 8 = 0) (k : Nat) :
    ∃ r disk, (do
        let t ← writeAll (Sinks.write m diskWrite (l :: ls)) (Sinks.new () (l :: ls)) ds
        Sinks.finalize m diskWrite (l :: ls) t) (Disk.crashingAt k) = (r, disk) ∧
      disk.content = (unblocks64 (stackEnc (l :: ls) (blocks64 ds.flatten))).take k ∧
      (ds.flatten.length ≤ k → r = .ok ()) ∧ (k < ds.flatten.length → r = .throw (.user 9)) := by
  rw [C57_stack_ciphertext m diskWrite () l ls hl ds hd hp]
  obtain ⟨r, j, e, h1, h2⟩ := diskWrite_all
    ((stackEnc (l :: ls) (blocks64 ds.flatten)).map bytesOf64) [] k
  have hlen : ((stackEnc (l :: ls) (blocks64 ds.flatten)).map bytesOf64).flatten.length =
      ds.flatten.length := by
    rw [pieces_flatten, unblocks64_length, stackEnc_length, ← unblocks64_length,
      unblocks64_blocks64_whole hd]
  rw [hlen] at h1 h2
  exact ⟨r, _, e, by rw [List.nil_append, pieces_flatten], h1, h2⟩

example (m : Machine) := C104_crash_leaves_prefix m (.cfb (LazyKey.ofString sampleKeyText) 1 2) []
  (by
    intro x hx
    simp only [List.mem_cons, List.not_mem_nil, or_false] at hx
    subst hx
    exact ⟨sampleKey_computes.usable, rfl⟩) [sampleData.take 5, sampleData.drop 5] (by decide) (.inl trivial) 13

/-- C104. The whole blocks among the first `k` bytes of the ciphertext, read through the mirrored stack of
sources, are the first bytes of the data: everything written in whole blocks before the crash is recovered,
and nothing else comes out. -/
theorem C104_beginning_recovered (m : Machine) (l : Layer) (ls : List Layer)
    (hl : ∀ x ∈ l :: ls, Layer.Usable x) (d : List Byte) (hd : d.length % 8 = 0) (k : Nat)
    (rd : σ → Nat → Io W (List Byte × σ)) (src : σ) (v : W)
    (hs : SuppliesBlocks rd src v
      ((unblocks64 (stackEnc (l :: ls) (blocks64 d))).take (8 * (k / 8)))) :
    SuppliesBlocks (Sources.read m rd (l :: ls)) (Sources.new src (l :: ls)) v (d.take (8 * (k / 8))) ∧
    (Layer.AnySizes l →
      Supplies (Sources.read m rd (l :: ls)) (Sources.new src (l :: ls)) v (d.take (8 * (k / 8)))) := by
  rw [← unblocks64_take, ← stackEnc_take, ← blocks64_take] at hs
  have := C57_stack_plaintext m rd src v l ls hl _ hs
  rwa [stackDec_stackEnc, unblocks64_blocks64_whole (by rw [List.length_take]; omega)] at this

example (m : Machine) := C104_beginning_recovered m (.cfb (LazyKey.ofString sampleKeyText) 1 2) []
  (by
    intro x hx
    simp only [List.mem_cons, List.not_mem_nil, or_false] at hx
    subst hx
    exact ⟨sampleKey_computes.usable, rfl⟩) sampleData (by decide) 13 memRead _ () (memRead_supplies _ ()).blocks

/-- C104 is false of the code for what is left after a crash in the middle of a block, if it is read as it
is: a stack of sources of any depth returns the data before the torn block, and the next read is an access out of bounds. -/
theorem C104_torn_block_undefined (m : Machine) (l : Layer) (ls : List Layer)
    (hl : ∀ x ∈ l :: ls, Layer.Usable x) (d : List Byte) (hd : d.length % 8 = 0) (k : Nat)
    (hk : k < d.length) (ht : k % 8 ≠ 0) :
    ∃ t, ReadsBlocks (W := Unit) (Sources.read m memRead (l :: ls))
        (Sources.new ((unblocks64 (stackEnc (l :: ls) (blocks64 d))).take k) (l :: ls)) ()
        ((blocks64 d).take (k / 8)) t () ∧
      Sources.read m memRead (l :: ls) t 8 () = (.ub .oobRead, ()) := by
  have mem : ∀ (c : List W64) (x : List Byte),
      ReadsBlocks (W := Unit) memRead (unblocks64 c ++ x) () c x () := by
    intro c x
    induction c with
    | nil => exact ⟨rfl, rfl⟩
    | cons y c ih =>
      refine ⟨unblocks64 c ++ x, (), ?_, ih⟩
      show (Exec.ok _, ()) = _
      rw [unblocks64_cons, List.append_assoc, List.take_left' (by simp), List.drop_left' (by simp)]
  have hsplit : (unblocks64 (stackEnc (l :: ls) (blocks64 d))).take k =
      unblocks64 ((stackEnc (l :: ls) (blocks64 d)).take (k / 8)) ++
        ((unblocks64 (stackEnc (l :: ls) (blocks64 d))).drop (8 * (k / 8))).take (k % 8) := by
    rw [unblocks64_take]
    conv => lhs; rw [← Nat.div_add_mod k 8]
    rw [List.take_add]
  have hlen : (unblocks64 (stackEnc (l :: ls) (blocks64 d))).length = d.length := by
    rw [unblocks64_length, stackEnc_length, ← unblocks64_length, unblocks64_blocks64_whole hd]
  have htail : (((unblocks64 (stackEnc (l :: ls) (blocks64 d))).drop (8 * (k / 8))).take (k % 8)).length =
      k % 8 := by
    rw [List.length_take, List.length_drop, hlen]; omega
  rw [hsplit]
  obtain ⟨t, a1, -, a3⟩ := Sources_reads m (W := Unit) memRead _ _ (l :: ls) hl _ () () (mem
    ((stackEnc (l :: ls) (blocks64 d)).take (k / 8))
    (((unblocks64 (stackEnc (l :: ls) (blocks64 d))).drop (8 * (k / 8))).take (k % 8)))
  refine ⟨t, ?_, a3 (by simp) _ _ () rfl ?_ ?_⟩
  · have e : stackDec (l :: ls) ((stackEnc (l :: ls) (blocks64 d)).take (k / 8)) =
        (blocks64 d).take (k / 8) := by rw [← stackEnc_take, stackDec_stackEnc]
    rw [e] at a1
    exact a1
  · intro h
    have := congrArg List.length h
    rw [List.length_take, htail] at this
    simp at this
    omega
  · rw [List.length_take, htail]; omega

example (m : Machine) := C104_torn_block_undefined m (.cfb (LazyKey.ofString sampleKeyText) 1 2) []
  (by
    intro x hx
    simp only [List.mem_cons, List.not_mem_nil, or_false] at hx
    subst hx
    exact ⟨sampleKey_computes.usable, rfl⟩) sampleData (by decide) 13 (by decide) (by decide)

/-- C104, the part that holds: after a crash at any byte, what is left, cut down to whole blocks, reads back
as the first bytes of the data. Missing: reading it without cutting, where it is false, see
`C104_torn_block_undefined`. -/
theorem C104_recovery_partial (m : Machine) (l : Layer) (ls : List Layer)
    (hl : ∀ x ∈ l :: ls, Layer.Usable x) (ds : List (List Byte))
    (hd : ds.flatten.length % 8 = 0) (hp : Layer.AnySizes l ∨ ∀ d ∈ ds, d.length % 8 = 0) (k : Nat) :
    ∃ r disk, (do
        let t ← writeAll (Sinks.write m diskWrite (l :: ls)) (Sinks.new () (l :: ls)) ds
        Sinks.finalize m diskWrite (l :: ls) t) (Disk.crashingAt k) = (r, disk) ∧
      SuppliesBlocks (W := Unit) (Sources.read m memRead (l :: ls))
        (Sources.new (disk.content.take (8 * (k / 8))) (l :: ls)) () (ds.flatten.take (8 * (k / 8))) := by
  obtain ⟨r, disk, e, h, -⟩ := C104_crash_leaves_prefix m l ls hl ds hd hp k
  refine ⟨r, disk, e, (C104_beginning_recovered m l ls hl ds.flatten hd k memRead _ () ?_).1⟩
  rw [h, List.take_take, Nat.min_eq_left (by omega)]
  exact (memRead_supplies _ ()).blocks

/-- A single `CFBSink` that takes three pieces of 5, 12 and 7 bytes; the device stops after 13 bytes, in the middle
of the second block. -/
example : (∀ x ∈ [Layer.cfb (LazyKey.ofString sampleKeyText) 1 2], Layer.Usable x) ∧
    [sampleData.take 5, (sampleData.drop 5).take 12, sampleData.drop 17].flatten.length % 8 = 0 ∧
    13 < sampleData.length ∧ 13 % 8 ≠ 0 := by
  refine ⟨?_, by decide, by decide, by decide⟩
  intro x hx
  simp only [List.mem_cons, List.not_mem_nil, or_false] at hx
  subst hx
  exact ⟨sampleKey_computes.usable, rfl⟩

/-- A write that is torn: two of the three bytes reach the device. -/
example : diskWrite () [1, 2, 3] ⟨[7], 2⟩ = (.throw (.user 9), ⟨[7, 1, 2], 0⟩) := by decide

end Goost.Props
