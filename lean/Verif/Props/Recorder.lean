import Verif.Lemmas.RecorderMac
import Verif.Props.Mac
import Verif.Props.KuzStream
/-
Properties C36, C62, C63, C88 and C89 again, by a recorder that runs with the evaluation
(Model/Recorder): that the counts, depths and logs of the other files are those of the evaluation.
-/
namespace Goost.Props
open Spec

/-! ### C88, C89 -/

section
open Goost.Kuz

/-- C88, C89. The recorder does not change the evaluation of a Kuznyechik block, whatever the caches
hold and whatever fails, and it counts `Blk.calls` calls and records the steps `Blk.log`. -/
theorem C88_kuznyechik_recorded (m : Machine) (b : Blk) (c : Caches) :
    (b.run m 0 ⟨c, [], 0, 0⟩).1 = (b.valueS m c).1 ∧ (b.recorded m c).caches = (b.valueS m c).2 ∧
      (b.recorded m c).calls = b.calls m c := by
  obtain ⟨r, e, h⟩ := Kuz.run_eq m b 0 ⟨c, [], 0, 0⟩
  rw [Blk.recorded, e]
  exact ⟨rfl, h.caches, by simpa using h.calls⟩

/-- C89. The steps recorded while a Kuznyechik block is evaluated. -/
theorem C89_kuznyechik_recorded (m : Machine) (b : Blk) (c : Caches) :
    (b.recorded m c).log = b.log m c := by
  obtain ⟨r, e, h⟩ := Kuz.run_eq m b 0 ⟨c, [], 0, 0⟩
  rw [Blk.recorded, e]
  simpa using h.log

end

section
open Goost.Magma

/-- C88. The recorder does not change the evaluation of a Magma block. It counts at most `Blk.calls`
calls, and as many if there is a value. -/
theorem C88_magma_recorded (m : Machine) (b : Blk) :
    (b.run m 0 ⟨0, 0⟩).1 = b.value m ∧ (b.recorded m).calls ≤ b.calls ∧
      ∀ v, b.value m = .ok v → (b.recorded m).calls = b.calls := by
  obtain ⟨r, e, h⟩ := Magma.run_eq m b 0 ⟨0, 0⟩
  rw [Blk.recorded, e]
  exact ⟨rfl, by simpa using h.calls, fun v hv => by simpa using h.all ⟨v, hv⟩⟩

end

/-! ### C36 -/

section
open Goost.Magma Spec.Magma Spec.Modes
variable {W σ : Type}

/-- C36 is false of the code: this nesting is reached when the block is evaluated. -/
theorem C36_reached (key : Key) (h : Usable key) (rd : σ → Nat → Io W (List Byte × σ))
    (s : σ) (w : W) (d : List Byte) (h0 : d ≠ []) (hs : SuppliesBlocks rd s w d) (fuel : Nat)
    (hf : d.length ≤ 8 * fuel) :
    ∃ b w', Imit.build rd fuel s (some key) w = (.ok b, w') ∧
      6 * ((d.length + 7) / 8) ≤ (b.recorded .x86).deepest ∧
      (b.recorded .x86).deepest ≤ 6 * ((d.length + 7) / 8) + 14 := by
  obtain ⟨b, w1, e1, l1⟩ := C36_depth_grows key h rd s w d h0 hs fuel hf
  obtain ⟨b', w2, e2, l2⟩ := C36_linear_depth_partial key h rd s w d h0 hs fuel hf
  rw [e1] at e2
  obtain ⟨rfl, rfl⟩ : b = b' ∧ w1 = w2 := by simpa using e2
  obtain ⟨f, hc⟩ := h.computes
  obtain ⟨p, tail, rfl, ht, ht8, -, -⟩ := split_message h0
  have : 0 < tail.length := List.length_pos_iff.2 ht
  simp only [List.length_append, unblocks64_length] at hf
  obtain ⟨v, w3, e3, -⟩ := Imit_value_x86 hc rd s w p tail ht ht8 hs fuel (by omega)
  rw [Imit.value, Io.bind_run_ok e1] at e3
  have hv : b.value .x86 = .ok v := (Prod.mk.inj e3).1
  obtain ⟨r, e, hr⟩ := Magma.run_eq .x86 b 0 ⟨0, 0⟩
  have hd := hr.depth ⟨v, hv⟩
  refine ⟨b, w1, e1, ?_⟩
  rw [Blk.recorded, e]
  simp only at hd ⊢
  omega

example : Usable (LazyKey.ofString sampleKeyText) ∧
    SuppliesBlocks (memRead (W := Unit)) (sampleData.take 13) () (sampleData.take 13) :=
  ⟨sampleKey_computes.usable, (memRead_supplies _ ()).blocks⟩

end

/-! ### C62, C63 -/

section
open Goost.Kuz Spec.Kuz
variable {ι : Type}

/-- C62 is false of the code: whatever the key is, whatever its caches hold and even if the evaluation
fails, more than 164 calls for every block of the message are nested. -/
theorem C62_reached (m : Machine) (key : Key) (it : IterImpl ι) (size : Nat) (i : ι)
    (p : List (W64 × W64)) (hs : Shows it size i p) (fuel : Nat) (hf : p.length ≤ fuel) :
    ∃ b, Imit.build it (.ok (some i)) fuel key = .ok b ∧
      ∀ c, 164 * p.length < (b.recorded m c).deepest := by
  obtain ⟨q, v, rfl⟩ := Shows.split hs
  simp only [List.length_append, List.length_cons, List.length_nil] at hf ⊢
  obtain ⟨b, e1, e2⟩ := Imit_build_spine (key := key) q v hs fuel (by omega)
  refine ⟨b, e1, fun c => ?_⟩
  obtain ⟨r, e, h⟩ := Kuz.run_eq m b 0 ⟨c, [], 0, 0⟩
  have := h.least
  rw [Blk.recorded, e]
  simp only
  omega

example (m : Machine) (key : Key) := C62_reached m key _ 16 _ _ fourWords_shows 2 (by decide)

/-- What is true of C62: the nesting that is reached is linear in the length of the message. -/
theorem C62_reached_partial (m : Machine) (key : Key) (K : BitVec 256) (hk : Encrypts m key K)
    (it : IterImpl ι) (size : Nat) (i : ι) (p : List (W64 × W64)) (hs : Shows it size i p)
    (fuel : Nat) (hf : p.length ≤ fuel) :
    ∃ b, Imit.build it (.ok (some i)) fuel key = .ok b ∧
      ∀ c, (b.recorded m c).deepest ≤ 164 * p.length + keyDepth key + 170 := by
  obtain ⟨b, e1, e2⟩ := C62_linear_depth_partial m key K hk it size i p hs fuel hf
  refine ⟨b, e1, fun c => ?_⟩
  obtain ⟨r, e, h⟩ := Kuz.run_eq m b 0 ⟨c, [], 0, 0⟩
  have := h.most
  rw [Blk.recorded, e]
  simp only at this ⊢
  omega

example := C62_reached_partial .x86 twoHalves _ twoHalves_encrypts _ 16 _ _ fourWords_shows 2 (by decide)

/-- C63 is false of the code: more than `n` calls are nested when block number `n` of an encrypted stream
is evaluated, even if all round keys are cached. -/
theorem C63_reached (m : Machine) (key : Key) (it : IterImpl ι) (size : Nat) (i : ι)
    (p : List (W64 × W64)) (hs : Shows it size i p) (iv : BitVec 64) (n : Nat) (hn : n < p.length) :
    ∃ j j', StCTREncrypted.iter (.ok (some i)) key iv = .ok (some j) ∧
      advance (ItCTR.impl m it) n j = .ok (some j') ∧
      ∀ c, n < ((BlkEncrypted j'.ctr j'.key).recorded m c).deepest := by
  obtain ⟨j', -, h⟩ := ctr_advance (m := m) hs hn key (.raw 0 iv)
  refine ⟨_, _, rfl, h, fun c => ?_⟩
  obtain ⟨r, e, hr⟩ := Kuz.run_eq m (BlkEncrypted (Nat.repeat Blk.incremented n (.raw 0 iv)) key) 0 ⟨c, [], 0, 0⟩
  have := hr.least
  rw [encrypted_spine, repeat_incremented_spine] at this
  show n < (Blk.recorded m (BlkEncrypted (Nat.repeat Blk.incremented n (.raw 0 iv)) key) c).deepest
  rw [Blk.recorded, e]
  simp only
  omega

/-- A message of two blocks. -/
example : ∃ i, StMemory.iter [1, 2, 3, 4] = .ok (some i) ∧
    Shows (ItMemory.impl [1, 2, 3, 4]) 16 i [(1, 2), (3, 4)] :=
  Shows_memory [1, 2, 3, 4] (by decide) (by decide)

end

end Goost.Props
