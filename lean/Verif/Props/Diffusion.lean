import Verif.Lemmas.Diffusion
/-
Property C96: how far a difference spreads in the linear transformation and in a round of Kuznyechik.
-/
namespace Goost.Props
open Goost.Kuz Spec
open Spec.Kuz (differing afterRounds)

/-- C96. The linear transformation spreads every difference as far as a linear transformation of 16 bytes
can: the number of bytes in which two blocks differ and the number of bytes in which their images differ
are together at least 17. -/
theorem C96_linear (m : Machine) (hm : m.unalignedLoad = true) (a b : Blk) (v w : W64 × W64)
    (ha : a.value m = .ok v) (hb : b.value m = .ok w) (hne : v ≠ w) :
    ∃ v' w', (BlkL a).value m = .ok v' ∧ (BlkL b).value m = .ok w' ∧
      17 ≤ differing (join64 v) (join64 w) + differing (join64 v') (join64 w') := by
  obtain ⟨v', e1, e2⟩ := HasValue.blkL hm (b := a) ⟨v, ha, rfl⟩
  obtain ⟨w', e3, e4⟩ := HasValue.blkL hm (b := b) ⟨w, hb, rfl⟩
  refine ⟨v', w', e1, e3, ?_⟩
  rw [e2, e4]
  exact L_differing fun h => hne (join64_inj h)

example := C96_linear .x86 rfl (.raw 1 2) (.raw 1 3) _ _ rfl rfl (by decide)

/-- C96. Two blocks that differ in one byte only have images that differ in every byte. -/
theorem C96_one_byte (m : Machine) (hm : m.unalignedLoad = true) (a b : Blk) (v w : W64 × W64)
    (ha : a.value m = .ok v) (hb : b.value m = .ok w)
    (hone : differing (join64 v) (join64 w) = 1) :
    ∃ v' w', (BlkL a).value m = .ok v' ∧ (BlkL b).value m = .ok w' ∧
      ∀ i, i < 16 → Spec.Kuz.byte (join64 v') i ≠ Spec.Kuz.byte (join64 w') i := by
  obtain ⟨v', w', e1, e2, e3⟩ := C96_linear m hm a b v w ha hb (by
    rintro rfl
    rw [differing_zero.2 rfl] at hone
    exact absurd hone (by decide))
  refine ⟨v', w', e1, e2, fun i hi => ?_⟩
  have hle := differing_le (join64 v') (join64 w')
  have : (List.range 16).countP
      (fun i => Spec.Kuz.byte (join64 v') i != Spec.Kuz.byte (join64 w') i) =
      (List.range 16).length := by
    rw [List.length_range]
    unfold differing at hle e3 hone
    omega
  simpa using List.countP_eq_length.1 this i (List.mem_range.2 hi)

example := C96_one_byte .x86 rfl (.raw 0x1122334455667700 0xffeeddccbbaa9988) (.raw 0x1122334455667701 0xffeeddccbbaa9988)
  _ _ rfl rfl (by decide +kernel)

/-- C96. The bound holds for a round with any key block: the bytes in which two blocks differ before the
round and after it are together at least 17. -/
theorem C96_round (m : Machine) (hm : m.unalignedLoad = true) (a b k : Blk) (v w u : W64 × W64)
    (ha : a.value m = .ok v) (hb : b.value m = .ok w) (hk : k.value m = .ok u) (hne : v ≠ w) :
    ∃ v' w', (Key.encryptStep a k).value m = .ok v' ∧ (Key.encryptStep b k).value m = .ok w' ∧
      17 ≤ differing (join64 v) (join64 w) + differing (join64 v') (join64 w') := by
  obtain ⟨v', e1, e2⟩ := HasValue.lsx hm (b := a) ⟨v, ha, rfl⟩ ⟨u, hk, rfl⟩
  obtain ⟨w', e3, e4⟩ := HasValue.lsx hm (b := b) ⟨w, hb, rfl⟩ ⟨u, hk, rfl⟩
  refine ⟨v', w', e1, e3, ?_⟩
  rw [e2, e4]
  exact LSX_differing _ fun h => hne (join64_inj h)

example := C96_round .x86 rfl (.raw 1 2) (.raw 1 3) (.raw 5 6) _ _ _ rfl rfl rfl (by decide)

/-- C96. A whole encryption, with any round keys: the nine rounds substitute 144 bytes of a block. For two different blocks at
least 69 of them are different, and they differ in some byte in every round. (The bytes that a round substitutes are those
of the block before it, with the same round key added to both.) -/
theorem C96_encryption (m : Machine) (hm : m.unalignedLoad = true) (key : Key)
    (hk : ∀ k ∈ [key.k1, key.k2, key.k3, key.k4, key.k5, key.k6, key.k7, key.k8, key.k9], ∃ u, k.value m = .ok u)
    (a b : Blk) (v w : W64 × W64) (ha : a.value m = .ok v) (hb : b.value m = .ok w) (hne : v ≠ w) :
    BlkEncrypted a key = .xored (afterRounds key 9 a) key.k10 ∧
    ∃ x y : Nat → W64 × W64,
      (∀ n, n ≤ 9 → (afterRounds key n a).value m = .ok (x n) ∧ (afterRounds key n b).value m = .ok (y n)) ∧
      (∀ n, n ≤ 9 → 1 ≤ differing (join64 (x n)) (join64 (y n))) ∧
      69 ≤ ((List.range 9).map fun n => differing (join64 (x n)) (join64 (y n))).sum := by
  refine ⟨rfl, ?_⟩
  obtain ⟨x, y, h1, h2⟩ := rounds_differing hm _ hk a b v w ha hb hne
  refine ⟨x, y, fun n hn => ⟨(h1 n hn).1, (h1 n hn).2.1⟩, fun n hn => (h1 n hn).2.2, ?_⟩
  have q0 := h2 0 (by simp)
  have q2 := h2 2 (by simp)
  have q4 := h2 4 (by simp)
  have q6 := h2 6 (by simp)
  have q8 := (h1 8 (by simp)).2.2
  simp only [Nat.reduceAdd] at q0 q2 q4 q6
  simp only [List.range_succ, List.range_zero, List.nil_append, List.map_append, List.map_cons, List.map_nil,
    List.sum_append, List.sum_cons, List.sum_nil]
  omega

/-- C96. The bound is reached, and a single step of the shift register does not have it: there the bytes
in which two blocks differ before and after can be two. -/
theorem C96_bound_is_reached :
    ∃ a b v w v' w' v'' w'', a.value .x86 = .ok v ∧ b.value .x86 = .ok w ∧
      (BlkL a).value .x86 = .ok v' ∧ (BlkL b).value .x86 = .ok w' ∧
      (Blk.blkR a).value .x86 = .ok v'' ∧ (Blk.blkR b).value .x86 = .ok w'' ∧
      differing (join64 v) (join64 w) + differing (join64 v') (join64 w') = 17 ∧
      differing (join64 v) (join64 w) + differing (join64 v'') (join64 w'') = 2 := by
  obtain ⟨v', e1, e2⟩ := HasValue.blkL (m := .x86) rfl (HasValue.raw .x86 1 0)
  obtain ⟨w', e3, e4⟩ := HasValue.blkL (m := .x86) rfl (HasValue.raw .x86 0 0)
  obtain ⟨v'', e5, e6⟩ := HasValue.blkR (m := .x86) rfl (HasValue.raw .x86 1 0)
  obtain ⟨w'', e7, e8⟩ := HasValue.blkR (m := .x86) rfl (HasValue.raw .x86 0 0)
  refine ⟨.raw 1 0, .raw 0 0, _, _, v', w', v'', w'', rfl, rfl, e1, e3, e5, e7, ?_, ?_⟩
  · rw [e2, e4]; decide +kernel
  · rw [e6, e8]; decide +kernel

/-- Two blocks that meet the hypotheses of `C96_one_byte`. -/
example : ∃ v w, (Blk.raw 0x1122334455667700 0xffeeddccbbaa9988).value .x86 = .ok v ∧
    (Blk.raw 0x1122334455667701 0xffeeddccbbaa9988).value .x86 = .ok w ∧
    differing (join64 v) (join64 w) = 1 := ⟨_, _, rfl, rfl, by decide +kernel⟩

/-- A key that meets the hypothesis of `C96_encryption`: one made from two blocks. -/
example : ∀ k ∈ [(Key.ofBlocks (.raw 1 2) (.raw 3 4)).k1, (Key.ofBlocks (.raw 1 2) (.raw 3 4)).k2,
    (Key.ofBlocks (.raw 1 2) (.raw 3 4)).k3, (Key.ofBlocks (.raw 1 2) (.raw 3 4)).k4,
    (Key.ofBlocks (.raw 1 2) (.raw 3 4)).k5, (Key.ofBlocks (.raw 1 2) (.raw 3 4)).k6,
    (Key.ofBlocks (.raw 1 2) (.raw 3 4)).k7, (Key.ofBlocks (.raw 1 2) (.raw 3 4)).k8,
    (Key.ofBlocks (.raw 1 2) (.raw 3 4)).k9], ∃ u, k.value .x86 = .ok u := by
  have q := ofBlocks_values (m := .x86) rfl (HasValue.raw .x86 1 2) (HasValue.raw .x86 3 4) 0
  intro k hk
  simp only [List.mem_cons, List.not_mem_nil, or_false] at hk
  rcases hk with rfl | rfl | rfl | rfl | rfl | rfl | rfl | rfl | rfl
  · exact q.h1.imp fun _ h => h.1
  · exact q.h2.imp fun _ h => h.1
  · exact q.h3.imp fun _ h => h.1
  · exact q.h4.imp fun _ h => h.1
  · exact q.h5.imp fun _ h => h.1
  · exact q.h6.imp fun _ h => h.1
  · exact q.h7.imp fun _ h => h.1
  · exact q.h8.imp fun _ h => h.1
  · exact q.h9.imp fun _ h => h.1

end Goost.Props
