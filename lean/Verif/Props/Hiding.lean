import Verif.Lemmas.Hiding
/-
C134: eight rounds with a random key hide one block completely.
-/
namespace Goost.Props
open Spec Spec.Magma Goost.Magma Goost.Hiding

theorem C134_standard : IsBijection SboxR3412 := by
  have hb : Function.Bijective fun v : BitVec 32 => (t Spec.Magma.pi v).rotateLeft 11 := by
    rw [← Finite.injective_iff_bijective]
    intro x y e
    by_contra hne
    refine Goost.Differences.g_injective 0 hne ?_
    simpa [g] using e
  refine ⟨fun x => ⟨_, SboxR3412_eq x⟩, fun x y e => ?_, fun y => ?_⟩
  · rw [SboxR3412_eq, SboxR3412_eq] at e
    exact hb.1 (Exec.ok.inj e)
  · obtain ⟨x, hx⟩ := hb.2 y
    exact ⟨x, by rw [SboxR3412_eq]; exact congrArg Exec.ok hx⟩

/-- Whatever the block and whatever the result: `BlkForwarded` gives this result with exactly 2¹⁹² of the 2²⁵⁶ keys. -/
theorem C134_forwarded (m : Machine) {sbox : Sbox} (hs : IsBijection sbox) {b : Blk} {v : BitVec 32 × BitVec 32} (hb : b.value m = .ok v)
    (w : BitVec 32 × BitVec 32) :
    {K : BitVec 256 | (Blk.forwarded b (some (keyWith sbox K))).value m = .ok w}.ncard = 2 ^ 192 := by
  obtain ⟨t, ht, bij⟩ := sbox_fun hs
  have := words_count bij [0, 1, 2, 3, 4, 5] (i := 6) (j := 7) (by decide) (by decide) (by decide) v.swap w.swap
  rw [← ncard_keys_eq] at this
  rw [← this]
  congr 1
  ext K
  simp only [Set.mem_ofPred_eq, Blk.value, hb, Exec.ok_bind, forwardRounds_eq (keyWith_computes ht K)]
  rw [show ([0, 1, 2, 3, 4, 5] ++ [6, 7] : List (Fin 8)) = [0, 1, 2, 3, 4, 5, 6, 7] from rfl, ← fwd_eq_rounds]
  exact ⟨fun e => congrArg Prod.swap (Exec.ok.inj e), fun e => congrArg Exec.ok (Prod.swap_injective e)⟩

example := C134_forwarded .x86 C134_standard (b := .raw 5 6) rfl (7, 8)

/-- The same for `BlkBackwarded`. -/
theorem C134_backwarded (m : Machine) {sbox : Sbox} (hs : IsBijection sbox) {b : Blk} {v : BitVec 32 × BitVec 32} (hb : b.value m = .ok v)
    (w : BitVec 32 × BitVec 32) :
    {K : BitVec 256 | (Blk.backwarded b (some (keyWith sbox K))).value m = .ok w}.ncard = 2 ^ 192 := by
  obtain ⟨t, ht, bij⟩ := sbox_fun hs
  have := words_count bij [7, 6, 5, 4, 3, 2] (i := 1) (j := 0) (by decide) (by decide) (by decide) v.swap w.swap
  rw [← ncard_keys_eq] at this
  rw [← this]
  congr 1
  ext K
  simp only [Set.mem_ofPred_eq, Blk.value, hb, Exec.ok_bind, backwardRounds_eq (keyWith_computes ht K)]
  rw [show ([7, 6, 5, 4, 3, 2] ++ [1, 0] : List (Fin 8)) = [7, 6, 5, 4, 3, 2, 1, 0] from rfl, ← bwd_eq_rounds]
  exact ⟨fun e => congrArg Prod.swap (Exec.ok.inj e), fun e => congrArg Exec.ok (Prod.swap_injective e)⟩

example := C134_backwarded .x86 C134_standard (b := .raw 5 6) rfl (7, 8)

/-- So the result says nothing about the block: of any two blocks, each gives it with equally many keys. -/
theorem C134_nothing_learned (m : Machine) {sbox : Sbox} (hs : IsBijection sbox) {a b : Blk} {u v : BitVec 32 × BitVec 32}
    (ha : a.value m = .ok u) (hb : b.value m = .ok v) (w : BitVec 32 × BitVec 32) :
    {K : BitVec 256 | (Blk.forwarded a (some (keyWith sbox K))).value m = .ok w}.ncard =
      {K : BitVec 256 | (Blk.forwarded b (some (keyWith sbox K))).value m = .ok w}.ncard :=
  (C134_forwarded m hs ha w).trans (C134_forwarded m hs hb w).symm

example := C134_nothing_learned .x86 C134_standard (a := .raw 5 6) (b := .xored (.raw 1 2) (.raw 3 4)) rfl rfl (7, 8)

/-- With a substitution that is no bijection this fails: if all words have the same image, no key takes the block 0 to the block 1. -/
theorem C134_needs_bijection (m : Machine) :
    {K : BitVec 256 | (Blk.forwarded (.raw 0 0) (some (keyWith (fun _ => .ok 0) K))).value m = .ok (1, 0)}.ncard = 0 := by
  rw [show {K : BitVec 256 | (Blk.forwarded (.raw 0 0) (some (keyWith (fun _ => .ok 0) K))).value m = .ok (1, 0)} = ∅ from
    Set.eq_empty_of_forall_notMem fun K h => ?_, Set.ncard_empty]
  have h : (Blk.forwarded (.raw 0 0) (some (keyWith (fun _ => .ok 0) K))).value m = .ok (1, 0) := h
  simp only [Blk.value, Exec.ok_bind, forwardRounds_eq (keyWith_computes (t := fun _ => 0) (fun _ => rfl) K), fwd] at h
  exact absurd (Exec.ok.inj h) (by decide)

example : IsBijection SboxR3412 ∧ (Blk.raw 5 6).value .x86 = .ok (5, 6) ∧ (Blk.str "0000000000000001".toList).value .x86 = .ok (1, 0) :=
  ⟨C134_standard, rfl, by decide +kernel⟩

end Goost.Props
