import Verif.Lemmas.Codes
/-
The two auxiliary keys of the authentication codes.
-/
namespace Goost
open Spec Spec.Magma Spec.Modes Goost.Magma

theorem getLsbD_double {n : Nat} (B r : BitVec n) (i : Nat) (hi : i < n) :
    (double B r).getLsbD i =
      ((decide (0 < i) && r.getLsbD (i - 1)) ^^ (r.msb && B.getLsbD i)) := by
  unfold double
  cases h : r.msb <;> cases i <;> simp [hi] <;>
    exact (BitVec.getLsbD_eq_getElem (by omega)).symm

/-- A block that doubling leaves alone, by its bits. -/
theorem double_fixed_bits {n : Nat} {B k : BitVec n} (h : double B k = k) (i : Nat) (hi : i + 1 < n) :
    k.getLsbD (i + 1) = (k.getLsbD i ^^ (k.msb && B.getLsbD (i + 1))) := by
  have := congrArg (fun x => x.getLsbD (i + 1)) h
  simp only [getLsbD_double B k _ hi] at this
  simpa using this.symm

theorem double_fixed_bit_zero {n : Nat} {B k : BitVec n} (h : double B k = k) (hn : 0 < n) :
    k.getLsbD 0 = (k.msb && B.getLsbD 0) := by
  have := congrArg (fun x => x.getLsbD 0) h
  simp only [getLsbD_double B k _ hn] at this
  simpa using this.symm

/-- From bit `j` on, where the constant has no more bits, all bits of such a block are equal. -/
theorem double_fixed_high {n : Nat} {B k : BitVec n} (h : double B k = k) (j : Nat)
    (hB : ∀ i, j < i → B.getLsbD i = false) (i : Nat) (hij : j ≤ i) (hi : i < n) :
    k.getLsbD i = k.getLsbD j := by
  induction i with
  | zero => rw [Nat.le_zero.1 hij]
  | succ i ih =>
    by_cases e : j = i + 1
    · rw [e]
    · rw [double_fixed_bits h i hi, hB (i + 1) (by omega), ih (by omega) (by omega)]
      simp

theorem double_fixed_msb_false {n : Nat} {B k : BitVec n} (h : double B k = k)
    (hm : k.msb = false) : k = 0 := by
  apply BitVec.eq_of_getLsbD_eq
  intro i hi
  have : ∀ i, i < n → k.getLsbD i = false := by
    intro i
    induction i with
    | zero => intro hi; rw [double_fixed_bit_zero h hi, hm]; rfl
    | succ i ih => intro hi; rw [double_fixed_bits h i hi, ih (by omega), hm]; rfl
  rw [this i hi]
  simp

theorem double64_fixed {k : BitVec 64} (h : double 0x1b k = k) : k = 0 := by
  apply double_fixed_msb_false h
  cases hm : k.msb
  · rfl
  · have b0 := double_fixed_bit_zero h (by decide)
    have b1 := double_fixed_bits h 0 (by decide)
    have b2 := double_fixed_bits h 1 (by decide)
    have b3 := double_fixed_bits h 2 (by decide)
    have b4 := double_fixed_bits h 3 (by decide)
    have hi : k.getLsbD 63 = k.getLsbD 4 := double_fixed_high h 4 (by
      intro i hi
      by_cases c : i < 64
      · have : ∀ i : Fin 64, 4 < i.val → (0x1b : BitVec 64).getLsbD i = false := by decide
        exact this ⟨i, c⟩ hi
      · exact BitVec.getLsbD_of_ge _ _ (by omega)) 63 (by decide) (by decide)
    rw [BitVec.msb_eq_getLsbD_last] at hm
    simp only [BitVec.msb_eq_getLsbD_last] at b0 b1 b2 b3 b4
    simp only [hm, show (64 : Nat) - 1 = 63 from rfl] at *
    simp at *
    simp_all

theorem double128_fixed {k : BitVec 128} (h : double 0x87 k = k) : k = 0 := by
  apply double_fixed_msb_false h
  cases hm : k.msb
  · rfl
  · have b0 := double_fixed_bit_zero h (by decide)
    have b1 := double_fixed_bits h 0 (by decide)
    have b2 := double_fixed_bits h 1 (by decide)
    have b3 := double_fixed_bits h 2 (by decide)
    have b4 := double_fixed_bits h 3 (by decide)
    have b5 := double_fixed_bits h 4 (by decide)
    have b6 := double_fixed_bits h 5 (by decide)
    have b7 := double_fixed_bits h 6 (by decide)
    have hi : k.getLsbD 127 = k.getLsbD 7 := double_fixed_high h 7 (by
      intro i hi
      by_cases c : i < 128
      · have : ∀ i : Fin 128, 7 < i.val → (0x87 : BitVec 128).getLsbD i = false := by decide
        exact this ⟨i, c⟩ hi
      · exact BitVec.getLsbD_of_ge _ _ (by omega)) 127 (by decide) (by decide)
    rw [BitVec.msb_eq_getLsbD_last] at hm
    simp only [BitVec.msb_eq_getLsbD_last] at b0 b1 b2 b3 b4 b5 b6 b7
    simp only [hm, show (128 : Nat) - 1 = 127 from rfl] at *
    simp at *
    simp_all

/-- Doubling a block gives zero only for zero. -/
theorem double_eq_zero {n : Nat} {B k : BitVec n} (hB : B.getLsbD 0 = true) (hn : 0 < n)
    (h : double B k = 0) : k = 0 := by
  have hb (i : Nat) (hi : i < n) : (double B k).getLsbD i = false := by rw [h]; simp
  have hm : k.msb = false := by
    have := hb 0 hn
    rw [getLsbD_double B k 0 hn, hB] at this
    simpa using this
  apply BitVec.eq_of_getLsbD_eq
  intro i hi
  by_cases c : i + 1 < n
  · have := hb (i + 1) c
    rw [getLsbD_double B k _ c, hm] at this
    simpa using this
  · have e : i = n - 1 := by omega
    rw [BitVec.msb_eq_getLsbD_last] at hm
    rw [e, hm]
    simp

theorem double_zero {n : Nat} (B : BitVec n) : double B 0 = 0 := by simp [double]

theorem macKeys_eq_iff {n : Nat} {E : BitVec n → BitVec n} {B : BitVec n} (hB : B.getLsbD 0 = true)
    (hn : 0 < n) (hf : ∀ k, double B k = k → k = 0) : macK1 E B = macK2 E B ↔ E 0 = 0 := by
  constructor
  · intro h
    exact double_eq_zero hB hn (hf _ h.symm)
  · intro h
    simp only [macK1, macK2, h, double_zero]

/-- Codes with the two masks of the same blocks. -/
theorem omac_masks {n : Nat} {E : BitVec n → BitVec n} (hE : ∀ x y, E x = E y → x = y)
    (K K' : BitVec n) (p : List (BitVec n)) (x y : BitVec n) :
    omac E K p x = omac E K' p y ↔ x ^^^ K = y ^^^ K' := by
  have e : ∀ a b c : BitVec n, a ^^^ b ^^^ c = b ^^^ (a ^^^ c) := by
    intro a b c
    rw [BitVec.xor_comm a b, BitVec.xor_assoc]
  unfold omac
  constructor
  · intro h
    have := hE _ _ h
    rw [e, e y] at this
    exact xor_left_cancel this
  · intro h
    rw [e, e y, h]

theorem xor_swap_iff {n : Nat} (a b c d : BitVec n) : a ^^^ c = b ^^^ d ↔ a ^^^ b = c ^^^ d := by
  have s : ∀ x y : BitVec n, x ^^^ (x ^^^ y) = y := by
    intro x y
    rw [← BitVec.xor_assoc, BitVec.xor_self, BitVec.zero_xor]
  constructor
  · intro h
    have : d = b ^^^ (a ^^^ c) := by rw [h, s]
    rw [this, ← BitVec.xor_assoc b, BitVec.xor_comm b a, ← BitVec.xor_assoc, BitVec.xor_comm c, BitVec.xor_assoc,
      BitVec.xor_self, BitVec.xor_zero]
  · intro h
    have : d = c ^^^ (a ^^^ b) := by rw [h, s]
    rw [this, ← BitVec.xor_assoc c, BitVec.xor_comm c a, ← BitVec.xor_assoc, BitVec.xor_comm b, BitVec.xor_assoc,
      BitVec.xor_self, BitVec.xor_zero]

end Goost
