import Mathlib.Algebra.CharP.Two
import Mathlib.Tactic.ComputeDegree
import Mathlib.Tactic.LinearCombination
import Verif.Spec.Gf
import Verif.Lemmas.Field
/-
Bytes as polynomials over GF(2), and `gmul` as their product modulo x⁸ + x⁷ + x⁶ + x + 1.
-/
namespace Goost
open Polynomial Spec.Gf

theorem modulus_monic : modulus.Monic := by
  unfold modulus
  monicity!

theorem modulus_degree : modulus.degree = 8 := by
  unfold modulus
  compute_degree!

theorem poly_coeff (a : BitVec 8) (n : Nat) : (poly a).coeff n = if a.getLsbD n then 1 else 0 := by
  unfold poly
  rw [finsetSum_coeff]
  have h : ∀ i, (if a.getLsbD i then (X : (ZMod 2)[X]) ^ i else 0).coeff n =
      if n = i then (if a.getLsbD n then 1 else 0) else 0 := by
    intro i
    by_cases hn : n = i
    · subst hn
      by_cases hb : a.getLsbD n <;> simp [hb]
    · by_cases hb : a.getLsbD i <;> simp [hb, hn, coeff_X_pow]
  simp only [h]
  rw [Finset.sum_ite_eq]
  by_cases hn : n < 8
  · simp [hn]
  · simp [hn, BitVec.getLsbD_of_ge a n (by omega)]

theorem poly_degree (a : BitVec 8) : (poly a).degree < modulus.degree := by
  rw [modulus_degree]
  refine (degree_lt_iff_coeff_zero _ 8).2 ?_
  intro n hn
  rw [poly_coeff, BitVec.getLsbD_of_ge a n hn]
  rfl

theorem poly_injective {a b : BitVec 8} (h : poly a = poly b) : a = b := by
  apply BitVec.eq_of_getLsbD_eq
  intro i hi
  have := congrArg (fun p => p.coeff i) h
  simp only [poly_coeff] at this
  cases ha : a.getLsbD i <;> cases hb : b.getLsbD i <;> simp [ha, hb] at this ⊢

theorem poly_xor (a b : BitVec 8) : poly (a ^^^ b) = poly a + poly b := by
  ext n
  rw [coeff_add, poly_coeff, poly_coeff, poly_coeff, BitVec.getLsbD_xor]
  cases a.getLsbD n <;> cases b.getLsbD n <;> simp
  decide

theorem poly_zero : poly 0 = 0 := by
  ext n
  simp [poly_coeff]

theorem X_mul_poly (a : BitVec 8) :
    X * poly a = poly (a <<< 1) + (if a.getLsbD 7 then X ^ 8 else 0) := by
  ext n
  rw [coeff_add, poly_coeff, BitVec.getLsbD_shiftLeft]
  generalize h7 : a.getLsbD 7 = c
  cases n with
  | zero =>
    rw [mul_coeff_zero, coeff_X_zero, zero_mul]
    cases c <;> simp
  | succ n =>
    rw [coeff_X_mul, poly_coeff]
    by_cases h8 : n + 1 < 8
    · have : ¬ n + 1 = 8 := by omega
      cases c <;> simp [h8, coeff_X_pow, this]
    · by_cases hn : n = 7
      · subst hn
        rw [h7]
        cases c <;> simp
      · have h9 : a.getLsbD n = false := BitVec.getLsbD_of_ge a n (by omega)
        cases c <;> simp [h8, h9, coeff_X_pow, hn]

theorem poly_c3 : poly 0xc3 = X ^ 7 + X ^ 6 + X + 1 := by
  unfold poly
  simp only [Finset.sum_range_succ, Finset.sum_range_zero]
  have h : (0xc3 : BitVec 8).getLsbD 0 = true ∧ (0xc3 : BitVec 8).getLsbD 1 = true ∧
    (0xc3 : BitVec 8).getLsbD 2 = false ∧ (0xc3 : BitVec 8).getLsbD 3 = false ∧
    (0xc3 : BitVec 8).getLsbD 4 = false ∧ (0xc3 : BitVec 8).getLsbD 5 = false ∧
    (0xc3 : BitVec 8).getLsbD 6 = true ∧ (0xc3 : BitVec 8).getLsbD 7 = true := by decide
  obtain ⟨h0, h1, h2, h3, h4, h5, h6, h7⟩ := h
  rw [h0, h1, h2, h3, h4, h5, h6, h7]
  simp only [if_true, Bool.false_eq_true, if_false]
  ring

theorem poly_xt (a : BitVec 8) : modulus ∣ X * poly a - poly (xt a) := by
  rw [X_mul_poly, xt, poly_xor]
  by_cases h : a.getLsbD 7
  · refine ⟨1, ?_⟩
    rw [if_pos h, if_pos h, poly_c3, modulus]
    have h2 : (2 : (ZMod 2)[X]) = 0 := CharTwo.two_eq_zero
    linear_combination (-X ^ 7 - X ^ 6 - X - 1) * h2
  · refine ⟨0, ?_⟩
    rw [if_neg h, if_neg h, poly_zero]
    ring

/-- Congruence modulo the modulus. -/
def Cong (p q : (ZMod 2)[X]) : Prop := modulus ∣ p - q

theorem Cong.refl (p : (ZMod 2)[X]) : Cong p p := by simp [Cong]

theorem Cong.trans {p q r : (ZMod 2)[X]} (h : Cong p q) (h' : Cong q r) : Cong p r := by
  have := dvd_add h h'
  rwa [sub_add_sub_cancel] at this

theorem Cong.mul {p q : (ZMod 2)[X]} (h : Cong p q) (r : (ZMod 2)[X]) : Cong (r * p) (r * q) := by
  have := Dvd.dvd.mul_left h r
  rwa [mul_sub] at this

theorem Cong.add {p q p' q' : (ZMod 2)[X]} (h : Cong p q) (h' : Cong p' q') :
    Cong (p + p') (q + q') := by
  have := dvd_add h h'
  rwa [show p - q + (p' - q') = p + p' - (q + q') by ring] at this

theorem Cong.xt {r : (ZMod 2)[X]} {a : BitVec 8} (h : Cong r (poly a)) :
    Cong (X * r) (poly (xt a)) := (h.mul X).trans (poly_xt a)

theorem Cong.ite {p q : (ZMod 2)[X]} (h : Cong p q) (c : Bool) :
    Cong (if c then p else 0) (if c then q else 0) := by
  cases c
  · exact Cong.refl 0
  · exact h

theorem poly_ite (c : Bool) (a : BitVec 8) :
    poly (if c then a else 0) = if c then poly a else 0 := by
  cases c
  · exact poly_zero
  · rfl

theorem poly_gmul_cong (a b : BitVec 8) : Cong (poly a * poly b) (poly (Kuz.gmul a b)) := by
  have h0 : Cong (poly a) (poly a) := Cong.refl _
  have h1 := h0.xt
  have h2 := h1.xt
  have h3 := h2.xt
  have h4 := h3.xt
  have h5 := h4.xt
  have h6 := h5.xt
  have h7 := h6.xt
  rw [gmul_sum]
  simp only [poly_xor, poly_ite]
  have := (((((((h0.ite (b.getLsbD 0)).add (h1.ite (b.getLsbD 1))).add (h2.ite (b.getLsbD 2))).add
    (h3.ite (b.getLsbD 3))).add (h4.ite (b.getLsbD 4))).add (h5.ite (b.getLsbD 5))).add
    (h6.ite (b.getLsbD 6))).add (h7.ite (b.getLsbD 7))
  refine Cong.trans ?_ this
  have e : ∀ (c : Bool) (p q : (ZMod 2)[X]), q * (if c then p else 0) = if c then p * q else 0 := by
    intro c p q; cases c <;> simp [mul_comm]
  have : poly a * poly b = (((((((if b.getLsbD 0 then poly a else 0) +
      (if b.getLsbD 1 then X * poly a else 0)) + (if b.getLsbD 2 then X * (X * poly a) else 0)) +
      (if b.getLsbD 3 then X * (X * (X * poly a)) else 0)) +
      (if b.getLsbD 4 then X * (X * (X * (X * poly a))) else 0)) +
      (if b.getLsbD 5 then X * (X * (X * (X * (X * poly a)))) else 0)) +
      (if b.getLsbD 6 then X * (X * (X * (X * (X * (X * poly a))))) else 0)) +
      (if b.getLsbD 7 then X * (X * (X * (X * (X * (X * (X * poly a)))))) else 0) := by
    conv => lhs; rw [poly.eq_1 b]
    simp only [Finset.sum_range_succ, Finset.sum_range_zero, zero_add, mul_add, e, pow_succ, pow_zero,
      one_mul]
    ring_nf
  rw [this]
  exact Cong.refl _

theorem poly_gmul (a b : BitVec 8) : poly (Kuz.gmul a b) = (poly a * poly b) %ₘ modulus := by
  have h := poly_gmul_cong a b
  rw [modByMonic_eq_of_dvd_sub modulus_monic h]
  exact ((modByMonic_eq_self_iff modulus_monic).2 (poly_degree _)).symm

end Goost
