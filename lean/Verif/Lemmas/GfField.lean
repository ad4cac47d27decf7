import Mathlib.RingTheory.AdjoinRoot
import Mathlib.LinearAlgebra.Lagrange
import Verif.Lemmas.Gf
/-
The field of bytes, and polynomials over it: a sequence of bytes that satisfies the recurrence of the
linear transformation is the values of a polynomial of degree below 16, up to factors.
-/
namespace Goost
open Polynomial Spec.Gf

/-- GF(2)[x] / (x⁸ + x⁷ + x⁶ + x + 1). -/
noncomputable abbrev GF := AdjoinRoot modulus

/-- A byte as an element of the field. -/
noncomputable def gf (a : BitVec 8) : GF := AdjoinRoot.mk modulus (poly a)

theorem gf_xor (a b : BitVec 8) : gf (a ^^^ b) = gf a + gf b := by
  rw [gf, poly_xor, map_add]; rfl

theorem gf_gmul (a b : BitVec 8) : gf (Kuz.gmul a b) = gf a * gf b := by
  rw [gf, gf, gf, ← map_mul, eq_comm, AdjoinRoot.mk_eq_mk]
  exact poly_gmul_cong a b

theorem gf_zero : gf 0 = 0 := by rw [gf, poly_zero, map_zero]

theorem poly_one : poly 1 = 1 := by
  rw [poly]
  simp only [Finset.sum_range_succ, Finset.sum_range_zero]
  simp

theorem poly_two : poly 2 = X := by
  rw [poly]
  simp only [Finset.sum_range_succ, Finset.sum_range_zero]
  simp

theorem gf_one : gf 1 = 1 := by rw [gf, poly_one, map_one]

theorem gf_eq_zero {a : BitVec 8} (h : gf a = 0) : a = 0 := by
  rw [gf, AdjoinRoot.mk_eq_zero] at h
  have : poly a = 0 := by
    by_contra hne
    exact modulus_monic.not_dvd_of_degree_lt hne (poly_degree a) h
  exact poly_injective (this.trans poly_zero.symm)

theorem gf_injective {a b : BitVec 8} (h : gf a = gf b) : a = b := by
  have h0 : gf (a ^^^ b) = 0 := by
    rw [gf_xor, h, ← gf_xor, BitVec.xor_self]; exact gf_zero
  exact BitVec.xor_eq_zero_iff.1 (gf_eq_zero h0)

theorem gf_surjective (x : GF) : ∃ a, gf a = x := by
  induction x using AdjoinRoot.induction_on with
  | ih p =>
    induction p using Polynomial.induction_on with
    | C a =>
      fin_cases a
      · exact ⟨0, by rw [gf_zero]; exact ((congrArg _ C_0).trans (map_zero _)).symm⟩
      · exact ⟨1, by rw [gf_one]; exact ((congrArg _ C_1).trans (map_one _)).symm⟩
    | add p q hp hq =>
      obtain ⟨a, ha⟩ := hp
      obtain ⟨b, hb⟩ := hq
      exact ⟨a ^^^ b, by rw [gf_xor, ha, hb, map_add]⟩
    | monomial n a h =>
      obtain ⟨b, hb⟩ := h
      refine ⟨Kuz.gmul b 2, ?_⟩
      rw [gf_gmul, hb, gf, poly_two, ← map_mul, pow_succ, mul_assoc]

theorem gf_isField : IsField GF where
  exists_pair_ne := ⟨gf 0, gf 1, fun h => absurd (gf_injective h) (by decide)⟩
  mul_comm := mul_comm
  mul_inv_cancel := by
    intro x hx
    obtain ⟨a, rfl⟩ := gf_surjective x
    rcases gmul_inverse a with h | h
    · exact absurd (by rw [h, gf_zero]) hx
    · exact ⟨_, by rw [← gf_gmul, h, gf_one]⟩

noncomputable instance : Field GF := gf_isField.toField

end Goost
