import Verif.Lemmas.TestSupport
import Verif.Spec.Magma
/-
Lemmas on texts of hexadecimal digits that write the same number.
-/
namespace Goost
open Spec

private theorem hex_upper {c : Char} (h : (hexDigit c).isSome) :
    c.toUpper = "0123456789ABCDEF".toList.getD ((hexDigit c).getD 0) '0' :=
  hex_all (P := fun c => c.toUpper = "0123456789ABCDEF".toList.getD ((hexDigit c).getD 0) '0')
    (by decide) h

theorem hexNat_cons (c : Char) (s : List Char) :
    hexNat (c :: s) = (hexDigit c).getD 0 * 16 ^ s.length + hexNat s := by
  have := hexNat_append [c] s
  simpa [hexNat] using this

theorem hexNat_eq_iff {s u : List Char} (hs : IsHex s) (hu : IsHex u) (hl : s.length = u.length) :
    hexNat s = hexNat u ↔ upper s = upper u := by
  constructor
  · intro h
    induction s generalizing u with
    | nil => rw [List.eq_nil_of_length_eq_zero hl.symm]
    | cons c s ih =>
      match u with
      | d :: u =>
        have hl' : s.length = u.length := by simpa using hl
        rw [hexNat_cons, hexNat_cons, hl'] at h
        have h1 := hexNat_lt s
        have h2 := hexNat_lt u
        rw [hl'] at h1
        have hp : 0 < 16 ^ u.length := Nat.pow_pos (by omega)
        have e1 : (hexDigit c).getD 0 = (hexDigit d).getD 0 := by
          have := congrArg (· / 16 ^ u.length) h
          simp only [Nat.mul_comm _ (16 ^ u.length)] at this
          rwa [Nat.mul_add_div hp, Nat.mul_add_div hp, Nat.div_eq_of_lt h1, Nat.div_eq_of_lt h2] at this
        have e2 : hexNat s = hexNat u := by
          rw [e1] at h
          exact Nat.add_left_cancel h
        have := ih (fun x hx => hs x (by simp [hx])) (fun x hx => hu x (by simp [hx])) hl' e2
        simp only [upper, List.map_cons] at this ⊢
        rw [this, hex_upper (hs c (by simp)), hex_upper (hu d (by simp)), e1]
  · intro h
    rw [← TestSupport.hexNat_upper hs, h, TestSupport.hexNat_upper hu]

theorem ofNat_hexNat_eq_iff {w : Nat} {s u : List Char} (hs : IsHex s) (hu : IsHex u)
    (hl : s.length = u.length) (hw : 4 * s.length ≤ w) :
    BitVec.ofNat w (hexNat s) = BitVec.ofNat w (hexNat u) ↔ upper s = upper u := by
  rw [← hexNat_eq_iff hs hu hl]
  constructor
  · intro h
    have := congrArg BitVec.toNat h
    have b : ∀ t : List Char, t.length = s.length → hexNat t < 2 ^ w := by
      intro t ht
      refine Nat.lt_of_lt_of_le (hexNat_lt t) ?_
      rw [ht, show (16 : Nat) = 2 ^ 4 from rfl, ← Nat.pow_mul]
      exact Nat.pow_le_pow_right (by omega) hw
    rwa [BitVec.toNat_ofNat, BitVec.toNat_ofNat, Nat.mod_eq_of_lt (b s rfl),
      Nat.mod_eq_of_lt (b u hl.symm)] at this
  · intro h
    rw [h]

theorem keyWords_inj {K K' : BitVec 256}
    (h : ∀ i : Fin 8, Spec.Magma.keyWord K i = Spec.Magma.keyWord K' i) : K = K' := by
  apply BitVec.eq_of_getLsbD_eq
  intro n hn
  have := congrArg (fun x : BitVec 32 => x.getLsbD (n % 32)) (h ⟨7 - n / 32, by omega⟩)
  simp only [Spec.Magma.keyWord, BitVec.getLsbD_extractLsb'] at this
  rwa [show 32 * (7 - (7 - n / 32)) + n % 32 = n by omega,
    show decide (n % 32 < 32) = true by simp; omega, Bool.true_and, Bool.true_and] at this

end Goost
