import Verif.Lemmas.Codes
import Verif.Lemmas.Reuse
/-
Keys that differ in the highest bits of all words: what this does to the rounds, to cipher feedback and to the chain of
the authentication code.
-/
namespace Goost
open Spec Spec.Magma Spec.Modes

/-- The highest bits of both halves of a block. -/
def tops : W64 := 0x8000000080000000

/-- Adding words that both have the highest bit changed. -/
theorem add_top (x k : W32) : (x ^^^ 0x80000000) + (k ^^^ 0x80000000) = x + k := by
  have h : ∀ x : W32, x ^^^ 0x80000000 = x + 0x80000000 := by
    intro x
    apply BitVec.eq_of_toNat_eq
    rw [BitVec.toNat_xor, BitVec.toNat_add]
    have h1 := Nat.xor_mod_two_pow (a := x.toNat) (b := 2 ^ 31) (n := 31)
    have h2 := Nat.xor_div_two_pow (a := x.toNat) (b := 2 ^ 31) (n := 31)
    have e : (0x80000000 : W32).toNat = 2 ^ 31 := rfl
    have hx := x.isLt
    rw [e]
    rw [Nat.mod_self, Nat.xor_zero] at h1
    rw [Nat.div_self (by decide)] at h2
    have : x.toNat / 2 ^ 31 = 0 ∨ x.toNat / 2 ^ 31 = 1 := by omega
    rcases this with h | h <;> rw [h] at h2 <;> simp only [Nat.zero_xor, Nat.xor_self] at h2 <;> omega
  rw [h, h, BitVec.add_assoc, BitVec.add_comm k, ← BitVec.add_assoc (0x80000000 : W32)]
  show x + (0#32 + k) = x + k
  rw [BitVec.zero_add]

theorem halves_tops (x : W64) : halves (x ^^^ tops) = ((halves x).1 ^^^ 0x80000000, (halves x).2 ^^^ 0x80000000) := by
  refine Prod.ext ?_ ?_ <;> simp only [halves, tops, BitVec.extractLsb'_xor] <;> rfl

theorem append_tops (a b : W32) : (a ^^^ 0x80000000) ++ (b ^^^ 0x80000000) = (a ++ b) ^^^ tops := by
  rw [show tops = (0x80000000 : W32) ++ (0x80000000 : W32) from rfl, BitVec.xor_append]

variable {f f' : Fin 8 → W32 → W32}

theorem rounds_tops (h : ∀ i v, f' i (v ^^^ 0x80000000) = f i v) (is : List (Fin 8)) (x : W32 × W32) :
    rounds (is.map f') (x.1 ^^^ 0x80000000, x.2 ^^^ 0x80000000) =
      ((rounds (is.map f) x).1 ^^^ 0x80000000, (rounds (is.map f) x).2 ^^^ 0x80000000) := by
  induction is generalizing x with
  | nil => rfl
  | cons i is ih =>
    simp only [List.map_cons, rounds, List.foldl_cons] at *
    rw [← ih]
    simp only [G, h, ← BitVec.xor_assoc]

theorem feistel_tops (h : ∀ i v, f' i (v ^^^ 0x80000000) = f i v) : ∀ (is : List (Fin 8)) (x : W32 × W32),
    feistel (is.map f') (x.1 ^^^ 0x80000000, x.2 ^^^ 0x80000000) = feistel (is.map f) x ^^^ tops
  | [], x => append_tops _ _
  | [i], x => by
    simp only [List.map_cons, List.map_nil, feistel, Gstar, h, ← BitVec.xor_assoc]
    exact append_tops _ _
  | i :: j :: is, x => by
    have := feistel_tops h (j :: is) (G (f i) x)
    simp only [List.map_cons, feistel] at *
    rw [← this]
    simp only [G, h, ← BitVec.xor_assoc]

theorem encF_tops (h : ∀ i v, f' i (v ^^^ 0x80000000) = f i v) (x : W64) : encF f' (x ^^^ tops) = encF f x ^^^ tops := by
  rw [encF, halves_tops, feistel_tops h]; rfl

theorem macStep_tops (h : ∀ i v, f' i (v ^^^ 0x80000000) = f i v) (x : W64) :
    macStep f' (x ^^^ tops) = macStep f x ^^^ tops := by
  have := rounds_tops h [0, 1, 2, 3, 4, 5, 6, 7, 0, 1, 2, 3, 4, 5, 6, 7] (halves x)
  simp only [macStep, halves_tops, this]
  exact append_tops _ _

/-- Cipher feedback with the highest bits of the register changed: they are changed in all of the ciphertext. -/
theorem cfbEnc_tops {E E' : W64 → W64} (h : ∀ x, E' (x ^^^ tops) = E x ^^^ tops) (R p : List W64) :
    cfbEnc E' (R.map (· ^^^ tops)) p = (cfbEnc E R p).map (· ^^^ tops) := by
  induction p generalizing R with
  | nil => cases R <;> rfl
  | cons x p ih =>
    cases R with
    | nil => rfl
    | cons r R =>
      simp only [List.map_cons, cfbEnc, h, ← BitVec.xor_assoc]
      rw [← ih]
      simp

/-- The chain with the highest bits of the starting value changed. -/
theorem chain_tops {E E' : W64 → W64} (h : ∀ x, E' (x ^^^ tops) = E x ^^^ tops) (c : W64) (p : List W64) :
    chain E' (c ^^^ tops) p = chain E c p ^^^ tops := by
  induction p generalizing c with
  | nil => rfl
  | cons x p ih => rw [chain_cons, chain_cons, ← BitVec.xor_assoc, h, ih]

end Goost
