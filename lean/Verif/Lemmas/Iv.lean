import Verif.Lemmas.Reuse
import Verif.Lemmas.Imit
/-
Cipher feedback of one message with two initialization vectors.
-/
namespace Goost
open Spec Spec.Magma Spec.Modes Goost.Magma

theorem getD_append_left' (R l : List W64) (i : Nat) (h : i < R.length) :
    (R ++ l).getD i 0 = R.getD i 0 := by
  rw [List.getD_eq_getElem?_getD, List.getD_eq_getElem?_getD, List.getElem?_append_left h]

theorem getD_append_right' (R l : List W64) (i : Nat) (h : R.length ≤ i) :
    (R ++ l).getD i 0 = l.getD (i - R.length) 0 := by
  rw [List.getD_eq_getElem?_getD, List.getD_eq_getElem?_getD, List.getElem?_append_right h]

/-- One message encrypted from two registers of the same length `k`: block `i` of the ciphertexts is the
same exactly if the blocks `i % k` of the registers are. -/
theorem cfbEnc_block_iff (E : W64 → W64) (hE : ∀ x y, E x = E y → x = y) (R R' p : List W64)
    (hR : R ≠ []) (hl : R.length = R'.length) (i : Nat) (hi : i < p.length) :
    (cfbEnc E R p)[i]? = (cfbEnc E R' p)[i]? ↔
      R.getD (i % R.length) 0 = R'.getD (i % R.length) 0 := by
  have hpos := List.length_pos_iff.2 hR
  have hR' : R' ≠ [] := List.length_pos_iff.1 (by omega)
  induction i using Nat.strongRecOn with
  | ind i ih =>
    rw [cfbEnc_getElem? E R p hR, cfbEnc_getElem? E R' p hR', List.getElem?_eq_getElem hi]
    simp only [Option.map_some, Option.some.injEq]
    have key : ∀ x a b : W64, x ^^^ E a = x ^^^ E b ↔ a = b := by
      intro x a b
      constructor
      · intro h
        exact hE _ _ (by simpa [← BitVec.xor_assoc] using congrArg (x ^^^ ·) h)
      · intro h; rw [h]
    rw [key]
    by_cases h : i < R.length
    · rw [getD_append_left' _ _ _ h, getD_append_left' _ _ _ (by omega), Nat.mod_eq_of_lt h]
    · have hi' := ih (i - R.length) (by omega) (by omega)
      rw [getD_append_right' _ _ _ (by omega), getD_append_right' _ _ _ (by omega), ← hl,
        Nat.mod_eq_sub_mod (by omega)]
      refine Iff.trans ?_ hi'
      have l1 : i - R.length < (cfbEnc E R p).length := by rw [cfbEnc_length _ _ _ hR]; omega
      have l2 : i - R.length < (cfbEnc E R' p).length := by rw [cfbEnc_length _ _ _ hR']; omega
      rw [List.getD_eq_getElem?_getD, List.getD_eq_getElem?_getD, List.getElem?_eq_getElem l1,
        List.getElem?_eq_getElem l2]
      simp

/-- One ciphertext decrypted from two registers of the same length: block `i` of the results is the same
exactly if it is after the register or the blocks `i` of the registers are the same. -/
theorem cfbDec_block_iff (E : W64 → W64) (hE : ∀ x y, E x = E y → x = y) (R R' c : List W64)
    (hR : R ≠ []) (hl : R.length = R'.length) (i : Nat) (hi : i < c.length) :
    (cfbDec E R c)[i]? = (cfbDec E R' c)[i]? ↔
      (i < R.length → R.getD i 0 = R'.getD i 0) := by
  have hpos := List.length_pos_iff.2 hR
  have hR' : R' ≠ [] := List.length_pos_iff.1 (by omega)
  rw [cfbDec_getElem? E R c hR, cfbDec_getElem? E R' c hR', List.getElem?_eq_getElem hi]
  simp only [Option.map_some, Option.some.injEq]
  by_cases h : i < R.length
  · rw [getD_append_left' _ _ _ h, getD_append_left' _ _ _ (by omega)]
    constructor
    · intro e _
      exact hE _ _ (by simpa [← BitVec.xor_assoc] using congrArg (c[i] ^^^ ·) e)
    · intro e; rw [e h]
  · rw [getD_append_right' _ _ _ (by omega), getD_append_right' _ _ _ (by omega), ← hl]
    simp [h]

/-- Blocks of byte strings and of lists of blocks. -/
theorem unblocks64_block_iff (c c' : List W64) (i : Nat) (h : i < c.length) (h' : i < c'.length) :
    ((unblocks64 c).drop (8 * i)).take 8 = ((unblocks64 c').drop (8 * i)).take 8 ↔ c[i]? = c'[i]? := by
  have g := blocks64_getElem (unblocks64 c) i (by rw [unblocks64_length]; omega)
  have g' := blocks64_getElem (unblocks64 c') i (by rw [unblocks64_length]; omega)
  rw [blocks64_unblocks64] at g g'
  rw [g, g']
  have len8 : ∀ l : List W64, i < l.length → (((unblocks64 l).drop (8 * i)).take 8).length = 8 := by
    intro l hl; rw [List.length_take, List.length_drop, unblocks64_length]; omega
  constructor
  · intro e; rw [e]
  · intro e; exact block64_inj (len8 c h) (len8 c' h') (Option.some.inj e)

end Goost
