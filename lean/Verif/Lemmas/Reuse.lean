import Verif.Lemmas.Reads
/-
Cipher feedback of two messages with the same key and initialization vector.
-/
namespace Goost
open Spec Spec.Magma Spec.Modes Goost.Magma

theorem cfbEnc_take (E : W64 → W64) (R p : List W64) (n : Nat) :
    cfbEnc E R (p.take n) = (cfbEnc E R p).take n := by
  induction p generalizing R n with
  | nil => cases R <;> simp [cfbEnc]
  | cons x p ih =>
    cases n with
    | zero => cases R <;> simp [cfbEnc]
    | succ n =>
      cases R with
      | nil => simp [cfbEnc]
      | cons r R => simp only [List.take_succ_cons, cfbEnc, ih]

theorem cfbEnc_inj (E : W64 → W64) (R p q : List W64) (hR : R ≠ []) (h : cfbEnc E R p = cfbEnc E R q) :
    p = q := by
  rw [← cfbDec_cfbEnc E R p hR, h, cfbDec_cfbEnc E R q hR]

theorem blocks64_take (d : List Byte) (n : Nat) : blocks64 (d.take (8 * n)) = (blocks64 d).take n := by
  induction n generalizing d with
  | zero => simp [blocks64, chunks8]
  | succ n ih =>
    by_cases h : d.length < 8
    · rw [List.take_of_length_le (by omega), blocks64_short h]; rfl
    · have e : d = d.take 8 ++ d.drop 8 := (List.take_append_drop 8 d).symm
      have h8 : (d.take 8).length = 8 := by rw [List.length_take]; omega
      have e2 : d.take (8 * (n + 1)) = d.take 8 ++ (d.drop 8).take (8 * n) := by
        rw [Nat.mul_add, Nat.add_comm, Nat.mul_one, List.take_add]
      rw [e2, blocks64_append h8, ih]
      conv => rhs; rw [e, blocks64_append h8]
      rfl

theorem blocks64_getElem (d : List Byte) (n : Nat) (h : 8 * n + 8 ≤ d.length) :
    (blocks64 d)[n]? = some (block64 ((d.drop (8 * n)).take 8)) := by
  induction n generalizing d with
  | zero =>
    have h8 : (d.take 8).length = 8 := by rw [List.length_take]; omega
    conv => lhs; rw [show d = d.take 8 ++ d.drop 8 from (List.take_append_drop 8 d).symm,
      blocks64_append h8]
    rfl
  | succ n ih =>
    have h8 : (d.take 8).length = 8 := by rw [List.length_take]; omega
    conv => lhs; rw [show d = d.take 8 ++ d.drop 8 from (List.take_append_drop 8 d).symm,
      blocks64_append h8]
    rw [List.getElem?_cons_succ, ih _ (by rw [List.length_drop]; omega), List.drop_drop]
    congr 4
    omega

theorem cfbEnc_getElem? (E : W64 → W64) (R p : List W64) (hR : R ≠ []) (i : Nat) :
    (cfbEnc E R p)[i]? = p[i]?.map fun x => x ^^^ E ((R ++ cfbEnc E R p).getD i 0) := by
  have h := cfbDec_getElem? E R (cfbEnc E R p) hR i
  rw [cfbDec_cfbEnc E R p hR] at h
  rw [h]
  cases (cfbEnc E R p)[i]? with
  | none => rfl
  | some x => simp [BitVec.xor_assoc]

/-- The ciphertexts of two messages agree in their first `n` blocks exactly if the messages do. -/
theorem cfb_common_prefix (E : W64 → W64) (R : List W64) (hR : R ≠ []) (d1 d2 : List Byte) (n : Nat)
    (h1 : 8 * n ≤ d1.length) (h2 : 8 * n ≤ d2.length) :
    (unblocks64 (cfbEnc E R (blocks64 d1))).take (8 * n) =
        (unblocks64 (cfbEnc E R (blocks64 d2))).take (8 * n) ↔
      d1.take (8 * n) = d2.take (8 * n) := by
  have t : ∀ d : List Byte, 8 * n ≤ d.length → (d.take (8 * n)).length % 8 = 0 := by
    intro d h; rw [List.length_take]; omega
  rw [← unblocks64_take, ← unblocks64_take, ← cfbEnc_take, ← cfbEnc_take, ← blocks64_take, ← blocks64_take]
  constructor
  · intro h
    have h := congrArg blocks64 h
    rw [blocks64_unblocks64, blocks64_unblocks64] at h
    have h := congrArg unblocks64 (cfbEnc_inj E R _ _ hR h)
    rwa [unblocks64_blocks64_whole (t d1 h1), unblocks64_blocks64_whole (t d2 h2)] at h
  · intro h
    rw [h]

/-- In the first block in which two messages may differ, their difference shows in the ciphertexts. -/
theorem cfb_first_difference (E : W64 → W64) (R : List W64) (hR : R ≠ []) (d1 d2 : List Byte) (n : Nat)
    (h1 : 8 * n + 8 ≤ d1.length) (h2 : 8 * n + 8 ≤ d2.length)
    (h : d1.take (8 * n) = d2.take (8 * n)) :
    block64 (((unblocks64 (cfbEnc E R (blocks64 d1))).drop (8 * n)).take 8) ^^^
        block64 (((unblocks64 (cfbEnc E R (blocks64 d2))).drop (8 * n)).take 8) =
      block64 ((d1.drop (8 * n)).take 8) ^^^ block64 ((d2.drop (8 * n)).take 8) := by
  have hc : (cfbEnc E R (blocks64 d1)).take n = (cfbEnc E R (blocks64 d2)).take n := by
    rw [← cfbEnc_take, ← cfbEnc_take, ← blocks64_take, ← blocks64_take, h]
  have len : ∀ d, (unblocks64 (cfbEnc E R (blocks64 d))).length = 8 * (d.length / 8) := by
    intro d
    rw [unblocks64_length, cfbEnc_length _ _ _ hR, blocks64_length]
  have g1 := cfbEnc_getElem? E R (blocks64 d1) hR n
  have g2 := cfbEnc_getElem? E R (blocks64 d2) hR n
  rw [blocks64_getElem d1 n h1] at g1
  rw [blocks64_getElem d2 n h2] at g2
  have u1 := blocks64_getElem (unblocks64 (cfbEnc E R (blocks64 d1))) n (by rw [len]; omega)
  have u2 := blocks64_getElem (unblocks64 (cfbEnc E R (blocks64 d2))) n (by rw [len]; omega)
  rw [blocks64_unblocks64, g1] at u1
  rw [blocks64_unblocks64, g2] at u2
  have hreg : (R ++ cfbEnc E R (blocks64 d1)).getD n 0 = (R ++ cfbEnc E R (blocks64 d2)).getD n 0 := by
    have hpos := List.length_pos_iff.2 hR
    rw [List.getD_eq_getElem?_getD, List.getD_eq_getElem?_getD]
    by_cases hn : n < R.length
    · rw [List.getElem?_append_left hn, List.getElem?_append_left hn]
    · rw [List.getElem?_append_right (by omega), List.getElem?_append_right (by omega),
        ← List.getElem?_take_of_lt (show n - R.length < n by omega), hc,
        List.getElem?_take_of_lt (by omega)]
  simp only [Option.map_some, Option.some.injEq] at u1 u2
  rw [← u1, ← u2, hreg]
  generalize E _ = e
  rw [BitVec.xor_comm (block64 ((d2.drop (8 * n)).take 8)) e, BitVec.xor_assoc,
    ← BitVec.xor_assoc e e, BitVec.xor_self, BitVec.zero_xor]

end Goost
