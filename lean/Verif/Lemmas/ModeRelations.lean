import Verif.Spec.Alternate
import Verif.Spec.Modes
/-
Lemmas for C98: cipher feedback with two registers is two interleaved streams, cipher feedback in
terms of the codebook, and layers of counter mode.
-/
namespace Goost
open Spec Spec.Modes
variable {n : Nat}

theorem evens_getElem? {α : Type} (l : List α) : ∀ i, (evens l)[i]? = l[2 * i]? := by
  induction l using evens.induct with
  | case1 a b r ih =>
    intro i
    cases i with
    | zero => simp [evens]
    | succ i => simp [evens, ih, show 2 * (i + 1) = 2 * i + 1 + 1 by omega]
  | case2 a =>
    intro i
    cases i with
    | zero => simp [evens]
    | succ i => simp [evens]
  | case3 => simp [evens]

theorem odds_getElem? {α : Type} (l : List α) : ∀ i, (odds l)[i]? = l[2 * i + 1]? := by
  induction l using evens.induct with
  | case1 a b r ih =>
    intro i
    cases i with
    | zero => simp [odds]
    | succ i => simp [odds, ih, show 2 * (i + 1) = 2 * i + 1 + 1 by omega]
  | case2 a => simp [odds]
  | case3 => simp [odds]

theorem cfbEnc_evens (E : BitVec n → BitVec n) (p : List (BitVec n)) : ∀ l r,
    evens (cfbEnc E [l, r] p) = cfbEnc E [l] (evens p) := by
  induction p using evens.induct with
  | case1 a b p ih => intro l r; simp [cfbEnc, evens, ih]
  | case2 a => intro l r; simp [cfbEnc, evens]
  | case3 => intro l r; simp [cfbEnc, evens]

theorem cfbEnc_odds (E : BitVec n → BitVec n) (p : List (BitVec n)) : ∀ l r,
    odds (cfbEnc E [l, r] p) = cfbEnc E [r] (odds p) := by
  induction p using evens.induct with
  | case1 a b p ih => intro l r; simp [cfbEnc, odds, ih]
  | case2 a => intro l r; simp [cfbEnc, odds]
  | case3 => intro l r; simp [cfbEnc, odds]

theorem cfbDec_evens (E : BitVec n → BitVec n) (p : List (BitVec n)) : ∀ l r,
    evens (cfbDec E [l, r] p) = cfbDec E [l] (evens p) := by
  induction p using evens.induct with
  | case1 a b p ih => intro l r; simp [cfbDec, evens, ih]
  | case2 a => intro l r; simp [cfbDec, evens]
  | case3 => intro l r; simp [cfbDec, evens]

theorem cfbDec_odds (E : BitVec n → BitVec n) (p : List (BitVec n)) : ∀ l r,
    odds (cfbDec E [l, r] p) = cfbDec E [r] (odds p) := by
  induction p using evens.induct with
  | case1 a b p ih => intro l r; simp [cfbDec, odds, ih]
  | case2 a => intro l r; simp [cfbDec, odds]
  | case3 => intro l r; simp [cfbDec, odds]

/-- Cipher feedback in terms of the codebook: the message XOR the encryption of the register followed
by the ciphertext. -/
theorem cfbEnc_eq_ecb (E : BitVec n → BitVec n) (p : List (BitVec n)) : ∀ r R,
    cfbEnc E (r :: R) p = List.zipWith (· ^^^ ·) p (ecb E (r :: R ++ cfbEnc E (r :: R) p)) := by
  induction p with
  | nil => intro r R; simp [cfbEnc]
  | cons a p ih =>
    intro r R
    simp only [cfbEnc, ecb, List.cons_append, List.map_cons, List.zipWith_cons_cons]
    refine congrArg _ ?_
    cases R with
    | nil => exact ih _ _
    | cons x R =>
      have := ih x (R ++ [a ^^^ E r])
      simp only [ecb, List.cons_append, List.append_assoc, List.nil_append] at this
      simpa only [List.cons_append] using this

theorem ctr_ctr_comm {k : Nat} (E F : BitVec (k + k) → BitVec (k + k)) (iv iv' : BitVec k)
    (p : List (BitVec (k + k))) : ctr E iv (ctr F iv' p) = ctr F iv' (ctr E iv p) := by
  unfold ctr
  apply List.ext_getElem?
  intro i
  simp only [List.getElem?_mapIdx, Option.map_map]
  cases p[i]? with
  | none => rfl
  | some x =>
    simp only [Option.map_some, Function.comp, BitVec.xor_assoc]
    rw [BitVec.xor_comm (F _)]

end Goost
