import Verif.Lemmas.TwoRounds
import Verif.Lemmas.Sbox
import Verif.Lemmas.Keys
/-
Helper lemmas: differences in the rounds of the 64-bit cipher.
-/
namespace Goost.Differences
open Spec Spec.Magma Goost.Magma

/-! ### One round -/

theorem row_differences : ∀ (i : Fin 8) (a b : BitVec 4), a ≠ 0 →
    ((List.range 16).countP fun n => Spec.Magma.pi i (BitVec.ofNat 4 n) ^^^ Spec.Magma.pi i (BitVec.ofNat 4 n + a) = b) ≤ 4 := by
  decide +kernel

theorem card_nibbles (p : BitVec 4 → Prop) [DecidablePred p] :
    (Finset.univ.filter p).card = (List.range 16).countP fun n => p (BitVec.ofNat 4 n) := by
  have : (Finset.univ.filter p).card = ((Finset.range 16).filter fun n => p (BitVec.ofNat 4 n)).card := by
    refine Finset.card_nbij' BitVec.toNat (BitVec.ofNat 4) ?_ ?_ ?_ ?_
    · intro x hx
      have := x.isLt
      simp only [Finset.coe_filter, Finset.mem_univ, true_and, Set.mem_ofPred_eq, Finset.mem_range, BitVec.ofNat_toNat,
        BitVec.setWidth_eq] at hx ⊢
      exact ⟨this, hx⟩
    · intro x hx
      simp only [Finset.coe_filter, Finset.mem_univ, true_and, Set.mem_ofPred_eq, Finset.mem_range] at hx ⊢
      exact hx.2
    · intro x _
      simp
    · intro x hx
      simp only [Finset.coe_filter, Set.mem_ofPred_eq, Finset.mem_range] at hx
      simp [Nat.mod_eq_of_lt hx.1]
  rw [this, List.countP_eq_length_filter]
  rfl

theorem add_nibble (j Z D q : Nat) (hj : j < 8) (hq : D = 16 ^ j * q) :
    (Z + D) % 2 ^ 32 / 2 ^ (4 * j) % 2 ^ 4 = (Z / 2 ^ (4 * j) % 2 ^ 4 + D / 2 ^ (4 * j) % 2 ^ 4) % 2 ^ 4 := by
  subst hq
  interval_cases j <;> omega

theorem nibble_xor (a b : BitVec 32) (i : Fin 8) : nibble (a ^^^ b) i = nibble a i ^^^ nibble b i := by
  apply BitVec.eq_of_getLsbD_eq
  intro n hn
  simp [nibble, hn]

theorem rotate_xor (a b : BitVec 32) : (a ^^^ b).rotateLeft 11 = a.rotateLeft 11 ^^^ b.rotateLeft 11 := by
  apply BitVec.eq_of_getLsbD_eq
  intro n hn
  simp only [BitVec.getLsbD_rotateLeft, BitVec.getLsbD_xor]
  by_cases h : n < 11 % 32
  · simp [h]
  · simp [h, hn]

theorem lowest_nibble (δ : BitVec 32) (h : δ ≠ 0) : ∃ j : Fin 8, nibble δ j ≠ 0 ∧ ∀ z, nibble (z + δ) j = nibble z j + nibble δ j := by
  obtain ⟨j, hj, hmin⟩ : ∃ j : Fin 8, nibble δ j ≠ 0 ∧ ∀ i < j, nibble δ i = 0 := by
    have hex : ∃ j : Fin 8, nibble δ j ≠ 0 := by
      by_contra hn
      refine h (nibble_ext fun i => ?_)
      have := not_exists.1 hn i
      rw [not_not.1 this]
      simp [nibble]
    obtain ⟨j, hj, hm⟩ := WellFounded.has_min (r := fun a b : Fin 8 => a < b) wellFounded_lt {j | nibble δ j ≠ 0} hex
    exact ⟨j, hj, fun i hi => not_not.1 fun hne => hm i hne hi⟩
  refine ⟨j, hj, fun z => ?_⟩
  have key : ∀ i : Nat, i ≤ j.val → 16 ^ i ∣ δ.toNat := by
    intro i
    induction i with
    | zero => intro _; simp
    | succ i ih =>
      intro hi
      obtain ⟨q, hq⟩ := ih (by omega)
      have := congrArg BitVec.toNat (hmin ⟨i, by omega⟩ (Fin.lt_def.2 (by simp only []; omega)))
      simp only [nibble, BitVec.extractLsb'_toNat, Nat.shiftRight_eq_div_pow] at this
      rw [pow_mul, show 2 ^ 4 = 16 by rfl, hq, Nat.mul_div_cancel_left _ (Nat.pow_pos (by norm_num))] at this
      obtain ⟨r, hr⟩ := Nat.dvd_of_mod_eq_zero (show q % 16 = 0 from this)
      exact ⟨r, by rw [hq, hr, pow_succ, mul_assoc]⟩
  have hj8 := j.isLt
  obtain ⟨q, hq⟩ := key j.val le_rfl
  apply BitVec.eq_of_toNat_eq
  simp only [nibble, BitVec.extractLsb'_toNat, Nat.shiftRight_eq_div_pow, BitVec.toNat_add]
  exact add_nibble _ _ _ _ hj8 hq

theorem rotate_inj (a b : BitVec 32) (h : a.rotateLeft 11 = b.rotateLeft 11) : a = b := by
  apply BitVec.eq_of_getLsbD_eq
  intro i hi
  have := congrArg (fun x => x.getLsbD ((i + 11) % 32)) h
  simp only [BitVec.getLsbD_rotateLeft] at this
  by_cases h1 : i < 21
  · rw [show (i + 11) % 32 = i + 11 by omega] at this
    simpa [show ¬ i + 11 < 11 by omega, show i + 11 < 32 by omega] using this
  · rw [show (i + 11) % 32 = i - 21 by omega] at this
    simpa [show i - 21 < 11 by omega, show 32 - 11 + (i - 21) = i by omega, show 21 + (i - 21) = i by omega] using this

theorem g_injective (k : BitVec 32) {x y : BitVec 32} (h : x ≠ y) : g Spec.Magma.pi k x ≠ g Spec.Magma.pi k y := by
  intro e
  have e := rotate_inj _ _ e
  refine h ((BitVec.add_left_inj k).1 (nibble_ext fun i => pi_injective i _ _ ?_))
  have := congrArg (fun u => nibble u i) e
  simpa only [nibble_t] using this

theorem word_nibbles : Function.Injective fun (z : BitVec 32) (i : Fin 8) => nibble z i := fun _ _ h =>
  nibble_ext fun i => congrFun h i

/-- At most a quarter of the key words give two different words a given difference in one round. -/
theorem g_differences (x y d : BitVec 32) (h : x ≠ y) :
    {k : BitVec 32 | g Spec.Magma.pi k x ^^^ g Spec.Magma.pi k y = d}.ncard ≤ 2 ^ 30 := by
  obtain ⟨F, mF, hF⟩ := exists_finset fun k : BitVec 32 => g Spec.Magma.pi k x ^^^ g Spec.Magma.pi k y = d
  rw [hF]
  by_cases h0 : F = ∅
  · rw [h0, Finset.card_empty]; exact Nat.zero_le _
  obtain ⟨k₀, hk₀⟩ := Finset.nonempty_iff_ne_empty.2 h0
  obtain ⟨j, hj, hadd⟩ := lowest_nibble (y - x) fun e => h (by
    have := congrArg (· + x) e
    simpa [BitVec.sub_add_cancel] using this.symm)
  obtain ⟨b, hb⟩ : ∃ b, b = nibble (t Spec.Magma.pi (x + k₀) ^^^ t Spec.Magma.pi (y + k₀)) j := ⟨_, rfl⟩
  let T : Fin 8 → Finset (BitVec 4) := fun i => if i = j then
    Finset.univ.filter fun n => Spec.Magma.pi j n ^^^ Spec.Magma.pi j (n + nibble (y - x) j) = b else Finset.univ
  have hmap : ∀ k ∈ F, (fun i => nibble (x + k) i) ∈ Fintype.piFinset T := by
    intro k hk
    rw [Fintype.mem_piFinset]
    intro i
    by_cases hi : i = j
    · subst hi
      have e : t Spec.Magma.pi (x + k) ^^^ t Spec.Magma.pi (y + k) = t Spec.Magma.pi (x + k₀) ^^^ t Spec.Magma.pi (y + k₀) := by
        apply rotate_inj
        rw [rotate_xor, rotate_xor]
        exact ((mF k).1 hk).trans ((mF k₀).1 hk₀).symm
      simp only [T, if_pos, Finset.mem_filter, Finset.mem_univ, true_and]
      rw [← hadd, hb, ← e, nibble_xor, nibble_t, nibble_t]
      congr 3
      rw [BitVec.add_assoc, BitVec.add_comm k, ← BitVec.add_assoc, BitVec.add_comm x, BitVec.sub_add_cancel]
    · simp only [T, if_neg hi, Finset.mem_univ]
  have hcard : F.card ≤ ∏ i, (T i).card := by
    rw [← Fintype.card_piFinset]
    refine Finset.card_le_card_of_injOn _ hmap ?_
    intro k _ k' _ e
    exact (BitVec.add_right_inj x).1 (word_nibbles e)
  have hT : ∀ i, (T i).card ≤ if i = j then 4 else 16 := by
    intro i
    by_cases hi : i = j
    · simp only [T, if_pos hi]
      rw [card_nibbles]
      exact row_differences j _ b hj
    · simp only [T, if_neg hi]
      rw [Finset.card_univ, card_bitVec]; norm_num
  refine le_trans hcard (le_trans (Finset.prod_le_prod' fun i _ => hT i) ?_)
  fin_cases j <;> decide

end Goost.Differences
