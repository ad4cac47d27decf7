import Verif.Lemmas.Differences
/-
Parities in a round of the 128-bit cipher, and differences in two rounds.
-/
namespace Goost.Differences
open Spec.Kuz (Byte Block byte ofBytes differing S L LSX X parity)

/-! ### Differences in two rounds -/

theorem ncard_eq {α : Type} [Fintype α] [DecidableEq α] (p : α → Prop) [DecidablePred p] :
    {x | p x}.ncard = (Finset.univ.filter p).card := by
  rw [← Set.ncard_coe_finset]; simp

theorem differing_zero_right (a b : Block) : differing a b = differing (a ^^^ b) 0 := by
  rw [differing_sum, differing_sum]
  refine Finset.sum_congr rfl fun i _ => ?_
  have e : byte (0 : Block) i = 0 := by simp [byte]
  rw [byte_xor, e]
  by_cases h : byte a i = byte b i
  · rw [if_pos h, if_pos (show byte a i ^^^ byte b i = 0 from BitVec.xor_eq_zero_iff.2 h)]
  · rw [if_neg h, if_neg (show ¬ byte a i ^^^ byte b i = 0 from fun e => h (BitVec.xor_eq_zero_iff.1 e))]

set_option linter.constructorNameAsVariable false in
theorem two_rounds (v w d₁ d₂ : Block) (h : v ≠ w) :
    {k : Block × Block | LSX k.1 v ^^^ LSX k.1 w = d₁ ∧ LSX k.2 (LSX k.1 v) ^^^ LSX k.2 (LSX k.1 w) = d₂}.ncard * 2 ^ 85 ≤
      2 ^ 256 := by
  rw [ncard_eq]
  let F := Finset.univ.filter fun k : Block × Block =>
    LSX k.1 v ^^^ LSX k.1 w = d₁ ∧ LSX k.2 (LSX k.1 v) ^^^ LSX k.2 (LSX k.1 w) = d₂
  let A := Finset.univ.filter fun k : Block => LSX k v ^^^ LSX k w = d₁
  change F.card * 2 ^ 85 ≤ 2 ^ 256
  have hmap : ∀ k ∈ F, k.1 ∈ A := fun k hk => by
    simp only [F, A, Finset.mem_filter, Finset.mem_univ, true_and] at hk ⊢
    exact hk.1
  rw [Finset.card_eq_sum_card_fiberwise hmap]
  by_cases hA : A = ∅
  · rw [hA, Finset.sum_empty, Nat.zero_mul]; exact Nat.zero_le _
  obtain ⟨k₀, hk₀⟩ := Finset.nonempty_iff_ne_empty.2 hA
  have hn : 17 ≤ differing v w + differing d₁ 0 := by
    have := LSX_differing k₀ h
    rw [differing_zero_right (LSX k₀ v), (Finset.mem_filter.1 hk₀).2] at this
    exact this
  have hfib : ∀ k ∈ A, (F.filter fun x => x.1 = k).card * 32 ^ differing d₁ 0 ≤ 2 ^ 128 := by
    intro k hk
    have h1 := round_differences (LSX k v) (LSX k w) d₂
    rw [differing_zero_right, (Finset.mem_filter.1 hk).2, ncard_eq] at h1
    refine le_trans (Nat.mul_le_mul_right _ (Finset.card_le_card_of_injOn Prod.snd ?_ ?_)) h1
    · intro x hx
      simp only [F, Finset.coe_filter, Finset.mem_filter, Finset.mem_univ, true_and, Set.mem_ofPred_eq] at hx ⊢
      rw [← hx.2]; exact hx.1.2
    · intro x hx y hy e
      simp only [Finset.coe_filter, Set.mem_ofPred_eq] at hx hy
      exact Prod.ext (hx.2.trans hy.2.symm) e
  have h1 := round_differences v w d₁
  rw [ncard_eq] at h1
  change A.card * _ ≤ _ at h1
  have hp : 2 ^ 85 ≤ 32 ^ differing d₁ 0 * 32 ^ differing v w := by
    rw [← pow_add, show (32 : Nat) = 2 ^ 5 by norm_num, ← pow_mul]
    exact Nat.pow_le_pow_right (by omega) (by omega)
  calc (∑ k ∈ A, (F.filter fun x => x.1 = k).card) * 2 ^ 85
      ≤ (∑ k ∈ A, (F.filter fun x => x.1 = k).card) * (32 ^ differing d₁ 0 * 32 ^ differing v w) := Nat.mul_le_mul_left _ hp
    _ = (∑ k ∈ A, (F.filter fun x => x.1 = k).card * 32 ^ differing d₁ 0) * 32 ^ differing v w := by
        rw [← Finset.sum_mul, mul_assoc]
    _ ≤ (∑ _k ∈ A, 2 ^ 128) * 32 ^ differing v w := Nat.mul_le_mul_right _ (Finset.sum_le_sum hfib)
    _ = 2 ^ 128 * (A.card * 32 ^ differing v w) := by rw [Finset.sum_const, smul_eq_mul]; ring
    _ ≤ 2 ^ 128 * 2 ^ 128 := Nat.mul_le_mul_left _ h1
    _ = 2 ^ 256 := by norm_num

/-! ### Parities -/

/-- Minus one for `true`. -/
def sgn (b : Bool) : ℤ := if b then -1 else 1

theorem sgn_xor (a b : Bool) : sgn (a ^^ b) = sgn a * sgn b := by cases a <;> cases b <;> rfl

theorem sgn_odd (n : Nat) : sgn (n % 2 == 1) = (-1) ^ n := by
  rcases Nat.even_or_odd n with h | h
  · rw [h.neg_one_pow, Nat.even_iff.1 h]; rfl
  · rw [h.neg_one_pow, Nat.odd_iff.1 h]; rfl

theorem sgn_parity {n : Nat} (mask a : BitVec n) :
    sgn (parity mask a) = ∏ i ∈ Finset.range n, sgn (mask.getLsbD i && a.getLsbD i) := by
  rw [parity, sgn_odd, countP_range, ← Finset.prod_pow_eq_pow_sum]
  refine Finset.prod_congr rfl fun i _ => ?_
  cases mask.getLsbD i && a.getLsbD i <;> simp [sgn]

theorem sgn_inj {a b : Bool} (h : sgn a = sgn b) : a = b := by
  revert h; cases a <;> cases b <;> decide

theorem parity_xor {n : Nat} (mask a b : BitVec n) : parity mask (a ^^^ b) = (parity mask a ^^ parity mask b) := by
  apply sgn_inj
  rw [sgn_xor, sgn_parity, sgn_parity, sgn_parity, ← Finset.prod_mul_distrib]
  refine Finset.prod_congr rfl fun i _ => ?_
  rw [BitVec.getLsbD_xor, ← sgn_xor, Bool.and_xor_distrib_left]

theorem parity_zero_left {n : Nat} (a : BitVec n) : parity 0 a = false := by
  simp [parity]

theorem parity_zero_right {n : Nat} (a : BitVec n) : parity a 0 = false := by
  simp [parity]

theorem prod_bytes (f : Nat → ℤ) (k : Nat) :
    ∏ i ∈ Finset.range (8 * k), f i = ∏ i ∈ Finset.range k, ∏ j ∈ Finset.range 8, f (8 * i + j) := by
  induction k with
  | zero => simp
  | succ k ih => rw [Finset.prod_range_succ, ← ih, Nat.mul_succ, Finset.prod_range_add]

theorem parity_bytes (mask a : Block) : sgn (parity mask a) = ∏ i : Fin 16, sgn (parity (byte mask i) (byte a i)) := by
  rw [sgn_parity]
  refine (prod_bytes (fun i => sgn (mask.getLsbD i && a.getLsbD i)) 16).trans ?_
  rw [Finset.prod_range fun i => ∏ j ∈ Finset.range 8, sgn (mask.getLsbD (8 * i + j) && a.getLsbD (8 * i + j))]
  refine Finset.prod_congr rfl fun i _ => ?_
  rw [sgn_parity]
  refine Finset.prod_congr rfl fun j hj => ?_
  have hj := Finset.mem_range.1 hj
  simp only [byte, BitVec.getLsbD_extractLsb', hj, decide_true, Bool.true_and]

theorem sum_sgn {α : Type} [Fintype α] [DecidableEq α] (f g : α → Bool) :
    ∑ x, sgn (f x) * sgn (g x) = Fintype.card α - 2 * (Finset.univ.filter fun x => f x ≠ g x).card := by
  have e : ∀ x, sgn (f x) * sgn (g x) = 1 - 2 * (if f x ≠ g x then 1 else 0) := by
    intro x; cases f x <;> cases g x <;> rfl
  rw [Finset.sum_congr rfl fun x _ => e x, Finset.sum_sub_distrib, ← Finset.mul_sum, Finset.card_filter]
  simp

theorem card_bitVec (n : Nat) : Fintype.card (BitVec n) = 2 ^ n := by
  rw [Fintype.card_congr BitVec.equivFin.toEquiv, Fintype.card_fin]

theorem byte_sum (a b k : Byte) :
    |∑ y : Byte, sgn (parity b (Spec.Kuz.pi (k ^^^ y))) * sgn (parity a y)| * 32 ^ (if b = 0 then 0 else 1) ≤
      7 ^ (if b = 0 then 0 else 1) * 256 := by
  have e : ∑ y : Byte, sgn (parity b (Spec.Kuz.pi (k ^^^ y))) * sgn (parity a y) =
      sgn (parity a k) * ∑ z : Byte, sgn (parity b (Spec.Kuz.pi z)) * sgn (parity a z) := by
    rw [Finset.mul_sum]
    refine Finset.sum_bij' (fun y _ => k ^^^ y) (fun z _ => k ^^^ z) (by simp) (by simp) ?_ ?_ ?_
    · intro y _; rw [← BitVec.xor_assoc, BitVec.xor_self, BitVec.zero_xor]
    · intro y _; rw [← BitVec.xor_assoc, BitVec.xor_self, BitVec.zero_xor]
    · intro y _
      rw [parity_xor, sgn_xor]
      cases parity a k <;> cases parity a y <;> cases parity b (Spec.Kuz.pi (k ^^^ y)) <;> rfl
  rw [e, abs_mul, show |sgn (parity a k)| = 1 by cases parity a k <;> rfl, one_mul, sum_sgn, card_bitVec]
  by_cases hb : b = 0
  · rw [if_pos hb, pow_zero, pow_zero, mul_one, one_mul]
    have : (Finset.univ.filter fun x : Byte => parity b (Spec.Kuz.pi x) ≠ parity a x).card ≤ 256 := by
      have := Finset.card_le_univ (Finset.univ.filter fun x : Byte => parity b (Spec.Kuz.pi x) ≠ parity a x)
      rwa [card_bitVec] at this
    rw [abs_le]; constructor <;> push_cast <;> omega
  · rw [if_neg hb, pow_one, pow_one]
    have := pi_parities a b hb
    have h : |(((2 ^ 8 : Nat) : ℤ) - 2 * ((Finset.univ.filter fun x : Byte => parity b (Spec.Kuz.pi x) ≠ parity a x).card : ℤ))| ≤ 56 := by
      rw [abs_le]; constructor <;> push_cast <;> omega
    linarith

set_option maxRecDepth 10000 in
/-- Parities before and after the substitution. -/
theorem S_parities (k α β : Block) :
    |∑ x : Block, sgn (parity β (S (X k x))) * sgn (parity α x)| * 32 ^ differing β 0 ≤ 7 ^ differing β 0 * 2 ^ 128 := by
  have e : ∑ x : Block, sgn (parity β (S (X k x))) * sgn (parity α x) =
      ∏ i : Fin 16, ∑ y : Byte, sgn (parity (byte β i) (Spec.Kuz.pi (byte k i ^^^ y))) * sgn (parity (byte α i) y) := by
    rw [Finset.prod_univ_sum, Fintype.piFinset_univ]
    refine Fintype.sum_equiv bytes _ _ fun x => ?_
    rw [parity_bytes, parity_bytes, ← Finset.prod_mul_distrib]
    refine Finset.prod_congr rfl fun i _ => ?_
    rw [S, byte_ofBytes _ i.isLt, X, byte_xor]
    rfl
  have hd : differing β 0 = ∑ i : Fin 16, if byte β i = 0 then 0 else 1 := by
    rw [differing_sum]
    refine Finset.sum_congr rfl fun i _ => ?_
    rw [show byte (0 : Block) i = 0 by simp [byte]]
  rw [e, hd, Finset.abs_prod, ← Finset.prod_pow_eq_pow_sum, ← Finset.prod_pow_eq_pow_sum, ← Finset.prod_mul_distrib,
    show ((2 : ℤ) ^ 128) = ∏ _i : Fin 16, 256 by rw [Finset.prod_const, Finset.card_univ, Fintype.card_fin]; norm_num,
    ← Finset.prod_mul_distrib]
  exact Finset.prod_le_prod (fun i _ => mul_nonneg (abs_nonneg _) (pow_nonneg (by norm_num) _)) fun i _ => byte_sum _ _ _

/-! ### Masks and the linear transformation -/

theorem exists_bits (g : Nat → Bool) (n : Nat) : ∃ β : BitVec n, ∀ i, i < n → β.getLsbD i = g i := by
  induction n with
  | zero => exact ⟨0, fun i hi => absurd hi (by omega)⟩
  | succ n ih =>
    obtain ⟨β, hβ⟩ := ih
    refine ⟨BitVec.cons (g n) β, fun i hi => ?_⟩
    rw [BitVec.getLsbD_cons]
    split
    · next h => rw [h]
    · exact hβ i (by omega)

/-- A function of blocks that respects differences is a parity. -/
theorem exists_mask (f : Block → Bool) (hf : ∀ a b, f (a ^^^ b) = (f a ^^ f b)) : ∃ β, ∀ y, f y = parity β y := by
  have h0 : f 0 = false := by
    have := hf 0 0
    rw [BitVec.xor_self, Bool.xor_self] at this
    exact this
  obtain ⟨β, hβ⟩ := exists_bits (fun i => f (BitVec.twoPow 128 i)) 128
  refine ⟨β, fun y => ?_⟩
  have H : ∀ n, n ≤ 128 → sgn (f (y &&& BitVec.ofNat 128 (2 ^ n - 1))) =
      ∏ i ∈ Finset.range n, sgn (f (BitVec.twoPow 128 i) && y.getLsbD i) := by
    intro n hn
    induction n with
    | zero =>
      rw [show y &&& BitVec.ofNat 128 (2 ^ 0 - 1) = 0 by simp, h0]; rfl
    | succ n ih =>
      rw [Finset.prod_range_succ, ← ih (by omega), ← sgn_xor]
      have e : y &&& BitVec.ofNat 128 (2 ^ (n + 1) - 1) =
          (y &&& BitVec.ofNat 128 (2 ^ n - 1)) ^^^ (if y.getLsbD n then BitVec.twoPow 128 n else 0) := by
        apply BitVec.eq_of_getLsbD_eq
        intro i hi
        rw [BitVec.getLsbD_xor, BitVec.getLsbD_and, BitVec.getLsbD_and, BitVec.getLsbD_ofNat, BitVec.getLsbD_ofNat,
          Nat.testBit_two_pow_sub_one, Nat.testBit_two_pow_sub_one]
        by_cases hin : i = n
        · subst hin
          cases hy : y.getLsbD i <;> simp [hi]
        · have : (if y.getLsbD n then BitVec.twoPow 128 n else (0 : Block)).getLsbD i = false := by
            split
            · rw [BitVec.getLsbD_twoPow]; simp; omega
            · simp
          rw [this, Bool.xor_false]
          have : decide (i < n + 1) = decide (i < n) := by rw [decide_eq_decide]; omega
          rw [this]
      rw [e, hf]
      congr 2
      cases y.getLsbD n
      · rw [if_neg (by decide), h0, Bool.and_false]
      · rw [if_pos rfl, Bool.and_true]
  apply sgn_inj
  have h1 := H 128 (le_refl _)
  rw [show y &&& BitVec.ofNat 128 (2 ^ 128 - 1) = y by
    rw [show BitVec.ofNat 128 (2 ^ 128 - 1) = BitVec.allOnes 128 by rfl, BitVec.and_allOnes]] at h1
  rw [h1, sgn_parity]
  refine Finset.prod_congr rfl fun i hi => ?_
  rw [hβ i (Finset.mem_range.1 hi)]

/-- Masks that show the same parity before and after the linear transformation select from at least 17 bytes. -/
theorem L_masks (β γ : Block) (h : ∀ y, parity γ (L y) = parity β y) (hγ : γ ≠ 0) : 17 ≤ differing β 0 + differing γ 0 := by
  by_contra hlt
  have hz : ∀ i : Nat, byte (0 : Block) i = 0 := fun i => by simp [byte]
  have hd : ∀ a : Block, differing a 0 = (Finset.univ.filter fun i : Fin 16 => byte a i ≠ 0).card := by
    intro a
    rw [differing_sum, Finset.card_filter]
    refine Finset.sum_congr rfl fun i _ => ?_
    rw [hz]
    by_cases e : byte a i = 0
    · rw [if_pos e, if_neg (by simpa using e)]
    · rw [if_neg e, if_pos e]
  let J := Finset.univ.filter fun i : Fin 16 => byte γ i ≠ 0
  let I := Finset.univ.filter fun i : Fin 16 => byte β i = 0
  have hI : I.card + differing β 0 = 16 := by
    rw [hd]
    have := Finset.card_filter_add_card_filter_not (s := (Finset.univ : Finset (Fin 16))) fun i => byte β i = 0
    rw [Finset.card_univ, Fintype.card_fin] at this
    exact this
  have hJ : J.card = differing γ 0 := (hd γ).symm
  obtain ⟨I', hI', hcard⟩ := Finset.exists_subset_card_eq (s := I) (n := J.card) (by omega)
  -- the bytes of the places `I'` determine those of the image at the places `J`, so every choice of the latter is met
  let put : (I' → Byte) → Block := fun f => bytes.symm fun i => if hi : i ∈ I' then f ⟨i, hi⟩ else 0
  have hput : ∀ f (i : Fin 16), byte (put f) i = if hi : i ∈ I' then f ⟨i, hi⟩ else 0 := by
    intro f i
    exact congrFun (bytes.apply_symm_apply fun i => if hi : i ∈ I' then f ⟨i, hi⟩ else 0) i
  let φ : (I' → Byte) → (J → Byte) := fun f j => byte (L (put f)) j.1
  have hinj : Function.Injective φ := by
    intro f g e
    by_contra hne
    have hpne : put f ≠ put g := by
      intro e
      apply hne
      funext i
      have := congrArg (fun x => byte x i.1) e
      simp only [hput, i.2, dif_pos] at this
      exact this
    have h1 := L_differing hpne
    have h2 : differing (put f) (put g) ≤ I'.card := by
      rw [differing_sum, Finset.card_eq_sum_ones, ← Finset.sum_filter_add_sum_filter_not Finset.univ fun i => i ∈ I']
      have e1 : ∑ i ∈ Finset.univ.filter (fun i : Fin 16 => ¬ i ∈ I'), (if byte (put f) i = byte (put g) i then 0 else 1) = 0 := by
        refine Finset.sum_eq_zero fun i hi => ?_
        have := (Finset.mem_filter.1 hi).2
        rw [hput, hput, dif_neg this, dif_neg this, if_pos rfl]
      rw [e1, add_zero, show Finset.univ.filter (fun i : Fin 16 => i ∈ I') = I' by ext; simp]
      exact Finset.sum_le_sum fun i _ => by split <;> omega
    have h3 : differing (L (put f)) (L (put g)) + J.card ≤ 16 := by
      rw [differing_sum, ← Finset.sum_filter_add_sum_filter_not Finset.univ fun i => i ∈ J]
      have e1 : ∑ i ∈ Finset.univ.filter (fun i : Fin 16 => i ∈ J),
          (if byte (L (put f)) i = byte (L (put g)) i then 0 else 1) = 0 := by
        refine Finset.sum_eq_zero fun i hi => ?_
        have hi := (Finset.mem_filter.1 hi).2
        rw [if_pos (congrFun e ⟨i, hi⟩)]
      have e2 : ∑ i ∈ Finset.univ.filter (fun i : Fin 16 => ¬ i ∈ J),
          (if byte (L (put f)) i = byte (L (put g)) i then 0 else 1) ≤ (Finset.univ.filter fun i : Fin 16 => ¬ i ∈ J).card := by
        rw [Finset.card_eq_sum_ones]
        exact Finset.sum_le_sum fun i _ => by split <;> omega
      have e3 := Finset.card_filter_add_card_filter_not (s := (Finset.univ : Finset (Fin 16))) fun i => i ∈ J
      rw [Finset.card_univ, Fintype.card_fin, show Finset.univ.filter (fun i : Fin 16 => i ∈ J) = J by ext; simp] at e3
      omega
    omega
  have hsur : Function.Surjective φ := by
    refine ((Fintype.bijective_iff_injective_and_card φ).2 ⟨hinj, ?_⟩).2
    rw [Fintype.card_fun, Fintype.card_fun, Fintype.card_coe, Fintype.card_coe, hcard]
  obtain ⟨j, hj⟩ : ∃ j : Fin 16, byte γ j ≠ 0 := by
    by_contra hall
    simp only [not_exists, not_not] at hall
    exact hγ (block_ext fun i hi => by rw [hz]; exact hall ⟨i, hi⟩)
  obtain ⟨u, hu⟩ : ∃ u : Byte, parity (byte γ j) u = true := by
    by_contra hall
    simp only [not_exists] at hall
    apply hj
    apply BitVec.eq_of_getLsbD_eq
    intro i hi
    by_contra hb
    have hall' := hall (BitVec.twoPow 8 i)
    apply hall'
    apply sgn_inj
    rw [sgn_parity, Finset.prod_eq_single_of_mem i (Finset.mem_range.2 hi)]
    · have hb' : (byte γ j).getLsbD i = true := by simpa using hb
      rw [hb', BitVec.getLsbD_twoPow]; simp [hi]
    · intro k _ hk
      rw [BitVec.getLsbD_twoPow]
      simp [sgn]; omega
  obtain ⟨f, hf⟩ := hsur fun i => if i.1 = j then u else 0
  have h1 := h (put f)
  have h2 : parity β (put f) = false := by
    apply sgn_inj
    rw [parity_bytes]
    refine (Finset.prod_eq_one fun i _ => ?_).trans rfl
    by_cases hi : i ∈ I'
    · have : byte β i = 0 := (Finset.mem_filter.1 (hI' hi)).2
      rw [this, parity_zero_left]; rfl
    · rw [hput, dif_neg hi, parity_zero_right]; rfl
  have h3 : parity γ (L (put f)) = true := by
    apply sgn_inj
    rw [parity_bytes, Finset.prod_eq_single_of_mem j (Finset.mem_univ _)]
    · have := congrFun hf ⟨j, Finset.mem_filter.2 ⟨Finset.mem_univ _, hj⟩⟩
      simp only [φ, if_pos] at this
      rw [this, hu]
    · intro i _ hij
      by_cases hi : byte γ i = 0
      · rw [hi, parity_zero_left]; rfl
      · have := congrFun hf ⟨i, Finset.mem_filter.2 ⟨Finset.mem_univ _, hi⟩⟩
        simp only [φ, if_neg hij] at this
        rw [this, parity_zero_right]; rfl
  rw [h2, h3] at h1
  cases h1

/-- Parities before and after a round. -/
theorem round_parities (k α γ : Block) (hγ : γ ≠ 0) :
    |∑ x : Block, sgn (parity γ (LSX k x)) * sgn (parity α x)| * 32 ^ (17 - differing γ 0) ≤
      7 ^ (17 - differing γ 0) * 2 ^ 128 := by
  obtain ⟨β, hβ⟩ := exists_mask (fun y => parity γ (L y)) fun a b => by rw [L_xor, parity_xor]
  have hn := L_masks β γ hβ hγ
  have h := S_parities k α β
  rw [Finset.sum_congr rfl fun x _ => show sgn (parity γ (LSX k x)) * sgn (parity α x) =
    sgn (parity β (S (X k x))) * sgn (parity α x) by rw [LSX, hβ]]
  generalize |∑ x : Block, sgn (parity β (S (X k x))) * sgn (parity α x)| = z at *
  obtain ⟨r, hr⟩ : ∃ r, differing β 0 = 17 - differing γ 0 + r := ⟨differing β 0 - (17 - differing γ 0), by omega⟩
  rw [hr, pow_add, pow_add] at h
  have h7 : (7 : ℤ) ^ r ≤ 32 ^ r := pow_le_pow_left₀ (by norm_num) (by norm_num) r
  have hp : (0 : ℤ) < 32 ^ r := by positivity
  have hq : (0 : ℤ) ≤ 7 ^ (17 - differing γ 0) * 2 ^ 128 := by positivity
  nlinarith

end Goost.Differences
