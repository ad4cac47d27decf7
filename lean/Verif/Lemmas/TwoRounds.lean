import Verif.Lemmas.Parities
/-
Differences after two rounds of the 128-bit cipher, whatever they are after the first.
-/
namespace Goost.Differences
open Spec.Kuz (Byte Block byte ofBytes differing S L LSX X parity)

/-- The places of the bytes that are not zero. -/
def places (a : Block) : Finset (Fin 16) := Finset.univ.filter fun i => byte a i ≠ 0

theorem places_card (a : Block) : (places a).card = differing a 0 := by
  rw [differing_sum, places, Finset.card_filter]
  refine Finset.sum_congr rfl fun i _ => ?_
  rw [show byte (0 : Block) i = 0 by simp [byte]]
  by_cases e : byte a i = 0
  · rw [if_pos e, if_neg (by simpa using e)]
  · rw [if_neg e, if_pos e]

theorem places_xor (a b : Block) : places (a ^^^ b) ⊆ places a ∪ places b := by
  intro i hi
  simp only [places, Finset.mem_union, Finset.mem_filter, Finset.mem_univ, true_and, byte_xor] at hi ⊢
  by_contra hn
  simp only [not_or, not_not] at hn
  rw [hn.1, hn.2] at hi
  exact hi (by simp)

/-- The difference of the blocks after the substitution of a round. -/
def after (v w k : Block) : Block := S (X k v) ^^^ S (X k w)

theorem byte_after (v w k : Block) (i : Fin 16) : byte (after v w k) i =
    Spec.Kuz.pi (byte k i ^^^ byte v i) ^^^ Spec.Kuz.pi (byte k i ^^^ byte w i) := by
  simp only [after, byte_xor, S, byte_ofBytes _ i.isLt, X]

theorem L_after (v w k : Block) : L (after v w k) = LSX k v ^^^ LSX k w := by rw [after, L_xor]; rfl

theorem places_after (v w k : Block) : places (after v w k) = places (v ^^^ w) := by
  ext i
  simp only [places, Finset.mem_filter, Finset.mem_univ, true_and, byte_after, byte_xor]
  rw [not_iff_not]
  have hx : ∀ x y : Byte, x ^^^ y = 0 ↔ x = y := fun x y => BitVec.xor_eq_zero_iff
  rw [hx, hx]
  constructor
  · intro h
    have := congrArg Spec.Kuz.piInv h
    rwa [piInv_pi, piInv_pi, BitVec.xor_right_inj] at this
  · intro h; rw [h]

/-- One byte of the key, when the difference after the substitution is given. -/
theorem byte_choices (a b e : Byte) (h : a ≠ b) :
    (Finset.univ.filter fun y : Byte => Spec.Kuz.pi (y ^^^ a) ^^^ Spec.Kuz.pi (y ^^^ b) = e).card ≤ 8 := by
  refine le_trans (Finset.card_le_card_of_injOn (fun y => y ^^^ a) ?_ ?_)
    (pi_differences (a ^^^ b) e fun e => h (BitVec.xor_eq_zero_iff.1 e))
  · intro y hy
    simp only [Finset.coe_filter, Finset.mem_univ, true_and, Set.mem_ofPred_eq] at hy ⊢
    rw [← hy, BitVec.xor_assoc, ← BitVec.xor_assoc a, BitVec.xor_self, BitVec.zero_xor]
  · intro y _ z _ e
    exact (BitVec.xor_left_inj _).1 e

/-- How many keys of the first round confine the difference to the bytes at the places `T`. -/
theorem confined (v w : Block) (T : Finset (Fin 16)) (h : 17 ≤ differing v w + T.card) :
    (Finset.univ.filter fun k : Block => places (LSX k v ^^^ LSX k w) ⊆ T).card * 32 ^ (16 - T.card) ≤ 2 ^ 128 := by
  have hT : T.card ≤ 16 := by simpa using Finset.card_le_univ T
  rw [differing_zero_right, ← places_card] at h
  obtain ⟨D, hD, hDc⟩ := Finset.exists_subset_card_eq (s := places (v ^^^ w)) (n := 16 - T.card) (by omega)
  let K := Finset.univ.filter fun k : Block => places (LSX k v ^^^ LSX k w) ⊆ T
  change K.card * _ ≤ _
  -- two keys that agree outside `D` give the same difference after the substitution
  have hsame : ∀ k ∈ K, ∀ k' ∈ K, (∀ i ∉ D, byte k i = byte k' i) → after v w k = after v w k' := by
    intro k hk k' hk' hi
    by_contra hne
    have h1 := L_differing hne
    rw [differing_zero_right, differing_zero_right (L _), ← L_xor, ← places_card, ← places_card, L_xor] at h1
    have h2 : (places (after v w k ^^^ after v w k')).card ≤ D.card := by
      refine Finset.card_le_card fun i hi' => ?_
      by_contra hn
      simp only [places, Finset.mem_filter, Finset.mem_univ, true_and, byte_xor, byte_after, hi i hn] at hi'
      exact hi' (BitVec.xor_self)
    have h3 : (places (L (after v w k) ^^^ L (after v w k'))).card ≤ T.card := by
      refine Finset.card_le_card ((places_xor _ _).trans ?_)
      rw [L_after, L_after]
      exact Finset.union_subset (Finset.mem_filter.1 hk).2 (Finset.mem_filter.1 hk').2
    omega
  let out : Block → ((Dᶜ : Finset (Fin 16)) → Byte) := fun k i => byte k i.1
  have hfib : ∀ o ∈ (Finset.univ : Finset ((Dᶜ : Finset (Fin 16)) → Byte)), (K.filter fun k => out k = o).card ≤ 8 ^ D.card := by
    intro o _
    by_cases h0 : K.filter (fun k => out k = o) = ∅
    · rw [h0, Finset.card_empty]; exact Nat.zero_le _
    obtain ⟨k₀, hk₀⟩ := Finset.nonempty_iff_ne_empty.2 h0
    have hk₀' := Finset.mem_filter.1 hk₀
    let t : D → Finset Byte := fun i => Finset.univ.filter fun y =>
      Spec.Kuz.pi (y ^^^ byte v i.1) ^^^ Spec.Kuz.pi (y ^^^ byte w i.1) = byte (after v w k₀) i.1
    have ht : ∀ i, (t i).card ≤ 8 := by
      intro i
      refine byte_choices _ _ _ fun e => ?_
      have := (Finset.mem_filter.1 (hD i.2)).2
      rw [byte_xor, e] at this
      exact this BitVec.xor_self
    have hagree : ∀ k ∈ K.filter (fun k => out k = o), ∀ i ∉ D, byte k i = byte k₀ i := by
      intro k hk i hi
      have := congrFun ((Finset.mem_filter.1 hk).2.trans hk₀'.2.symm) ⟨i, Finset.mem_compl.2 hi⟩
      exact this
    calc (K.filter fun k => out k = o).card ≤ (Fintype.piFinset t).card := by
          refine Finset.card_le_card_of_injOn (fun k i => byte k i.1) ?_ ?_
          · intro k hk
            have e := hsame k (Finset.mem_filter.1 hk).1 k₀ hk₀'.1 (hagree k hk)
            rw [Finset.mem_coe, Fintype.mem_piFinset]
            intro i
            refine Finset.mem_filter.2 ⟨Finset.mem_univ _, ?_⟩
            rw [← e, byte_after]
          · intro k hk k' hk' e
            refine block_ext fun i hi => ?_
            by_cases hiD : (⟨i, hi⟩ : Fin 16) ∈ D
            · exact congrFun e ⟨⟨i, hi⟩, hiD⟩
            · exact (hagree k hk ⟨i, hi⟩ hiD).trans (hagree k' hk' ⟨i, hi⟩ hiD).symm
      _ = ∏ i, (t i).card := Fintype.card_piFinset _
      _ ≤ ∏ _i : D, 8 := Finset.prod_le_prod' fun i _ => ht i
      _ = 8 ^ D.card := by rw [Finset.prod_const, Finset.card_univ, Fintype.card_coe]
  have hcard : K.card ≤ 256 ^ (16 - D.card) * 8 ^ D.card := by
    rw [Finset.card_eq_sum_card_fiberwise (f := out) (t := Finset.univ) fun _ _ => Finset.mem_coe.2 (Finset.mem_univ _)]
    refine (Finset.sum_le_sum hfib).trans ?_
    rw [Finset.sum_const, smul_eq_mul, Finset.card_univ, Fintype.card_fun, Fintype.card_coe, Finset.card_compl,
      Fintype.card_fin, card_bitVec]
    norm_num
  rw [hDc] at hcard
  calc K.card * 32 ^ (16 - T.card) ≤ 256 ^ (16 - (16 - T.card)) * 8 ^ (16 - T.card) * 32 ^ (16 - T.card) :=
        Nat.mul_le_mul_right _ hcard
    _ = 256 ^ (16 - (16 - T.card)) * 256 ^ (16 - T.card) := by rw [mul_assoc, ← mul_pow, show 8 * 32 = 256 by norm_num]
    _ = 2 ^ 128 := by rw [← pow_add, show 16 - (16 - T.card) + (16 - T.card) = 16 by omega]; norm_num

/-- The places after the first round are those of the difference before the linear transformation of the second. -/
theorem places_between (v w d k' : Block) (h : LSX k' v ^^^ LSX k' w = d) : places (v ^^^ w) = places (Spec.Kuz.Linv d) := by
  rw [← L_after] at h
  rw [← places_after _ _ k', ← h, Linv_L]

theorem exists_finset {α : Type} [Finite α] (p : α → Prop) : ∃ F : Finset α, (∀ x, x ∈ F ↔ p x) ∧ {x | p x}.ncard = F.card :=
  ⟨(Set.toFinite {x | p x}).toFinset, fun x => by simp, Set.ncard_eq_toFinset_card _ _⟩

/-- Of all pairs of round keys at most one in `2 ^ 80` gives two different blocks a given difference after two rounds. -/
theorem two_round_differences (v w d : Block) (h : v ≠ w) :
    {k : Block × Block | LSX k.2 (LSX k.1 v) ^^^ LSX k.2 (LSX k.1 w) = d}.ncard * 2 ^ 80 ≤ 2 ^ 256 := by
  obtain ⟨F, mF, hF⟩ := exists_finset fun k : Block × Block => LSX k.2 (LSX k.1 v) ^^^ LSX k.2 (LSX k.1 w) = d
  rw [hF]
  by_cases hF : F = ∅
  · rw [hF, Finset.card_empty, Nat.zero_mul]; exact Nat.zero_le _
  obtain ⟨k₀, hk₀⟩ := Finset.nonempty_iff_ne_empty.2 hF
  obtain ⟨T, hT₀⟩ : ∃ T, T = places (Spec.Kuz.Linv d) := ⟨_, rfl⟩
  have hplaces : ∀ k ∈ F, places (LSX k.1 v ^^^ LSX k.1 w) = T := fun k hk => by
    rw [hT₀]; exact places_between _ _ _ k.2 ((mF k).1 hk)
  have h17 : 17 ≤ differing v w + T.card := by
    have := LSX_differing k₀.1 h
    rwa [differing_zero_right (LSX k₀.1 v), ← places_card, hplaces k₀ hk₀] at this
  have hT : T.card ≤ 16 := by simpa using Finset.card_le_univ T
  obtain ⟨A, mA, h1⟩ : ∃ A : Finset Block, (∀ k, k ∈ A ↔ places (LSX k v ^^^ LSX k w) ⊆ T) ∧ A.card * 32 ^ (16 - T.card) ≤ 2 ^ 128 :=
    ⟨_, fun k => by rw [Finset.mem_filter]; exact ⟨fun h => h.2, fun h => ⟨Finset.mem_univ _, h⟩⟩, confined v w T h17⟩
  have hmap : ∀ k ∈ F, k.1 ∈ A := fun k hk => (mA _).2 (hplaces k hk).subset
  rw [Finset.card_eq_sum_card_fiberwise hmap]
  have hfib : ∀ k ∈ A, (F.filter fun x => x.1 = k).card * 32 ^ T.card ≤ 2 ^ 128 := by
    intro k hk
    by_cases h0 : F.filter (fun x => x.1 = k) = ∅
    · rw [h0, Finset.card_empty, Nat.zero_mul]; exact Nat.zero_le _
    obtain ⟨x₀, hx₀⟩ := Finset.nonempty_iff_ne_empty.2 h0
    have hx₀ := Finset.mem_filter.1 hx₀
    have e := hplaces x₀ hx₀.1
    rw [hx₀.2] at e
    obtain ⟨B, mB, hB⟩ := exists_finset fun k' : Block => LSX k' (LSX k v) ^^^ LSX k' (LSX k w) = d
    have h2 := round_differences (LSX k v) (LSX k w) d
    rw [differing_zero_right, ← places_card, e, hB] at h2
    refine le_trans (Nat.mul_le_mul_right _ (Finset.card_le_card_of_injOn Prod.snd ?_ ?_)) h2
    · intro x hx
      obtain ⟨hx1, hx2⟩ := Finset.mem_filter.1 (Finset.mem_coe.1 hx)
      rw [Finset.mem_coe, mB, ← hx2]
      exact (mF x).1 hx1
    · intro x hx y hy e
      exact Prod.ext ((Finset.mem_filter.1 (Finset.mem_coe.1 hx)).2.trans (Finset.mem_filter.1 (Finset.mem_coe.1 hy)).2.symm) e
  calc (∑ k ∈ A, (F.filter fun x => x.1 = k).card) * 2 ^ 80
      = (∑ k ∈ A, (F.filter fun x => x.1 = k).card * 32 ^ T.card) * 32 ^ (16 - T.card) := by
        rw [← Finset.sum_mul, mul_assoc, ← pow_add, show T.card + (16 - T.card) = 16 by omega,
          show (32 : Nat) ^ 16 = 2 ^ 80 by norm_num]
    _ ≤ (∑ _k ∈ A, 2 ^ 128) * 32 ^ (16 - T.card) := Nat.mul_le_mul_right _ (Finset.sum_le_sum hfib)
    _ = 2 ^ 128 * (A.card * 32 ^ (16 - T.card)) := by rw [Finset.sum_const, smul_eq_mul]; ring
    _ ≤ 2 ^ 128 * 2 ^ 128 := Nat.mul_le_mul_left _ h1
    _ = 2 ^ 256 := by norm_num

/-- Number of round keys for a given difference after the substitution. -/
theorem round_count (v w e : Block) : {k : Block | LSX k v ^^^ LSX k w = L e}.ncard = ∏ i : Fin 16,
    (Finset.univ.filter fun y : Byte => Spec.Kuz.pi (y ^^^ byte v i) ^^^ Spec.Kuz.pi (y ^^^ byte w i) = byte e i).card := by
  rw [← Fintype.card_piFinset, ← Set.ncard_coe_finset, ← Set.ncard_image_of_injective _ bytes.injective]
  congr 1
  ext f
  obtain ⟨k, rfl⟩ := bytes.surjective f
  rw [bytes.injective.mem_set_image, Finset.mem_coe, Fintype.mem_piFinset]
  have hk : k ∈ {k : Block | LSX k v ^^^ LSX k w = L e} ↔ S (X k v) ^^^ S (X k w) = e := by
    constructor
    · intro h
      have h1 : L (S (X k v) ^^^ S (X k w)) = L e := by rw [L_xor]; exact h
      rw [← Linv_L (S (X k v) ^^^ S (X k w)), h1, Linv_L]
    · intro h
      show L (S (X k v)) ^^^ L (S (X k w)) = L e
      rw [← L_xor, h]
  rw [hk]
  constructor
  · intro h i
    have h3 := congrArg (fun x => byte x i) h
    simp only [byte_xor, S, byte_ofBytes _ i.isLt, X] at h3
    simpa [bytes] using h3
  · intro h
    apply bytes.injective
    funext i
    have := h i
    simp only [Finset.mem_filter, Finset.mem_univ, true_and] at this
    show byte (S (X k v) ^^^ S (X k w)) i = byte e i
    rw [← this]
    simp [byte_xor, S, byte_ofBytes _ i.isLt, X, bytes]

/-- The difference 5 of two bytes becomes 222 for exactly eight of them. -/
theorem pi_eight : (Finset.univ.filter fun y : Byte => Spec.Kuz.pi (y ^^^ 0) ^^^ Spec.Kuz.pi (y ^^^ 5) = 222).card = 8 := by
  rw [card_bytes _ (fun n => Spec.Kuz.pi (BitVec.ofNat 8 n) ^^^ Spec.Kuz.pi (BitVec.ofNat 8 n ^^^ 5) = 222) (by intro x; simp)]
  decide +kernel

theorem round_reached (n : Nat) (hn : n ≤ 16) : ∃ v w d : Block, differing v w = n ∧
    {k : Block | LSX k v ^^^ LSX k w = d}.ncard * 32 ^ n = 2 ^ 128 := by
  have hz : ∀ i : Nat, byte (0 : Block) i = 0 := fun i => by simp [byte]
  have hu : (Finset.univ : Finset Byte).card = 256 := by
    rw [Finset.card_univ, Fintype.card_congr BitVec.equivFin.toEquiv, Fintype.card_fin]; rfl
  have hs : ∑ i : Fin 16, (if i.val < n then 1 else 0) = n := by
    rw [Finset.sum_ite, Finset.sum_const, Finset.sum_const_zero, smul_eq_mul, mul_one, add_zero]
    interval_cases n <;> rfl
  refine ⟨0, ofBytes fun i => if i < n then 5 else 0, L (ofBytes fun i => if i < n then 222 else 0), ?_, ?_⟩
  · rw [differing_sum]
    conv_rhs => rw [← hs]
    refine Finset.sum_congr rfl fun i _ => ?_
    rw [byte_ofBytes _ i.isLt, hz]
    by_cases h : i.val < n <;> simp [h]
  · rw [round_count]
    conv_lhs => rw [← hs]
    rw [← Finset.prod_pow_eq_pow_sum, hs, ← Finset.prod_mul_distrib]
    trans ∏ _i : Fin 16, 256
    · refine Finset.prod_congr rfl fun i _ => ?_
      rw [byte_ofBytes _ i.isLt, byte_ofBytes _ i.isLt, hz]
      by_cases h : i.val < n
      · simp only [h, if_true]
        rw [pi_eight]; rfl
      · simp only [h, if_false]
        rw [Finset.filter_true_of_mem, hu]; rfl
        intro y _
        exact BitVec.xor_self
    · rw [Finset.prod_const, Finset.card_univ, Fintype.card_fin]; norm_num

end Goost.Differences
