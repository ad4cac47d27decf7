import Verif.Lemmas.DifferenceTables
/-
Differences and parities in a round of the 128-bit cipher.
-/
namespace Goost.Differences
open Spec.Kuz (Byte Block)

/-! ### What the tables say -/

instance {n : Nat} : Fintype (BitVec n) := Fintype.ofEquiv _ BitVec.equivFin.toEquiv.symm

theorem card_bytes (p : Byte → Prop) [DecidablePred p] (q : Nat → Prop) [DecidablePred q] (h : ∀ x : Byte, p x ↔ q x.toNat) :
    (Finset.univ.filter p).card = ((Finset.range 256).filter q).card := by
  refine Finset.card_nbij' BitVec.toNat (BitVec.ofNat 8) ?_ ?_ ?_ ?_
  · intro x hx
    have := x.isLt
    simp only [Finset.coe_filter, Finset.mem_univ, true_and, Set.mem_ofPred_eq, Finset.mem_range] at hx ⊢
    exact ⟨this, (h x).1 hx⟩
  · intro x hx
    simp only [Finset.coe_filter, Finset.mem_univ, true_and, Set.mem_ofPred_eq, Finset.mem_range] at hx ⊢
    rw [h, BitVec.toNat_ofNat, Nat.mod_eq_of_lt hx.1]
    exact hx.2
  · intro x _
    simp
  · intro x hx
    simp only [Finset.coe_filter, Set.mem_ofPred_eq, Finset.mem_range] at hx
    simp [Nat.mod_eq_of_lt hx.1]

theorem table_spec (n : Nat) (h : table n = true) :
    ∀ a, 0 < a → a ≤ n → ∀ b < 256, ((Finset.range 256).filter fun x => s x ^^^ s (x ^^^ a) = b).card ≤ 8 := by
  induction n with
  | zero => intro a h1 h2; omega
  | succ n ih =>
    simp only [table, Bool.and_eq_true] at h
    intro a h1 h2 b hb
    rcases Nat.le_succ_iff.1 h2 with h2 | rfl
    · exact ih h.2 a h1 h2 b hb
    · rw [← lanes_count _ _ _ (by decide)]
      generalize lanes (fun x => s x ^^^ s (x ^^^ (n + 1))) 256 = c at h
      cases c with
      | zero => simp
      | succ k => exact small_spec _ _ h.1 b hb

/-- Of the 256 bytes at most 8 take a difference that is not zero to a given difference. -/
theorem pi_differences (a b : Byte) (ha : a ≠ 0) :
    (Finset.univ.filter fun x : Byte => Spec.Kuz.pi x ^^^ Spec.Kuz.pi (x ^^^ a) = b).card ≤ 8 := by
  rw [card_bytes _ (fun x => s x ^^^ s (x ^^^ a.toNat) = b.toNat) fun x => by
    rw [← BitVec.toNat_inj, BitVec.toNat_xor, s_eq, s_eq, BitVec.toNat_xor]]
  refine table_spec 255 table_ok _ (Nat.pos_of_ne_zero fun h => ha (BitVec.eq_of_toNat_eq h)) (by have := a.isLt; omega) _ b.isLt

theorem spread_lt (f : Nat → Nat) (hf : ∀ x, f x ≤ 1) (n : Nat) : spread f n < 2 ^ (16 * n) := by
  induction n with
  | zero => simp [spread]
  | succ n ih =>
    have h1 : f n <<< (16 * n) ≤ 2 ^ (16 * n) := by
      rw [Nat.shiftLeft_eq]; have := hf n; nlinarith [Nat.two_pow_pos (16 * n)]
    have h2 : 2 ^ (16 * (n + 1)) = 2 ^ (16 * n) * 65536 := by rw [show 16 * (n + 1) = 16 * n + 16 by ring, pow_add]; norm_num
    simp only [spread]
    omega

theorem spread_xor (f g : Nat → Nat) (hf : ∀ x, f x ≤ 1) (hg : ∀ x, g x ≤ 1) (n : Nat) :
    spread f n ^^^ spread g n = spread (fun x => f x ^^^ g x) n := by
  have hx : ∀ x, f x ^^^ g x ≤ 1 := by
    intro x
    have h1 := hf x
    have h2 := hg x
    interval_cases f x <;> interval_cases g x <;> decide
  have e : ∀ (h : Nat → Nat), (∀ x, h x ≤ 1) → ∀ n,
      spread h (n + 1) / 2 ^ (16 * n) = h n ∧ spread h (n + 1) % 2 ^ (16 * n) = spread h n := by
    intro h hh n
    have h0 := spread_lt h hh n
    have h1 : spread h (n + 1) = spread h n + 2 ^ (16 * n) * h n := by simp only [spread, Nat.shiftLeft_eq]; ring
    rw [h1, Nat.add_mul_div_left _ _ (Nat.two_pow_pos _), Nat.div_eq_of_lt h0, Nat.add_mul_mod_self_left, Nat.mod_eq_of_lt h0]
    exact ⟨by omega, rfl⟩
  induction n with
  | zero => simp [spread]
  | succ n ih =>
    rw [← Nat.div_add_mod (spread f (n + 1) ^^^ spread g (n + 1)) (2 ^ (16 * n)), Nat.xor_div_two_pow, Nat.xor_mod_two_pow,
      (e f hf n).1, (e f hf n).2, (e g hg n).1, (e g hg n).2, ih]
    simp only [spread, Nat.shiftLeft_eq]
    ring

theorem spread_mod (f : Nat → Nat) (n : Nat) : spread f n % 65535 = (∑ x ∈ Finset.range n, f x) % 65535 := by
  induction n with
  | zero => rfl
  | succ n ih =>
    rw [Finset.sum_range_succ, Nat.add_mod, ← ih, ← Nat.add_mod]
    simp only [spread, Nat.shiftLeft_eq]
    rw [Nat.add_mod, Nat.mul_mod, pow_mul, Nat.pow_mod]
    norm_num

theorem par_le (n : Nat) : par n ≤ 1 := by unfold par; omega

theorem row_spec (b n : Nat) (h : row b n = true) : ∀ a < n,
    100 ≤ ((Finset.range 256).filter fun x => par (b &&& s x) ≠ par (a &&& x)).card ∧
    ((Finset.range 256).filter fun x => par (b &&& s x) ≠ par (a &&& x)).card ≤ 156 := by
  induction n with
  | zero => intro a ha; omega
  | succ n ih =>
    simp only [row, Bool.and_eq_true] at h
    intro a ha
    rcases Nat.lt_succ_iff_lt_or_eq.1 ha with ha | rfl
    · exact ih h.2 a ha
    · have hc : (spread (fun x => par (b &&& s x)) 256 ^^^ spread (fun x => par (a &&& x)) 256) % 65535 =
          ((Finset.range 256).filter fun x => par (b &&& s x) ≠ par (a &&& x)).card := by
        rw [spread_xor _ _ (fun _ => par_le _) (fun _ => par_le _), spread_mod, Finset.card_filter]
        have e : ∀ x, par (b &&& s x) ^^^ par (a &&& x) = if par (b &&& s x) ≠ par (a &&& x) then 1 else 0 := by
          intro x
          have h1 := par_le (b &&& s x)
          have h2 := par_le (a &&& x)
          generalize par (b &&& s x) = u at *
          generalize par (a &&& x) = v at *
          interval_cases u <;> interval_cases v <;> decide
        rw [Finset.sum_congr rfl fun x _ => e x]
        refine Nat.mod_eq_of_lt (lt_of_le_of_lt ?_ (show 256 < 65535 by decide))
        rw [← Finset.card_filter]
        simpa using Finset.card_filter_le (Finset.range 256) _
      rw [hc] at h
      exact ⟨Nat.le_of_ble_eq_true h.1.1, Nat.le_of_ble_eq_true h.1.2⟩

theorem rows_spec (n : Nat) (h : rows n = true) : ∀ b, 0 < b → b ≤ n → row b 256 = true := by
  induction n with
  | zero => intro b h1 h2; omega
  | succ n ih =>
    simp only [rows, Bool.and_eq_true] at h
    intro b h1 h2
    rcases Nat.le_succ_iff.1 h2 with h2 | rfl
    · exact ih h.2 b h1 h2
    · exact h.1

theorem parity_byte (m x : Byte) : (Spec.Kuz.parity m x).toNat = par (m.toNat &&& x.toNat) := by
  have h : ∀ n < 256, ((List.range 8).countP (fun i => (BitVec.ofNat 8 n).getLsbD i) % 2 == 1).toNat = par n := by decide +kernel
  have e := h (m &&& x).toNat (m &&& x).isLt
  rw [BitVec.ofNat_toNat, BitVec.setWidth_eq, BitVec.toNat_and] at e
  rw [← e, Spec.Kuz.parity]
  simp only [BitVec.getLsbD_and]

theorem toNat_inj (a b : Bool) (h : a.toNat = b.toNat) : a = b := by
  revert h; cases a <;> cases b <;> decide

/-- Of the 256 bytes between 100 and 156 have a parity after the substitution that is another parity before. -/
theorem pi_parities (a b : Byte) (hb : b ≠ 0) :
    100 ≤ (Finset.univ.filter fun x : Byte => Spec.Kuz.parity b (Spec.Kuz.pi x) ≠ Spec.Kuz.parity a x).card ∧
    (Finset.univ.filter fun x : Byte => Spec.Kuz.parity b (Spec.Kuz.pi x) ≠ Spec.Kuz.parity a x).card ≤ 156 := by
  rw [card_bytes _ (fun x => par (b.toNat &&& s x) ≠ par (a.toNat &&& x)) fun x => by
    rw [← s_eq, ← parity_byte, ← parity_byte, not_iff_not]
    exact ⟨congrArg _, toNat_inj _ _⟩]
  exact row_spec _ _ (rows_spec 255 rows_ok _ (Nat.pos_of_ne_zero fun h => hb (BitVec.eq_of_toNat_eq h)) (by have := b.isLt; omega))
    _ a.isLt

/-! ### Blocks as sixteen bytes -/

open Spec.Kuz (byte ofBytes differing S L LSX X parity)

/-- Blocks and families of 16 bytes. -/
def bytes : Block ≃ (Fin 16 → Byte) where
  toFun a i := byte a i
  invFun f := ofBytes fun i => if h : i < 16 then f ⟨i, h⟩ else 0
  left_inv a := block_ext fun i hi => by rw [byte_ofBytes _ hi, dif_pos hi]
  right_inv f := by
    funext i
    beta_reduce
    rw [byte_ofBytes _ i.isLt, dif_pos i.isLt]

theorem differing_sum (a b : Block) : differing a b = ∑ i : Fin 16, if byte a i = byte b i then 0 else 1 := by
  rw [differing, countP_range, Finset.sum_range fun i => if (byte a i != byte b i) = true then 1 else 0]
  refine Finset.sum_congr rfl fun i _ => ?_
  by_cases h : byte a i = byte b i <;> simp [h]

/-- Of the round keys, at most one in `32 ^ n` takes two blocks that differ in `n` bytes to a given difference. -/
theorem round_differences (v w d : Block) :
    {k : Block | LSX k v ^^^ LSX k w = d}.ncard * 32 ^ differing v w ≤ 2 ^ 128 := by
  by_cases h0 : {k : Block | LSX k v ^^^ LSX k w = d} = ∅
  · rw [h0, Set.ncard_empty, Nat.zero_mul]; exact Nat.zero_le _
  obtain ⟨k₀, hk₀⟩ := Set.nonempty_iff_ne_empty.2 h0
  let t : Fin 16 → Finset Byte := fun i => Finset.univ.filter fun y =>
    Spec.Kuz.pi (y ^^^ byte v i) ^^^ Spec.Kuz.pi (y ^^^ byte w i) =
      Spec.Kuz.pi (byte k₀ i ^^^ byte v i) ^^^ Spec.Kuz.pi (byte k₀ i ^^^ byte w i)
  have hS : ∀ k ∈ {k : Block | LSX k v ^^^ LSX k w = d}, bytes k ∈ Fintype.piFinset t := by
    intro k hk
    have h1 : L (S (X k v) ^^^ S (X k w)) = L (S (X k₀ v) ^^^ S (X k₀ w)) := by
      rw [L_xor, L_xor]; exact (show LSX k v ^^^ LSX k w = d from hk).trans (show LSX k₀ v ^^^ LSX k₀ w = d from hk₀).symm
    have h2 : S (X k v) ^^^ S (X k w) = S (X k₀ v) ^^^ S (X k₀ w) := by
      rw [← Linv_L (S (X k v) ^^^ S (X k w)), h1, Linv_L]
    rw [Fintype.mem_piFinset]
    intro i
    have h3 := congrArg (fun x => byte x i) h2
    simp only [byte_xor, S, byte_ofBytes _ i.isLt, X] at h3
    simpa [t, bytes] using h3
  have hcard : {k : Block | LSX k v ^^^ LSX k w = d}.ncard ≤ ∏ i, (t i).card := by
    rw [← Fintype.card_piFinset, ← Set.ncard_coe_finset]
    exact Set.ncard_le_ncard_of_injOn bytes hS bytes.injective.injOn
  have ht : ∀ i, (t i).card * 32 ^ (if byte v i = byte w i then 0 else 1) ≤ 256 := by
    intro i
    have hu : (Finset.univ : Finset Byte).card = 256 := by
      rw [Finset.card_univ, Fintype.card_congr BitVec.equivFin.toEquiv, Fintype.card_fin]; rfl
    by_cases h : byte v i = byte w i
    · rw [if_pos h, pow_zero, mul_one, ← hu]
      exact Finset.card_le_univ _
    · rw [if_neg h, pow_one]
      have ha : byte v i ^^^ byte w i ≠ 0 := fun e => h (BitVec.xor_eq_zero_iff.1 e)
      have := pi_differences (byte v i ^^^ byte w i)
        (Spec.Kuz.pi (byte k₀ i ^^^ byte v i) ^^^ Spec.Kuz.pi (byte k₀ i ^^^ byte w i)) ha
      have h2 : (t i).card ≤ 8 := by
        refine le_trans (Finset.card_le_card_of_injOn (fun y => y ^^^ byte v i) ?_ ?_) this
        · intro y hy
          simp only [t, Finset.coe_filter, Finset.mem_univ, true_and, Set.mem_ofPred_eq] at hy ⊢
          rw [← hy, BitVec.xor_assoc, ← BitVec.xor_assoc (byte v i), BitVec.xor_self, BitVec.zero_xor]
        · intro y _ z _ e
          exact (BitVec.xor_left_inj _).1 e
      omega
  calc {k : Block | LSX k v ^^^ LSX k w = d}.ncard * 32 ^ differing v w
      ≤ (∏ i, (t i).card) * ∏ i : Fin 16, 32 ^ (if byte v i = byte w i then 0 else 1) := by
        rw [differing_sum, Finset.prod_pow_eq_pow_sum]
        exact Nat.mul_le_mul_right _ hcard
    _ = ∏ i : Fin 16, (t i).card * 32 ^ (if byte v i = byte w i then 0 else 1) := by rw [Finset.prod_mul_distrib]
    _ ≤ ∏ _i : Fin 16, 256 := Finset.prod_le_prod' fun i _ => ht i
    _ = 2 ^ 128 := by rw [Finset.prod_const, Finset.card_univ, Fintype.card_fin]; norm_num

end Goost.Differences
