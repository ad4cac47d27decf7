import Verif.Lemmas.GfField
import Verif.Lemmas.Kuz
import Verif.Spec.Diffusion
/-
How far a difference spreads in the linear transformation. The bytes of a block and of its image are a
sequence with a linear recurrence. The roots of the recurrence are a geometric progression, so the
sequence is, up to factors, the values of a polynomial of degree below 16 at 32 different points.
-/
namespace Goost
open Polynomial

/-- A sequence with the recurrence that is zero at 16 of the first 32 places is zero. -/
theorem recurrence_zero {F : Type} [Field F] [DecidableEq F] (δ β : F) (k s : ℕ → F) (hδ : δ ≠ 0)
    (hβ : ∀ i < 32, ∀ j < 32, β ^ i = β ^ j → i = j)
    (hk : ∀ t < 16, (δ * β ^ t) ^ 16 = ∑ i ∈ Finset.range 16, k i * (δ * β ^ t) ^ i)
    (hs : ∀ n, s (n + 16) = ∑ i ∈ Finset.range 16, k i * s (n + i))
    (hz : 16 ≤ ((Finset.range 32).filter fun n => s n = 0).card) : ∀ n, s n = 0 := by
  have hinj : Set.InjOn (fun n => β ^ n) (Finset.range 16 : Finset ℕ) := by
    intro i hi j hj e
    simp only [Finset.coe_range, Set.mem_Iio] at hi hj
    exact hβ i (by omega) j (by omega) e
  let P : F[X] := Lagrange.interpolate (Finset.range 16) (fun n => β ^ n) (fun n => s n * (δ ^ n)⁻¹)
  have hdeg : P.degree < 16 := by
    have := Lagrange.degree_interpolate_lt (s := Finset.range 16) (fun n => s n * (δ ^ n)⁻¹) hinj
    rwa [Finset.card_range] at this
  have hev : ∀ x, P.eval x = ∑ t ∈ Finset.range 16, P.coeff t * x ^ t := by
    intro x
    rw [eval_eq_sum_range' (n := 16)]
    by_cases h : P = 0
    · rw [h]; simp
    · exact (natDegree_lt_iff_degree_lt h).2 hdeg
  have hrec : ∀ n, δ ^ n * P.eval (β ^ n) = ∑ t ∈ Finset.range 16, P.coeff t * (δ * β ^ t) ^ n := by
    intro n
    rw [hev, Finset.mul_sum]
    refine Finset.sum_congr rfl fun t _ => ?_
    rw [mul_pow, ← pow_mul, ← pow_mul, Nat.mul_comm n t]
    ring
  have hall : ∀ n, s n = δ ^ n * P.eval (β ^ n) := by
    intro n
    induction n using Nat.strong_induction_on with
    | _ n ih =>
      by_cases h : n < 16
      · have : P.eval (β ^ n) = s n * (δ ^ n)⁻¹ :=
          Lagrange.eval_interpolate_at_node (fun n => s n * (δ ^ n)⁻¹) hinj (Finset.mem_range.2 h)
        rw [this]
        field_simp
      · obtain ⟨m, rfl⟩ : ∃ m, n = m + 16 := ⟨n - 16, by omega⟩
        rw [hs, hrec]
        have e1 : ∀ i ∈ Finset.range 16, k i * s (m + i) =
            ∑ t ∈ Finset.range 16, P.coeff t * (δ * β ^ t) ^ m * (k i * (δ * β ^ t) ^ i) := by
          intro i hi
          have := Finset.mem_range.1 hi
          rw [ih (m + i) (by omega), hrec, Finset.mul_sum]
          refine Finset.sum_congr rfl fun t _ => ?_
          rw [pow_add]
          ring
        rw [Finset.sum_congr rfl e1, Finset.sum_comm]
        refine Finset.sum_congr rfl fun t ht => ?_
        rw [← Finset.mul_sum, ← hk t (Finset.mem_range.1 ht), pow_add, mul_assoc]
  have hP : P = 0 := by
    refine eq_zero_of_degree_lt_of_eval_index_eq_zero
      (s := (Finset.range 32).filter fun n => s n = 0) (v := fun n => β ^ n) ?_ ?_ ?_
    · intro i hi j hj e
      simp only [Finset.coe_filter, Finset.mem_range, Set.mem_ofPred_eq] at hi hj
      exact hβ i hi.1 j hj.1 e
    · refine lt_of_lt_of_le hdeg ?_
      exact_mod_cast hz
    · intro i hi
      have h := (Finset.mem_filter.1 hi).2
      rw [hall i] at h
      exact (mul_eq_zero.1 h).resolve_left (pow_ne_zero _ hδ)
  intro n
  rw [hall n, hP, eval_zero, mul_zero]

open Spec.Kuz (Byte Block byte ofBytes ell R L gfMul)

/-- Byte 0 of a block after `n` steps of the shift register. -/
def shiftOut (a : Block) (n : Nat) : Byte := byte (Nat.repeat R n a) 0

theorem shiftOut_byte (a : Block) {i : Nat} (hi : i < 16) :
    ∀ n, byte (Nat.repeat R n a) i = shiftOut a (n + i) := by
  induction i with
  | zero => intro n; rfl
  | succ i ih =>
    intro n
    have h := ih (by omega) (n + 1)
    rw [show n + (i + 1) = n + 1 + i by omega, ← h]
    show _ = byte (R (Nat.repeat R n a)) i
    conv_rhs => rw [R]
    rw [byte_ofBytes _ (by omega), if_neg (by omega)]

/-- The coefficients of the linear form. -/
def ellCoeff : List Byte := [1, 148, 32, 133, 16, 194, 192, 1, 251, 1, 192, 194, 16, 133, 32, 148]

theorem shiftOut_step (a : Block) (n : Nat) : shiftOut a (n + 16) = ell (Nat.repeat R n a) := by
  rw [show n + 16 = n + 1 + 15 by omega, ← shiftOut_byte a (by decide)]
  show byte (R (Nat.repeat R n a)) 15 = _
  conv_lhs => rw [R]
  rw [byte_ofBytes _ (by decide), if_pos rfl]

theorem gf_gfMul (a b : Byte) : gf (gfMul a b) = gf a * gf b := by
  rw [← gmul_eq_gfMul, gf_gmul]

theorem gf_shiftOut_step (a : Block) (n : Nat) : gf (shiftOut a (n + 16)) =
    ∑ i ∈ Finset.range 16, gf (ellCoeff.getD i 0) * gf (shiftOut a (n + i)) := by
  rw [shiftOut_step, ell]
  simp only [gf_xor, gf_gfMul, shiftOut_byte a (show 0 < 16 by decide),
    shiftOut_byte a (show 1 < 16 by decide), shiftOut_byte a (show 2 < 16 by decide),
    shiftOut_byte a (show 3 < 16 by decide), shiftOut_byte a (show 4 < 16 by decide),
    shiftOut_byte a (show 5 < 16 by decide), shiftOut_byte a (show 6 < 16 by decide),
    shiftOut_byte a (show 7 < 16 by decide), shiftOut_byte a (show 8 < 16 by decide),
    shiftOut_byte a (show 9 < 16 by decide), shiftOut_byte a (show 10 < 16 by decide),
    shiftOut_byte a (show 11 < 16 by decide), shiftOut_byte a (show 12 < 16 by decide),
    shiftOut_byte a (show 13 < 16 by decide), shiftOut_byte a (show 14 < 16 by decide),
    shiftOut_byte a (show 15 < 16 by decide)]
  simp only [Finset.sum_range_succ, Finset.sum_range_zero, ellCoeff, List.getD_cons_succ,
    List.getD_cons_zero]
  abel

/-- Powers of a byte in the field. -/
def gpow (a : Byte) : Nat → Byte
  | 0 => 1
  | n + 1 => gfMul (gpow a n) a

theorem gf_gpow (a : Byte) (n : Nat) : gf (gpow a n) = gf a ^ n := by
  induction n with
  | zero => rw [gpow, gf_one, pow_zero]
  | succ n ih => rw [gpow, gf_gfMul, ih, pow_succ]

theorem gpow_distinct : ∀ i < 32, ∀ j < 32, gpow 160 i = gpow 160 j → i = j := by decide +kernel

theorem gpow_root : ∀ t < 16, gpow (gfMul 196 (gpow 160 t)) 16 =
    (List.range 16).foldl
      (fun x i => x ^^^ gfMul (ellCoeff.getD i 0) (gpow (gfMul 196 (gpow 160 t)) i)) 0 := by
  decide +kernel

theorem gf_foldl_xor (f : Nat → Byte) (n : Nat) :
    gf ((List.range n).foldl (fun x i => x ^^^ f i) 0) = ∑ i ∈ Finset.range n, gf (f i) := by
  induction n with
  | zero => rw [Finset.sum_range_zero]; exact gf_zero
  | succ n ih =>
    rw [List.range_succ, List.foldl_append, Finset.sum_range_succ, ← ih, List.foldl_cons,
      List.foldl_nil, gf_xor]

/-- A block of which 16 of the bytes of it and of its image are zero is zero. -/
theorem L_zero (a : Block) (hz : 16 ≤ ((Finset.range 32).filter fun n => shiftOut a n = 0).card) :
    a = 0 := by
  classical
  have h := recurrence_zero (gf 196) (gf 160) (fun i => gf (ellCoeff.getD i 0))
    (fun n => gf (shiftOut a n)) (fun h => absurd (gf_eq_zero h) (by decide))
    (fun i hi j hj e => gpow_distinct i hi j hj (gf_injective (by rw [gf_gpow, gf_gpow, e])))
    (fun t ht => by
      have := congrArg gf (gpow_root t ht)
      rw [gf_foldl_xor] at this
      simp only [gf_gpow, gf_gfMul] at this
      exact this)
    (fun n => gf_shiftOut_step a n)
    (by
      refine le_trans hz (Finset.card_le_card fun n hn => ?_)
      rw [Finset.mem_filter] at hn ⊢
      exact ⟨hn.1, by rw [hn.2, gf_zero]⟩)
  refine block_ext fun i hi => ?_
  have e := shiftOut_byte a hi 0
  have e' := gf_eq_zero (h (0 + i))
  rw [e'] at e
  refine Eq.trans e ?_
  simp [byte]

theorem countP_range (p : Nat → Bool) (n : Nat) :
    (List.range n).countP p = ∑ i ∈ Finset.range n, if p i then 1 else 0 := by
  induction n with
  | zero => rfl
  | succ n ih =>
    rw [List.range_succ, List.countP_append, ih, Finset.sum_range_succ]
    congr 1
    simp [List.countP_cons]

open Spec.Kuz (differing S LSX)

/-- The branch number of the linear transformation is 17. -/
theorem L_differing {a b : Block} (h : a ≠ b) : 17 ≤ differing a b + differing (L a) (L b) := by
  have hx : ∀ (x y : Block) (i : Nat), (byte x i != byte y i) = (byte (x ^^^ y) i != 0) := by
    intro x y i
    rw [byte_xor]
    by_cases e : byte x i = byte y i
    · rw [e]; simp
    · have : byte x i ^^^ byte y i ≠ 0 := fun h => e (BitVec.xor_eq_zero_iff.1 h)
      rw [bne_iff_ne.2 e, bne_iff_ne.2 this]
  have hlt : ¬ 16 ≤ ((Finset.range 32).filter fun n => shiftOut (a ^^^ b) n = 0).card :=
    fun hz => h (BitVec.xor_eq_zero_iff.1 (L_zero _ hz))
  have hsum : ((Finset.range 32).filter fun n => shiftOut (a ^^^ b) n = 0).card +
      ((Finset.range 32).filter fun n => ¬ shiftOut (a ^^^ b) n = 0).card = 32 := by
    rw [Finset.card_filter_add_card_filter_not, Finset.card_range]
  have e1 : differing a b = ∑ i ∈ Finset.range 16, if ¬ shiftOut (a ^^^ b) i = 0 then 1 else 0 := by
    rw [differing, countP_range]
    refine Finset.sum_congr rfl fun i hi => ?_
    have e := shiftOut_byte (a ^^^ b) (Finset.mem_range.1 hi) 0
    rw [Nat.zero_add] at e
    rw [hx, ← e]
    by_cases e0 : byte (a ^^^ b) i = 0#8 <;> simp [Nat.repeat, e0]
  have e2 : differing (L a) (L b) =
      ∑ i ∈ Finset.range 16, if ¬ shiftOut (a ^^^ b) (16 + i) = 0 then 1 else 0 := by
    rw [differing, countP_range]
    refine Finset.sum_congr rfl fun i hi => ?_
    rw [hx, ← L_xor, ← shiftOut_byte (a ^^^ b) (Finset.mem_range.1 hi) 16]
    simp [L]
  have e3 : ((Finset.range 32).filter fun n => ¬ shiftOut (a ^^^ b) n = 0).card =
      differing a b + differing (L a) (L b) := by
    rw [e1, e2, Finset.card_filter, ← Finset.sum_range_add _ 16 16]
  omega

theorem differing_X (k a b : Block) : differing (Spec.Kuz.X k a) (Spec.Kuz.X k b) = differing a b := by
  unfold differing
  congr 1
  funext i
  rw [Spec.Kuz.X, Spec.Kuz.X, byte_xor, byte_xor, Bool.eq_iff_iff, bne_iff_ne, bne_iff_ne, ne_eq, ne_eq,
    BitVec.xor_right_inj]

theorem differing_S (a b : Block) : differing (S a) (S b) = differing a b := by
  unfold differing
  refine List.countP_congr fun i hi => ?_
  have hi := List.mem_range.1 hi
  rw [S, S, byte_ofBytes _ hi, byte_ofBytes _ hi, bne_iff_ne, bne_iff_ne]
  constructor
  · intro h e; exact h (by rw [e])
  · intro h e
    have := congrArg Spec.Kuz.piInv e
    rw [piInv_pi, piInv_pi] at this
    exact h this

theorem differing_le (a b : Block) : differing a b ≤ 16 := by
  have := List.countP_le_length (p := fun i => byte a i != byte b i) (l := List.range 16)
  rwa [List.length_range] at this

theorem differing_zero {a b : Block} : differing a b = 0 ↔ a = b := by
  constructor
  · intro h
    refine block_ext fun i hi => ?_
    have := List.countP_eq_zero.1 h i (List.mem_range.2 hi)
    simpa using this
  · rintro rfl
    unfold differing
    rw [List.countP_eq_zero]
    intro i _
    simp

theorem LSX_differing (k : Block) {a b : Block} (h : a ≠ b) :
    17 ≤ differing a b + differing (LSX k a) (LSX k b) := by
  have e : differing (S (Spec.Kuz.X k a)) (S (Spec.Kuz.X k b)) = differing a b := by rw [differing_S, differing_X]
  have := L_differing (a := S (Spec.Kuz.X k a)) (b := S (Spec.Kuz.X k b)) (fun h' => h (by
    rw [← differing_zero, ← e, h', differing_zero]))
  rwa [e] at this

open Spec (join64)

theorem LSX_ne (k : Block) {a b : Block} (h : a ≠ b) : LSX k a ≠ LSX k b := by
  intro e
  have h1 := LSX_differing k h
  rw [e, differing_zero.2 rfl] at h1
  have := differing_le a b
  omega

/-- The values of a block and of another one, round by round. -/
theorem rounds_differing {m : Machine} (hm : m.unalignedLoad = true) (ks : List Kuz.Blk)
    (hk : ∀ k ∈ ks, ∃ u, k.value m = .ok u) : ∀ (a b : Kuz.Blk) (v w : W64 × W64), a.value m = .ok v →
    b.value m = .ok w → v ≠ w → ∃ x y : Nat → W64 × W64,
      (∀ n, n ≤ ks.length → ((ks.take n).foldl Kuz.Key.encryptStep a).value m = .ok (x n) ∧
        ((ks.take n).foldl Kuz.Key.encryptStep b).value m = .ok (y n) ∧
        1 ≤ differing (join64 (x n)) (join64 (y n))) ∧
      ∀ n, n < ks.length → 17 ≤ differing (join64 (x n)) (join64 (y n)) +
        differing (join64 (x (n + 1))) (join64 (y (n + 1))) := by
  induction ks with
  | nil =>
    intro a b v w ha hb hne
    refine ⟨fun _ => v, fun _ => w, fun n hn => ⟨by simpa using ha, by simpa using hb, ?_⟩, fun n hn => by simp at hn⟩
    exact Nat.pos_of_ne_zero fun h => hne (join64_inj (differing_zero.1 h))
  | cons k ks ih =>
    intro a b v w ha hb hne
    obtain ⟨u, hu⟩ := hk k List.mem_cons_self
    obtain ⟨v', e1, e2⟩ := HasValue.lsx hm (b := a) ⟨v, ha, rfl⟩ ⟨u, hu, rfl⟩
    obtain ⟨w', e3, e4⟩ := HasValue.lsx hm (b := b) ⟨w, hb, rfl⟩ ⟨u, hu, rfl⟩
    have hj : join64 v ≠ join64 w := fun h => hne (join64_inj h)
    have hne' : v' ≠ w' := by
      rintro rfl
      exact LSX_ne _ hj (e2.symm.trans e4)
    obtain ⟨x, y, h1, h2⟩ := ih (fun k' hk' => hk k' (List.mem_cons_of_mem _ hk')) _ _ v' w' e1 e3 hne'
    refine ⟨fun n => n.casesOn v x, fun n => n.casesOn w y, fun n hn => ?_, fun n hn => ?_⟩
    · cases n with
      | zero => exact ⟨ha, hb, Nat.pos_of_ne_zero fun h => hj (differing_zero.1 h)⟩
      | succ n => exact h1 n (by simpa using hn)
    · cases n with
      | zero =>
        have q := (h1 0 (Nat.zero_le _))
        simp only [List.take_zero, List.foldl_nil] at q
        have e5 : x 0 = v' := by have := q.1.symm.trans e1; simpa using this
        have e6 : y 0 = w' := by have := q.2.1.symm.trans e3; simpa using this
        show 17 ≤ differing (join64 v) (join64 w) + differing (join64 (x 0)) (join64 (y 0))
        rw [e5, e6, e2, e4]
        exact LSX_differing _ hj
      | succ n => exact h2 n (by simpa using hn)

end Goost
