import Verif.Spec.RandomTables
import Verif.Lemmas.Feistel
import Verif.Lemmas.Parities
import Mathlib.Data.Fintype.BigOperators
import Mathlib.Data.Fintype.Pi
import Mathlib.Algebra.BigOperators.Intervals
import Mathlib.Order.Interval.Finset.Fin
import Mathlib.Tactic.Linarith
import Mathlib.Tactic.FieldSimp
import Mathlib.Tactic.Ring
/-
Helper lemmas: four rounds with random tables take different blocks to any different blocks with almost equally many tables.
-/
namespace Goost.RandomTables
open Finset

section
open Classical
variable {W : Type} [Fintype W]

theorem card_given {q : Nat} {xs : Fin q → W} (hx : Function.Injective xs) (ys : Fin q → W) :
    #{f : W → W | ∀ i, f (xs i) = ys i} * Fintype.card W ^ q = Fintype.card (W → W) := by
  have e : ({f : W → W | ∀ i, f (xs i) = ys i} : Finset (W → W)) =
      Fintype.piFinset fun w => if w ∈ univ.image xs then {Function.extend xs ys id w} else univ := by
    ext f
    simp only [mem_filter, mem_univ, true_and, Fintype.mem_piFinset, mem_image]
    constructor
    · intro h w
      split
      · next hw =>
        obtain ⟨i, rfl⟩ := hw
        rw [mem_singleton, hx.extend_apply, h]
      · exact mem_univ _
    · intro h i
      have := h (xs i)
      rw [if_pos ⟨i, rfl⟩, mem_singleton, hx.extend_apply] at this
      exact this
  rw [e, Fintype.card_piFinset]
  simp only [apply_ite Finset.card, card_singleton, card_univ]
  rw [prod_ite, prod_const_one, one_mul, prod_const, ← pow_add, Fintype.card_fun]
  congr 1
  have h1 := card_filter_add_card_filter_not (s := (univ : Finset W)) (fun w => w ∈ univ.image xs)
  have h2 : #{w : W | w ∈ univ.image xs} = q := by
    rw [filter_mem_eq_inter, univ_inter, card_image_of_injective _ hx, card_univ, Fintype.card_fin]
  rw [card_univ] at h1
  omega

variable [Nonempty W]

/-- The share of the functions with given values in different places. -/
theorem share_given {q : Nat} {xs : Fin q → W} (hx : Function.Injective xs) (ys : Fin q → W) :
    (#{f : W → W | ∀ i, f (xs i) = ys i} : ℚ) = Fintype.card (W → W) / (Fintype.card W : ℚ) ^ q := by
  have hN : (Fintype.card W : ℚ) ≠ 0 := by exact_mod_cast Fintype.card_ne_zero
  rw [eq_div_iff (pow_ne_zero _ hN)]
  exact_mod_cast card_given hx ys

theorem card_pair {r s : W} (h : r ≠ s) {c : W → W → Prop} (hc : ∀ a, ∃! b, c a b) :
    #{f : W → W | c (f r) (f s)} * Fintype.card W = Fintype.card (W → W) := by
  choose g hg hu using hc
  have e : ({f : W → W | c (f r) (f s)} : Finset (W → W)) =
      univ.biUnion fun a => {f : W → W | ∀ i, f (![r, s] i) = ![a, g a] i} := by
    ext f
    simp only [mem_filter, mem_univ, true_and, mem_biUnion, Fin.forall_fin_two, Matrix.cons_val_zero, Matrix.cons_val_one]
    constructor
    · intro h
      exact ⟨f r, rfl, hu _ _ h⟩
    · rintro ⟨a, rfl, h2⟩
      rw [h2]
      exact hg _
  have hi : Function.Injective ![r, s] := by
    intro i j
    fin_cases i <;> fin_cases j <;> simp [h, h.symm]
  have hd : #{f : W → W | c (f r) (f s)} = ∑ a : W, #{f : W → W | ∀ i, f (![r, s] i) = ![a, g a] i} := by
    rw [e, card_biUnion]
    intro a _ b _ hab
    rw [Function.onFun, disjoint_left]
    intro f ha hb
    simp only [mem_filter, mem_univ, true_and] at ha hb
    exact hab ((ha 0).symm.trans (hb 0))
  have hN : 0 < Fintype.card W := Fintype.card_pos
  refine Nat.eq_of_mul_eq_mul_right hN ?_
  rw [mul_assoc, ← sq, hd, sum_mul, sum_congr rfl fun a _ => card_given hi ![a, g a], sum_const, card_univ, smul_eq_mul, mul_comm]

theorem share_bad {q : Nat} {α : Type} [Fintype α] (P : α → Prop) (bad : Fin q → Fin q → α → Prop) (c : ℚ)
    (hb : ∀ i j, i < j → (#{f : α | bad i j f} : ℚ) ≤ c) (hP : ∀ f, ¬ P f → ∃ i j, i < j ∧ bad i j f) :
    (Fintype.card α : ℚ) - q * (q - 1) / 2 * c ≤ #{f : α | P f} := by
  have h1 := card_filter_add_card_filter_not (s := (univ : Finset α)) P
  have h2 : (#{f : α | ¬ P f} : ℚ) ≤ ∑ j : Fin q, ∑ i ∈ Iio j, c := by
    have : ({f : α | ¬ P f} : Finset α) ⊆ univ.biUnion fun j : Fin q => (Iio j).biUnion fun i => {f : α | bad i j f} := by
      intro f hf
      obtain ⟨i, j, hij, h⟩ := hP f (by simpa using hf)
      simp only [mem_biUnion, mem_univ, true_and, mem_filter, mem_Iio]
      exact ⟨j, i, hij, h⟩
    calc (#{f : α | ¬ P f} : ℚ) ≤ ((∑ j : Fin q, ∑ i ∈ Iio j, #{f : α | bad i j f} : ℕ) : ℚ) := by
          exact_mod_cast (card_le_card this).trans (card_biUnion_le.trans (sum_le_sum fun j _ => card_biUnion_le))
      _ ≤ _ := by
          push_cast
          exact sum_le_sum fun j _ => sum_le_sum fun i hi => hb i j (mem_Iio.1 hi)
  have h3 : (∑ j : Fin q, ∑ i ∈ Iio j, c) = q * (q - 1) / 2 * c := by
    simp only [sum_const, Fin.card_Iio, nsmul_eq_mul]
    rw [← sum_mul]
    congr 1
    rw [Fin.sum_univ_eq_sum_range (fun j => (j : ℚ)) q]
    clear * -
    induction q with
    | zero => simp
    | succ n ih => rw [sum_range_succ, ih]; push_cast; ring
  rw [card_univ] at h1
  have h1 : (#{f : α | P f} : ℚ) + #{f : α | ¬ P f} = Fintype.card α := by exact_mod_cast h1
  linarith

/-- A test on a random outcome: if almost all outcomes are taken by almost as many keys as they should, then every set of outcomes is. -/
theorem share_test {K O : Type} [Fintype K] [Fintype O] [Nonempty K] [Nonempty O] (φ : K → O) (D : O → Prop) {δ β : ℚ} (hδ : 0 ≤ δ) (hβ : 0 ≤ β)
    (hD : (Fintype.card O : ℚ) - β * Fintype.card O ≤ #{w : O | D w})
    (hφ : ∀ w, D w → (1 - δ) * (Fintype.card K / Fintype.card O) ≤ (#{k : K | φ k = w} : ℚ)) (A : O → Prop) :
    (#{w : O | A w} : ℚ) / Fintype.card O - (δ + β) ≤ (#{k : K | A (φ k)} : ℚ) / Fintype.card K := by
  have hK : (0 : ℚ) < Fintype.card K := by exact_mod_cast Fintype.card_pos
  have hO : (0 : ℚ) < Fintype.card O := by exact_mod_cast Fintype.card_pos
  have ha : (#{w : O | A w} : ℚ) ≤ Fintype.card O := by exact_mod_cast card_le_univ _
  have ha' : (#{w : O | A w} : ℚ) / Fintype.card O ≤ 1 := (div_le_one hO).2 ha
  by_cases h1 : 1 < δ
  · have : (0 : ℚ) ≤ (#{k : K | A (φ k)} : ℚ) / Fintype.card K := by positivity
    linarith
  have hs : (#{k : K | A (φ k)} : ℚ) = ∑ w ∈ {w : O | A w}, (#{k : K | φ k = w} : ℚ) := by
    have : ({k : K | A (φ k)} : Finset K) = ({w : O | A w} : Finset O).biUnion fun w => {k : K | φ k = w} := by
      ext k; simp
    rw [this, card_biUnion]
    · push_cast; rfl
    · intro a _ b _ hab
      rw [Function.onFun, disjoint_left]
      intro k h2 h3
      simp only [mem_filter, mem_univ, true_and] at h2 h3
      exact hab (h2.symm.trans h3)
  have hAD : (#{w : O | A w} : ℚ) - β * Fintype.card O ≤ #{w : O | A w ∧ D w} := by
    have e1 := card_filter_add_card_filter_not (s := ({w : O | A w} : Finset O)) D
    have e2 := card_filter_add_card_filter_not (s := (univ : Finset O)) D
    have e3 : #{w ∈ ({w : O | A w} : Finset O) | ¬ D w} ≤ #{w : O | ¬ D w} := card_le_card (filter_subset_filter _ (subset_univ _))
    rw [filter_filter] at e1
    rw [card_univ] at e2
    have e1 : (#{w : O | A w ∧ D w} : ℚ) + #{w ∈ ({w : O | A w} : Finset O) | ¬ D w} = #{w : O | A w} := by exact_mod_cast e1
    have e2 : (#{w : O | D w} : ℚ) + #{w : O | ¬ D w} = Fintype.card O := by exact_mod_cast e2
    have e3 : (#{w ∈ ({w : O | A w} : Finset O) | ¬ D w} : ℚ) ≤ #{w : O | ¬ D w} := by exact_mod_cast e3
    linarith
  have h2 : (#{w : O | A w ∧ D w} : ℚ) * ((1 - δ) * (Fintype.card K / Fintype.card O)) ≤ #{k : K | A (φ k)} := by
    rw [hs, ← nsmul_eq_mul, ← sum_const]
    refine (sum_le_sum fun w hw => hφ w (by simpa using (mem_filter.1 hw).2.2)).trans ?_
    refine sum_le_sum_of_subset_of_nonneg (fun w hw => ?_) fun _ _ _ => by positivity
    simp only [mem_filter, mem_univ, true_and] at hw ⊢
    exact hw.1
  rw [le_div_iff₀ hK]
  refine le_trans ?_ h2
  have h3 : 0 ≤ (1 - δ) * (Fintype.card K / Fintype.card O : ℚ) := mul_nonneg (by linarith) (by positivity)
  refine le_trans ?_ (mul_le_mul_of_nonneg_right hAD h3)
  obtain ⟨a, hae⟩ : ∃ a, a = (#{w : O | A w} : ℚ) / Fintype.card O := ⟨_, rfl⟩
  have e : (#{w : O | A w} : ℚ) = a * Fintype.card O := by rw [hae, div_mul_cancel₀ _ hO.ne']
  rw [← hae, e]
  rw [← hae] at ha'
  have : (a * Fintype.card O - β * Fintype.card O) * ((1 - δ) * (Fintype.card K / Fintype.card O : ℚ)) = (a - β) * (1 - δ) * Fintype.card K := by
    field_simp
  rw [this]
  refine mul_le_mul_of_nonneg_right ?_ hK.le
  nlinarith [mul_nonneg hδ (by linarith : (0 : ℚ) ≤ 1 - (a - β))]

/-- Both directions. -/
theorem share_test_abs {K O : Type} [Fintype K] [Fintype O] [Nonempty K] [Nonempty O] (φ : K → O) (D : O → Prop) {δ β : ℚ} (hδ : 0 ≤ δ) (hβ : 0 ≤ β)
    (hD : (Fintype.card O : ℚ) - β * Fintype.card O ≤ #{w : O | D w})
    (hφ : ∀ w, D w → (1 - δ) * (Fintype.card K / Fintype.card O) ≤ (#{k : K | φ k = w} : ℚ)) (A : O → Prop) :
    |(#{k : K | A (φ k)} : ℚ) / Fintype.card K - (#{w : O | A w} : ℚ) / Fintype.card O| ≤ δ + β := by
  have hK : (0 : ℚ) < Fintype.card K := by exact_mod_cast Fintype.card_pos
  have hO : (0 : ℚ) < Fintype.card O := by exact_mod_cast Fintype.card_pos
  have h1 := share_test φ D hδ hβ hD hφ A
  have h2 : (#{w : O | ¬ A w} : ℚ) / Fintype.card O - (δ + β) ≤ (#{k : K | ¬ A (φ k)} : ℚ) / Fintype.card K := by
    convert share_test φ D hδ hβ hD hφ fun w => ¬ A w
  have c1 : (#{k : K | A (φ k)} : ℚ) + #{k : K | ¬ A (φ k)} = Fintype.card K := by
    exact_mod_cast (card_filter_add_card_filter_not (s := (univ : Finset K)) fun k => A (φ k)).trans card_univ
  have c2 : (#{w : O | A w} : ℚ) + #{w : O | ¬ A w} = Fintype.card O := by
    exact_mod_cast (card_filter_add_card_filter_not (s := (univ : Finset O)) A).trans card_univ
  have d1 : (#{k : K | ¬ A (φ k)} : ℚ) / Fintype.card K = 1 - (#{k : K | A (φ k)} : ℚ) / Fintype.card K := by
    rw [eq_sub_iff_add_eq, ← add_div, add_comm, c1, div_self hK.ne']
  have d2 : (#{w : O | ¬ A w} : ℚ) / Fintype.card O = 1 - (#{w : O | A w} : ℚ) / Fintype.card O := by
    rw [eq_sub_iff_add_eq, ← add_div, add_comm, c2, div_self hO.ne']
  rw [abs_le]
  constructor <;> linarith

/-- Four rounds. -/
def psi (x : W → W → W) (p : (W → W) × (W → W) × (W → W) × (W → W)) (v : W × W) : W × W :=
  let b := x v.2 (p.1 v.1)
  let a := x v.1 (p.2.1 b)
  let b := x b (p.2.2.1 a)
  let a := x a (p.2.2.2 b)
  (a, b)

omit [Fintype W] [Nonempty W] in
theorem psi_eq {x : W → W → W} (hx : ∀ a b, x (x a b) b = a) (hc : ∀ a b, x a b = x b a) (p : (W → W) × (W → W) × (W → W) × (W → W)) (v w : W × W) :
    psi x p v = w ↔ p.2.1 (x v.2 (p.1 v.1)) = x v.1 (x w.1 (p.2.2.2 w.2)) ∧
      p.2.2.1 (x w.1 (p.2.2.2 w.2)) = x (x v.2 (p.1 v.1)) w.2 := by
  have solve : ∀ a b c, x a b = c ↔ b = x a c := by
    intro a b c
    constructor
    · rintro rfl
      rw [hc a b, hc a, hx]
    · rintro rfl
      rw [hc a c, hc a, hx]
  have solve' : ∀ a b c, x a b = c ↔ a = x c b := by
    intro a b c
    rw [hc a b, solve b a c, hc]
  rw [Prod.ext_iff]
  simp only [psi]
  constructor
  · rintro ⟨h1, h2⟩
    rw [h2, solve'] at h1
    rw [h1, solve] at h2
    exact ⟨(solve _ _ _).1 h1, h2⟩
  · rintro ⟨h1, h2⟩
    rw [← solve] at h1 h2
    rw [h1, h2]
    exact ⟨hx _ _, rfl⟩

/-- Almost all tables keep the outcomes of different blocks apart. -/
theorem share_apart {x : W → W → W} (hx : ∀ a b, x (x a b) b = a) (hc : ∀ a b, x a b = x b a) {q : Nat} {v : Fin q → W × W} (hv : Function.Injective v) :
    (1 - q * (q - 1) / 2 / Fintype.card W : ℚ) * Fintype.card (W → W) ≤ #{f : W → W | Function.Injective fun i => x (v i).2 (f (v i).1)} := by
  have inj : ∀ a b c, x a c = x b c → a = b := fun a b c e => by rw [← hx a c, e, hx]
  have hN : (0 : ℚ) < Fintype.card W := by exact_mod_cast Fintype.card_pos
  have := share_bad (fun f : W → W => Function.Injective fun i => x (v i).2 (f (v i).1))
    (fun i j f => x (v i).2 (f (v i).1) = x (v j).2 (f (v j).1)) (Fintype.card (W → W) / Fintype.card W) ?_ ?_
  · refine (le_of_eq ?_).trans (this.trans (le_of_eq ?_))
    · field_simp
    · congr!
  · intro i j hij
    by_cases h : (v i).1 = (v j).1
    · have : ({f : W → W | x (v i).2 (f (v i).1) = x (v j).2 (f (v j).1)} : Finset (W → W)) = ∅ := by
        rw [filter_eq_empty_iff]
        intro f _ e
        rw [h] at e
        exact hij.ne (hv (Prod.ext h (inj _ _ _ e)))
      rw [this, card_empty, Nat.cast_zero]
      positivity
    · rw [le_div_iff₀ hN]
      have := card_pair h (c := fun a b => x (v i).2 a = x (v j).2 b) fun a =>
        ⟨x (x (v i).2 a) (v j).2, by simp only; rw [hc (v j).2, hx], fun b e => by simp only at e; rw [e, hc (v j).2, hx]⟩
      exact_mod_cast this.le
  · intro f hf
    simp only [Function.Injective, not_forall] at hf
    obtain ⟨i, j, e, h⟩ := hf
    rcases lt_or_gt_of_ne h with h | h
    · exact ⟨i, j, h, e⟩
    · exact ⟨j, i, h, e.symm⟩

/-- Four rounds take different blocks to given different blocks with almost as many tables as they should. -/
theorem share_psi {x : W → W → W} (hx : ∀ a b, x (x a b) b = a) (hc : ∀ a b, x a b = x b a) {q : Nat} {v w : Fin q → W × W}
    (hv : Function.Injective v) (hw : Function.Injective w) :
    (1 - q * (q - 1) / Fintype.card W : ℚ) * ((Fintype.card (W → W) : ℚ) ^ 4 / (Fintype.card W : ℚ) ^ (2 * q)) ≤
      #{p : (W → W) × (W → W) × (W → W) × (W → W) | ∀ i, psi x p (v i) = w i} := by
  have hF : (0 : ℚ) < Fintype.card (W → W) := by exact_mod_cast Fintype.card_pos
  have hN : (0 : ℚ) < Fintype.card W := by exact_mod_cast Fintype.card_pos
  let G1 : Finset (W → W) := {f : W → W | Function.Injective fun i => x (v i).2 (f (v i).1)}
  let G4 : Finset (W → W) := {f : W → W | Function.Injective fun i => x (w i).1 (f (w i).2)}
  have h1 : (1 - q * (q - 1) / 2 / Fintype.card W : ℚ) * Fintype.card (W → W) ≤ #G1 := share_apart hx hc hv
  have h4 : (1 - q * (q - 1) / 2 / Fintype.card W : ℚ) * Fintype.card (W → W) ≤ #G4 :=
    share_apart hx hc (v := fun i => (w i).swap) (Prod.swap_injective.comp hw)
  let c : ℚ := Fintype.card (W → W) / (Fintype.card W : ℚ) ^ q
  let S : (W → W) × (W → W) → Finset ((W → W) × (W → W) × (W → W) × (W → W)) := fun e =>
    ((({f : W → W | ∀ i, f (x (v i).2 (e.1 (v i).1)) = x (v i).1 (x (w i).1 (e.2 (w i).2))} : Finset (W → W)) ×ˢ
      ({f : W → W | ∀ i, f (x (w i).1 (e.2 (w i).2)) = x (x (v i).2 (e.1 (v i).1)) (w i).2} : Finset (W → W))).map
        ⟨fun g => (e.1, g.1, g.2, e.2), fun _ _ h => by simp only [Prod.mk.injEq] at h; exact Prod.ext h.2.1 h.2.2.1⟩)
  have hS : ∀ e ∈ G1 ×ˢ G4, (#(S e) : ℚ) = c * c := by
    intro e he
    rw [mem_product, mem_filter, mem_filter] at he
    rw [card_map, card_product]
    push_cast
    rw [share_given he.1.2, share_given he.2.2]
  have hsub : (G1 ×ˢ G4).biUnion S ⊆ ({p : (W → W) × (W → W) × (W → W) × (W → W) | ∀ i, psi x p (v i) = w i} : Finset _) := by
    intro p hp
    rw [mem_biUnion] at hp
    obtain ⟨e, -, hp⟩ := hp
    rw [mem_map] at hp
    obtain ⟨g, hg, rfl⟩ := hp
    rw [mem_product, mem_filter, mem_filter] at hg
    rw [mem_filter]
    exact ⟨mem_univ _, fun i => (psi_eq hx hc _ _ _).2 ⟨hg.1.2 i, hg.2.2 i⟩⟩
  have hcard : (#((G1 ×ˢ G4).biUnion S) : ℚ) = #G1 * #G4 * (c * c) := by
    rw [card_biUnion]
    · push_cast
      rw [sum_congr rfl hS, sum_const, card_product, nsmul_eq_mul]
      push_cast
      rfl
    · intro a _ b _ hab
      rw [Function.onFun, disjoint_left]
      intro p ha hb
      rw [mem_map] at ha hb
      obtain ⟨g, -, rfl⟩ := ha
      obtain ⟨g', -, h⟩ := hb
      have h : (b.1, g'.1, g'.2, b.2) = (a.1, g.1, g.2, a.2) := h
      simp only [Prod.mk.injEq] at h
      exact hab (Prod.ext h.1.symm h.2.2.2.symm)
  have hle : (#((G1 ×ˢ G4).biUnion S) : ℚ) ≤ #{p : (W → W) × (W → W) × (W → W) × (W → W) | ∀ i, psi x p (v i) = w i} := by
    exact_mod_cast card_le_card hsub
  refine le_trans ?_ hle
  rw [hcard]
  have u1 : (#G1 : ℚ) ≤ Fintype.card (W → W) := by exact_mod_cast card_le_univ _
  have u4 : (#G4 : ℚ) ≤ Fintype.card (W → W) := by exact_mod_cast card_le_univ _
  generalize (#G1 : ℚ) = g1 at *
  generalize (#G4 : ℚ) = g4 at *
  have hcc : c * c * (Fintype.card (W → W) : ℚ) ^ 2 = (Fintype.card (W → W) : ℚ) ^ 4 / (Fintype.card W : ℚ) ^ (2 * q) := by
    simp only [c]
    rw [two_mul, pow_add]
    field_simp
  rw [← hcc]
  have key : (1 - q * (q - 1) / Fintype.card W : ℚ) * (Fintype.card (W → W) : ℚ) ^ 2 ≤ g1 * g4 := by
    generalize (Fintype.card (W → W) : ℚ) = F at *
    have e : (q * (q - 1) / Fintype.card W : ℚ) = 2 * (q * (q - 1) / 2 / Fintype.card W) := by field_simp
    rw [e]
    generalize (q * (q - 1) / 2 / Fintype.card W : ℚ) = d at *
    have := mul_nonneg (by linarith : (0 : ℚ) ≤ F - g1) (by linarith : (0 : ℚ) ≤ F - g4)
    nlinarith
  calc _ = (1 - q * (q - 1) / Fintype.card W : ℚ) * (Fintype.card (W → W) : ℚ) ^ 2 * (c * c) := by ring
    _ ≤ _ := mul_le_mul_of_nonneg_right key (mul_self_nonneg c)

/-- Almost all lists of blocks are without repetition. -/
theorem share_distinct {B : Type} [Fintype B] [Nonempty B] (q : Nat) :
    (Fintype.card (Fin q → B) : ℚ) - q * (q - 1) / 2 / Fintype.card B * Fintype.card (Fin q → B) ≤ #{w : Fin q → B | Function.Injective w} := by
  have hN : (0 : ℚ) < Fintype.card B := by exact_mod_cast Fintype.card_pos
  have := share_bad (fun w : Fin q → B => Function.Injective w) (fun i j w => w i = w j) (Fintype.card (Fin q → B) / Fintype.card B) ?_ ?_
  · refine (le_of_eq ?_).trans (this.trans (le_of_eq ?_))
    · field_simp
    · congr!
  · intro i j hij
    rw [le_div_iff₀ hN]
    have e : #{w : Fin q → B | w i = w j} * Fintype.card B = Fintype.card (Fin q → B) := by
      rw [← card_univ (α := B), ← card_product, ← card_univ]
      refine card_bij (fun p _ => Function.update p.1 j p.2) (fun _ _ => mem_univ _) ?_ ?_
      · rintro ⟨w, b⟩ hw ⟨w', b'⟩ hw' h
        simp only [mem_product, mem_filter, mem_univ, true_and, and_true] at hw hw' h
        have hb : b = b' := by simpa using congrFun h j
        have hi : w i = w' i := by simpa [hij.ne] using congrFun h i
        refine Prod.ext (funext fun n => ?_) hb
        by_cases hn : n = j
        · subst hn; exact hw.symm.trans (hi.trans hw')
        · simpa [hn] using congrFun h n
      · intro w _
        refine ⟨(Function.update w j (w i), w j), ?_, by simp⟩
        simp [hij.ne]
    exact_mod_cast e.le
  · intro w hw
    simp only [Function.Injective, not_forall] at hw
    obtain ⟨i, j, e, h⟩ := hw
    rcases lt_or_gt_of_ne h with h | h
    · exact ⟨i, j, h, e⟩
    · exact ⟨j, i, h, e.symm⟩

omit [Fintype W] [Nonempty W] in
theorem psi_injective {x : W → W → W} (hx : ∀ a b, x (x a b) b = a) (p : (W → W) × (W → W) × (W → W) × (W → W)) :
    Function.Injective (psi x p) := by
  have inj : ∀ a b c, x a c = x b c → a = b := fun a b c e => by rw [← hx a c, e, hx]
  intro u v e
  obtain ⟨h1, h2⟩ := Prod.ext_iff.1 e
  simp only [psi] at h1 h2
  rw [h2] at h1
  have h1 := inj _ _ _ h1
  rw [h1] at h2
  have h2 := inj _ _ _ h2
  rw [h2] at h1
  have h1 := inj _ _ _ h1
  rw [h1] at h2
  exact Prod.ext h1 (inj _ _ _ h2)

/-- Eight rounds. -/
def psi8 (x : W → W → W) (f : Fin 8 → W → W) (v : W × W) : W × W :=
  psi x (f 4, f 5, f 6, f 7) (psi x (f 0, f 1, f 2, f 3) v)

theorem share_psi8 {x : W → W → W} (hx : ∀ a b, x (x a b) b = a) (hc : ∀ a b, x a b = x b a) {q : Nat} {v w : Fin q → W × W}
    (hv : Function.Injective v) (hw : Function.Injective w) :
    (1 - q * (q - 1) / Fintype.card W : ℚ) * (Fintype.card (Fin 8 → W → W) / Fintype.card (Fin q → W × W)) ≤
      #{f : Fin 8 → W → W | ∀ i, psi8 x f (v i) = w i} := by
  let Q := (W → W) × (W → W) × (W → W) × (W → W)
  let glue : Q × Q → Fin 8 → W → W := fun p =>
    ![p.1.1, p.1.2.1, p.1.2.2.1, p.1.2.2.2, p.2.1, p.2.2.1, p.2.2.2.1, p.2.2.2.2]
  have hg : Function.Injective glue := by
    intro p p' e
    have h0 := congrFun e 0
    have h1 := congrFun e 1
    have h2 := congrFun e 2
    have h3 := congrFun e 3
    have h4 := congrFun e 4
    have h5 := congrFun e 5
    have h6 := congrFun e 6
    have h7 := congrFun e 7
    exact Prod.ext (Prod.ext h0 (Prod.ext h1 (Prod.ext h2 h3))) (Prod.ext h4 (Prod.ext h5 (Prod.ext h6 h7)))
  let S : Q → Finset (Q × Q) := fun p => ({p' : Q | ∀ i, psi x p' (psi x p (v i)) = w i} : Finset Q).map ⟨fun p' => (p, p'), fun _ _ h => (Prod.ext_iff.1 h).2⟩
  have hsub : ((univ : Finset Q).biUnion S).map ⟨glue, hg⟩ ⊆ ({f : Fin 8 → W → W | ∀ i, psi8 x f (v i) = w i} : Finset _) := by
    intro f hf
    rw [mem_map] at hf
    obtain ⟨pp, hp, rfl⟩ := hf
    rw [mem_biUnion] at hp
    obtain ⟨p, -, hp⟩ := hp
    rw [mem_map] at hp
    obtain ⟨p', hp', rfl⟩ := hp
    rw [mem_filter] at hp' ⊢
    exact ⟨mem_univ _, hp'.2⟩
  have hcard : #(((univ : Finset Q).biUnion S).map ⟨glue, hg⟩) = ∑ p : Q, #({p' : Q | ∀ i, psi x p' (psi x p (v i)) = w i} : Finset Q) := by
    rw [card_map, card_biUnion]
    · exact sum_congr rfl fun p _ => card_map _
    · intro a _ b _ hab
      rw [Function.onFun, disjoint_left]
      intro p ha hb
      rw [mem_map] at ha hb
      obtain ⟨g, -, rfl⟩ := ha
      obtain ⟨g', -, h⟩ := hb
      exact hab (Prod.ext_iff.1 h).1.symm
  have hle : (∑ p : Q, (#({p' : Q | ∀ i, psi x p' (psi x p (v i)) = w i} : Finset Q) : ℚ)) ≤ #{f : Fin 8 → W → W | ∀ i, psi8 x f (v i) = w i} := by
    have := card_le_card hsub
    rw [hcard] at this
    exact_mod_cast this
  refine le_trans ?_ hle
  refine le_trans ?_ (sum_le_sum fun p _ => share_psi hx hc ((psi_injective hx p).comp hv) hw)
  rw [sum_const, card_univ, nsmul_eq_mul]
  refine le_of_eq ?_
  have e1 : (Fintype.card Q : ℚ) = (Fintype.card (W → W) : ℚ) ^ 4 := by
    have : Fintype.card Q = Fintype.card (W → W) * (Fintype.card (W → W) * (Fintype.card (W → W) * Fintype.card (W → W))) := by
      simp only [Q, Fintype.card_prod]
    rw [this]; push_cast; ring
  have e2 : (Fintype.card (Fin 8 → W → W) : ℚ) = (Fintype.card (W → W) : ℚ) ^ 8 := by
    rw [Fintype.card_fun, Fintype.card_fin]; push_cast; rfl
  have e3 : (Fintype.card (Fin q → W × W) : ℚ) = (Fintype.card W : ℚ) ^ (2 * q) := by
    rw [Fintype.card_fun, Fintype.card_fin, Fintype.card_prod, pow_mul, sq]; push_cast; rfl
  rw [e1, e2, e3]
  ring

theorem share_psi8_ncard {x : W → W → W} (hx : ∀ a b, x (x a b) b = a) (hc : ∀ a b, x a b = x b a) {q : Nat} {v w : Fin q → W × W}
    (hv : Function.Injective v) (hw : Function.Injective w) :
    (1 - q * (q - 1) / Fintype.card W : ℚ) * (Nat.card (Fin 8 → W → W) / (Fintype.card (W × W) : ℚ) ^ q) ≤
      {f : Fin 8 → W → W | ∀ i, psi8 x f (v i) = w i}.ncard := by
  have h := share_psi8 hx hc hv hw
  rw [← Set.ncard_coe_finset, ← Nat.card_eq_fintype_card (α := Fin 8 → W → W), Fintype.card_fun (α := Fin q), Fintype.card_fin, Nat.cast_pow] at h
  simpa using h

/-- The answers of a function. -/
def conv {β : Type} (E : β → β) (ask : List β → β) : Nat → List β
  | 0 => []
  | q + 1 => conv E ask q ++ [E (ask (conv E ask q))]

omit [Fintype W] [Nonempty W] in
theorem conv_length {β : Type} (E : β → β) (ask : List β → β) (q : Nat) : (conv E ask q).length = q := by
  induction q with
  | zero => rfl
  | succ n ih => simp [conv, ih]

theorem answers_eq {β : Type} {reply : β → Exec β} {E : β → β} (h : ∀ v, reply v = .ok (E v)) (ask : List β → β) (q : Nat) :
    Spec.Magma.answers reply ask q = .ok (conv E ask q) := by
  induction q with
  | zero => rfl
  | succ n ih => simp only [Spec.Magma.answers, ih, Exec.ok_bind, h, conv, Exec.pure_eq]

theorem conv_eq {β : Type} {E : β → β} {ask : List β → β} {l : List β} (h : ∀ i (hi : i < l.length), E (ask (l.take i)) = l[i]) :
    conv E ask l.length = l := by
  have : ∀ n, n ≤ l.length → conv E ask n = l.take n := by
    intro n
    induction n with
    | zero => intro _; simp [conv]
    | succ n ih =>
      intro hn
      rw [conv, ih (by omega), h n (by omega), List.take_append_getElem]
  rw [this _ le_rfl, List.take_length]

/-- What questions that never repeat tell: hardly more than random answers. -/
theorem share_answers {x : W → W → W} (hx : ∀ a b, x (x a b) b = a) (hc : ∀ a b, x a b = x b a) {q : Nat} {ask : List (W × W) → W × W}
    (hask : Spec.Magma.NeverRepeats ask q) (A : Set (List (W × W))) :
    |({f : Fin 8 → W → W | conv (psi8 x f) ask q ∈ A}.ncard : ℚ) / Nat.card (Fin 8 → W → W) -
      ({l ∈ A | l.length = q}.ncard : ℚ) / (Fintype.card (W × W) : ℚ) ^ q| ≤
      (q * (q - 1) / Fintype.card W + q * (q - 1) / 2 / Fintype.card (W × W) : ℚ) ∧
    |({f : Fin 8 → W → W | conv (psi8 x f) ask q ∈ A}.ncard : ℚ) / Nat.card (Fin 8 → W → W) -
      ({l ∈ A | l.length = q}.ncard : ℚ) / (Fintype.card (W × W) : ℚ) ^ q| ≤ 1 := by
  have hq : (0 : ℚ) ≤ q * (q - 1) := by
    rcases Nat.eq_zero_or_pos q with h | h
    · simp [h]
    · have : (1 : ℚ) ≤ q := by exact_mod_cast h
      exact mul_nonneg (by linarith) (by linarith)
  let φ : (Fin 8 → W → W) → Fin q → W × W := fun f i => (conv (psi8 x f) ask q)[i.val]'(by rw [conv_length]; exact i.2)
  have hφ : ∀ f, List.ofFn (φ f) = conv (psi8 x f) ask q := by
    intro f
    refine List.ext_getElem (by rw [List.length_ofFn, conv_length]) fun i h1 h2 => ?_
    rw [List.getElem_ofFn]
  have main := share_test_abs φ (fun w => Function.Injective w) (δ := q * (q - 1) / Fintype.card W) (β := q * (q - 1) / 2 / Fintype.card (W × W))
    (by positivity) (by positivity) ((share_distinct q).trans (le_of_eq (by congr!))) ?_ (fun w => List.ofFn w ∈ A)
  · have e1 : ({f : Fin 8 → W → W | conv (psi8 x f) ask q ∈ A}.ncard : ℚ) = #{f : Fin 8 → W → W | List.ofFn (φ f) ∈ A} := by
      rw [← Set.ncard_coe_finset]
      congr 2
      ext f
      simp only [Set.mem_ofPred_eq, coe_filter, mem_univ, true_and, hφ]
    have e2 : ({l ∈ A | l.length = q}.ncard : ℚ) = #{w : Fin q → W × W | List.ofFn w ∈ A} := by
      rw [← Set.ncard_coe_finset]
      congr 1
      symm
      refine Set.ncard_congr (fun w _ => List.ofFn w) ?_ ?_ ?_
      · intro w hw
        exact ⟨by simpa using hw, List.length_ofFn⟩
      · intro w w' _ _ e
        exact List.ofFn_injective e
      · rintro l ⟨hl, rfl⟩
        refine ⟨fun i => l[i.val], ?_, List.ofFn_getElem⟩
        simpa using hl
    rw [e1, e2, Nat.card_eq_fintype_card]
    have e3 : (Fintype.card (W × W) : ℚ) ^ q = Fintype.card (Fin q → W × W) := by
      rw [Fintype.card_fun, Fintype.card_fin]; push_cast; rfl
    rw [e3]
    refine ⟨main, ?_⟩
    have p1 : (#{f : Fin 8 → W → W | List.ofFn (φ f) ∈ A} : ℚ) / Fintype.card (Fin 8 → W → W) ≤ 1 :=
      div_le_one_of_le₀ (by exact_mod_cast card_le_univ _) (by positivity)
    have p2 : (#{w : Fin q → W × W | List.ofFn w ∈ A} : ℚ) / Fintype.card (Fin q → W × W) ≤ 1 :=
      div_le_one_of_le₀ (by exact_mod_cast card_le_univ _) (by positivity)
    have p3 : (0 : ℚ) ≤ (#{f : Fin 8 → W → W | List.ofFn (φ f) ∈ A} : ℚ) / Fintype.card (Fin 8 → W → W) := by positivity
    have p4 : (0 : ℚ) ≤ (#{w : Fin q → W × W | List.ofFn w ∈ A} : ℚ) / Fintype.card (Fin q → W × W) := by positivity
    rw [abs_le]
    constructor <;> linarith
  · intro w hw
    let v : Fin q → W × W := fun i => ask ((List.ofFn w).take i)
    have hlt : ∀ i j : Fin q, i < j → v i ≠ v j := by
      intro i j hij
      have hl : ((List.ofFn w).take j).length = j := by rw [List.length_take, List.length_ofFn]; omega
      have := hask ((List.ofFn w).take j) (by rw [hl]; exact j.2) i (by rw [hl]; exact hij)
      rwa [List.take_take, min_eq_left (by exact_mod_cast hij.le)] at this
    have hv : Function.Injective v := by
      intro i j e
      rcases lt_trichotomy i j with h | h | h
      · exact absurd e (hlt i j h)
      · exact h
      · exact absurd e.symm (hlt j i h)
    refine (share_psi8 hx hc hv hw).trans ?_
    have : ({f : Fin 8 → W → W | ∀ i, psi8 x f (v i) = w i} : Finset _) ⊆ ({f : Fin 8 → W → W | φ f = w} : Finset _) := by
      intro f hf
      rw [mem_filter] at hf ⊢
      refine ⟨mem_univ _, List.ofFn_injective ?_⟩
      rw [hφ]
      have := conv_eq (E := psi8 x f) (ask := ask) (l := List.ofFn w) fun i hi => by
        rw [List.getElem_ofFn]
        exact hf.2 ⟨i, by simpa using hi⟩
      rwa [List.length_ofFn] at this
    refine (Nat.cast_le.2 (card_le_card this)).trans (le_of_eq ?_)
    congr!

end

section
open Spec Spec.Magma Goost.Magma

theorem tableKey_computes (f : Tables) : Computes (tableKey f) f := by
  intro v i
  show Exec.ok (f (Fin.ofNat 8 i.val) v) = _
  rw [Fin.ofNat_val_eq_self]

theorem xor_back (a b : BitVec 32) : a ^^^ b ^^^ b = a := by rw [BitVec.xor_assoc, BitVec.xor_self, BitVec.xor_zero]

theorem bound_le (q : Nat) {r : ℚ} (h : r ≤ (q * (q - 1) / 2 ^ 32 + q * (q - 1) / 2 / 2 ^ 64 : ℚ)) (h1 : r ≤ 1) : r ≤ (q : ℚ) ^ 2 / 2 ^ 32 := by
  by_cases hq : q ≤ 2 ^ 33
  · have hq : (q : ℚ) ≤ 2 ^ 33 := by exact_mod_cast hq
    have h0 : (0 : ℚ) ≤ q := by positivity
    have := mul_nonneg h0 (by linarith : (0 : ℚ) ≤ 2 ^ 33 - q)
    refine h.trans ?_
    linarith [show ((q : ℚ) ^ 2 / 2 ^ 32 - (q * (q - 1) / 2 ^ 32 + q * (q - 1) / 2 / 2 ^ 64) : ℚ) = (q * (2 ^ 33 - q) + q) / 2 ^ 65 by ring,
      show (0 : ℚ) ≤ (q * (2 ^ 33 - q) + q) / 2 ^ 65 by positivity]
  · have hq : (2 ^ 33 : ℚ) ≤ q := by exact_mod_cast (not_le.1 hq).le
    refine h1.trans ?_
    rw [le_div_iff₀ (by norm_num)]
    nlinarith

theorem fwd_eq_psi8 (f : Tables) (v : BitVec 32 × BitVec 32) : fwd f v = psi8 (· ^^^ ·) f v := rfl

theorem bwd_eq_psi8 (f : Tables) (v : BitVec 32 × BitVec 32) : bwd f v = psi8 (· ^^^ ·) (fun i => f i.rev) v := rfl

/-- The tables in reverse order. -/
theorem ncard_rev (P : Tables → Prop) : {f : Tables | P fun i => f i.rev}.ncard = {f | P f}.ncard := by
  refine Set.ncard_congr (fun f _ i => f i.rev) (fun _ h => h) (fun f g _ _ e => ?_) fun f hf => ⟨fun i => f i.rev, ?_, ?_⟩
  · funext i
    have := congrFun e i.rev
    simpa using this
  · simpa using hf
  · simp

theorem words_test (q : Nat) {ask : List (BitVec 32 × BitVec 32) → BitVec 32 × BitVec 32} (hask : NeverRepeats ask q)
    (test : Set (List (BitVec 32 × BitVec 32))) :
    |({f : Tables | conv (psi8 (· ^^^ ·) f) ask q ∈ test}.ncard : ℚ) / Nat.card Tables - ({l ∈ test | l.length = q}.ncard : ℚ) / 2 ^ (64 * q)| ≤
      (q : ℚ) ^ 2 / 2 ^ 32 := by
  have c : (Fintype.card (BitVec 32) : ℚ) = 2 ^ 32 := by rw [Goost.Differences.card_bitVec]; norm_num
  have c2 : (Fintype.card (BitVec 32 × BitVec 32) : ℚ) = 2 ^ 64 := by rw [Fintype.card_prod, Goost.Differences.card_bitVec]; norm_num
  have h := share_answers (x := ((· ^^^ ·) : BitVec 32 → BitVec 32 → BitVec 32)) xor_back (fun a b => BitVec.xor_comm a b) hask test
  rw [c, c2, ← pow_mul] at h
  exact bound_le q h.1 h.2

end
end Goost.RandomTables
