import Verif.Lemmas.RandomTables
/-
Helper lemmas: questions of both kinds.
-/
namespace Goost.RandomTables
open Finset

section
open Classical

theorem share_lists {K B : Type} [Fintype K] [Nonempty K] [Fintype B] [Nonempty B] {q : Nat} (C : K → List B) (hC : ∀ k, (C k).length = q)
    (D : (Fin q → B) → Prop) {δ β : ℚ} (hδ : 0 ≤ δ) (hβ : 0 ≤ β)
    (hD : (Fintype.card (Fin q → B) : ℚ) - β * Fintype.card (Fin q → B) ≤ #{w : Fin q → B | D w})
    (h : ∀ w, D w → (1 - δ) * (Nat.card K / (Fintype.card B : ℚ) ^ q) ≤ ({k : K | C k = List.ofFn w}.ncard : ℚ)) (A : Set (List B)) :
    |({k : K | C k ∈ A}.ncard : ℚ) / Nat.card K - ({l ∈ A | l.length = q}.ncard : ℚ) / (Fintype.card B : ℚ) ^ q| ≤ δ + β ∧
    |({k : K | C k ∈ A}.ncard : ℚ) / Nat.card K - ({l ∈ A | l.length = q}.ncard : ℚ) / (Fintype.card B : ℚ) ^ q| ≤ 1 := by
  let φ : K → Fin q → B := fun k i => (C k)[i.val]'(by rw [hC]; exact i.2)
  have hφ : ∀ k, List.ofFn (φ k) = C k := by
    intro k
    refine List.ext_getElem (by rw [List.length_ofFn, hC]) fun i h1 h2 => ?_
    rw [List.getElem_ofFn]
  have e3 : (Fintype.card B : ℚ) ^ q = Fintype.card (Fin q → B) := by
    rw [Fintype.card_fun, Fintype.card_fin]; push_cast; rfl
  have main := share_test_abs φ D hδ hβ hD (fun w hw => ?_) (fun w => List.ofFn w ∈ A)
  · have e1 : ({k : K | C k ∈ A}.ncard : ℚ) = #{k : K | List.ofFn (φ k) ∈ A} := by
      rw [← Set.ncard_coe_finset]
      congr 2
      ext k
      simp only [Set.mem_ofPred_eq, coe_filter, mem_univ, true_and, hφ]
    have e2 : ({l ∈ A | l.length = q}.ncard : ℚ) = #{w : Fin q → B | List.ofFn w ∈ A} := by
      rw [← Set.ncard_coe_finset]
      congr 1
      symm
      refine Set.ncard_congr (fun w _ => List.ofFn w) ?_ ?_ ?_
      · intro w hw
        exact ⟨by simpa using hw, List.length_ofFn⟩
      · intro w w' _ _ e
        exact List.ofFn_injective e
      · rintro l ⟨hl, rfl⟩
        refine ⟨fun i => l[i.val], ?_, List.ofFn_getElem⟩
        simpa using hl
    rw [e1, e2, Nat.card_eq_fintype_card, e3]
    refine ⟨main, ?_⟩
    have p1 : (#{k : K | List.ofFn (φ k) ∈ A} : ℚ) / Fintype.card K ≤ 1 :=
      div_le_one_of_le₀ (by exact_mod_cast card_le_univ _) (by positivity)
    have p2 : (#{w : Fin q → B | List.ofFn w ∈ A} : ℚ) / Fintype.card (Fin q → B) ≤ 1 :=
      div_le_one_of_le₀ (by exact_mod_cast card_le_univ _) (by positivity)
    have p3 : (0 : ℚ) ≤ (#{k : K | List.ofFn (φ k) ∈ A} : ℚ) / Fintype.card K := by positivity
    have p4 : (0 : ℚ) ≤ (#{w : Fin q → B | List.ofFn w ∈ A} : ℚ) / Fintype.card (Fin q → B) := by positivity
    rw [abs_le]
    constructor <;> linarith
  · have := h w hw
    rw [e3, Nat.card_eq_fintype_card] at this
    refine this.trans (le_of_eq ?_)
    rw [← Set.ncard_coe_finset]
    congr 2
    ext k
    simp only [Set.mem_ofPred_eq, coe_filter, mem_univ, true_and]
    rw [← hφ k]
    exact List.ofFn_injective.eq_iff

/-- Answers that must differ from a value given by the earlier ones, for each pair of questions. -/
theorem share_new {B : Type} [Fintype B] [Nonempty B] {q : Nat} (g : Fin q → Fin q → (Fin q → B) → B)
    (hg : ∀ i j w w', (∀ n < j, w n = w' n) → g i j w = g i j w') :
    (Fintype.card (Fin q → B) : ℚ) - q * (q - 1) / 2 / Fintype.card B * Fintype.card (Fin q → B) ≤
      #{w : Fin q → B | ∀ i j, i < j → w j ≠ g i j w} := by
  have hN : (0 : ℚ) < Fintype.card B := by exact_mod_cast Fintype.card_pos
  have := share_bad (fun w : Fin q → B => ∀ i j, i < j → w j ≠ g i j w) (fun i j w => w j = g i j w) (Fintype.card (Fin q → B) / Fintype.card B) ?_ ?_
  · refine (le_of_eq ?_).trans (this.trans (le_of_eq ?_))
    · field_simp
    · congr!
  · intro i j hij
    rw [le_div_iff₀ hN]
    have e : #{w : Fin q → B | w j = g i j w} * Fintype.card B = Fintype.card (Fin q → B) := by
      rw [← card_univ (α := B), ← card_product, ← card_univ]
      have same : ∀ w (b : B), g i j (Function.update w j b) = g i j w := fun w b =>
        hg _ _ _ _ fun n hn => by rw [Function.update_of_ne hn.ne]
      refine card_bij (fun p _ => Function.update p.1 j p.2) (fun _ _ => mem_univ _) ?_ ?_
      · rintro ⟨w, b⟩ hw ⟨w', b'⟩ hw' h
        simp only [mem_product, mem_filter, mem_univ, true_and, and_true] at hw hw' h
        have hb : b = b' := by simpa using congrFun h j
        have hgg : g i j w = g i j w' := by rw [← same w b, h, same]
        refine Prod.ext (funext fun n => ?_) hb
        by_cases hn : n = j
        · subst hn; exact hw.trans (hgg.trans hw'.symm)
        · simpa [hn] using congrFun h n
      · intro w _
        refine ⟨(Function.update w j (g i j w), w j), ?_, by simp⟩
        simp [same]
    exact_mod_cast e.le
  · intro w hw
    push Not at hw
    exact hw

/-- The answers of two functions. -/
def convBoth {β : Type} (E R : β → β) (ask : List β → Bool × β) : Nat → List β
  | 0 => []
  | q + 1 => convBoth E R ask q ++ [if (ask (convBoth E R ask q)).1 then E (ask (convBoth E R ask q)).2 else R (ask (convBoth E R ask q)).2]

theorem convBoth_length {β : Type} (E R : β → β) (ask : List β → Bool × β) (q : Nat) : (convBoth E R ask q).length = q := by
  induction q with
  | zero => rfl
  | succ n ih => simp [convBoth, ih]

theorem answersBoth_eq {β : Type} {reply back : β → Exec β} {E R : β → β} (h : ∀ v, reply v = .ok (E v)) (hr : ∀ v, back v = .ok (R v))
    (ask : List β → Bool × β) (q : Nat) : Spec.Magma.answersBoth reply back ask q = .ok (convBoth E R ask q) := by
  induction q with
  | zero => rfl
  | succ n ih =>
    simp only [Spec.Magma.answersBoth, ih, Exec.ok_bind, h, hr, convBoth, Exec.pure_eq]
    split <;> rfl

theorem convBoth_eq {β : Type} {E R : β → β} (hR : ∀ v, R (E v) = v) {ask : List β → Bool × β} {l : List β}
    (h : ∀ i (hi : i < l.length), E (Spec.Magma.learned ask l i hi).1 = (Spec.Magma.learned ask l i hi).2) :
    convBoth E R ask l.length = l := by
  have : ∀ n, n ≤ l.length → convBoth E R ask n = l.take n := by
    intro n
    induction n with
    | zero => intro _; simp [convBoth]
    | succ n ih =>
      intro hn
      have hn' : n < l.length := by omega
      have hh := h n hn'
      rw [convBoth, ih hn'.le, ← List.take_append_getElem hn']
      congr 2
      simp only [Spec.Magma.learned] at hh
      split
      · next hd => rw [if_pos hd] at hh; exact hh
      · next hd => rw [if_neg hd] at hh; simp only at hh; rw [← hh, hR]
  rw [this _ le_rfl, List.take_length]

/-- The inverse of eight rounds. -/
def psi8R {W : Type} (x : W → W → W) (f : Fin 8 → W → W) (w : W × W) : W × W := (psi8 x (fun i => f i.rev) w.swap).swap

theorem psi8R_psi8 {W : Type} {x : W → W → W} (hx : ∀ a b, x (x a b) b = a) (f : Fin 8 → W → W) (v : W × W) : psi8R x f (psi8 x f v) = v := by
  have r0 : (0 : Fin 8).rev = 7 := rfl
  have r1 : (1 : Fin 8).rev = 6 := rfl
  have r2 : (2 : Fin 8).rev = 5 := rfl
  have r3 : (3 : Fin 8).rev = 4 := rfl
  have r4 : (4 : Fin 8).rev = 3 := rfl
  have r5 : (5 : Fin 8).rev = 2 := rfl
  have r6 : (6 : Fin 8).rev = 1 := rfl
  have r7 : (7 : Fin 8).rev = 0 := rfl
  simp only [psi8R, psi8, psi, Prod.swap, r0, r1, r2, r3, r4, r5, r6, r7, hx]

section
variable {β : Type} {q : Nat} (ask : List β → Bool × β)

def said (w : Fin q → β) (i : Fin q) : β × β := Spec.Magma.learned ask (List.ofFn w) i (by rw [List.length_ofFn]; exact i.2)

noncomputable def taken (i j : Fin q) (w : Fin q → β) : β :=
  if i < j then (if (ask ((List.ofFn w).take j)).1 then (said ask w i).2 else (said ask w i).1) else (ask []).2

theorem take_eq {w w' : Fin q → β} {j : Fin q} (h : ∀ n < j, w n = w' n) : (List.ofFn w).take j = (List.ofFn w').take j := by
  refine List.ext_getElem (by simp) fun n h1 h2 => ?_
  rw [List.getElem_take, List.getElem_take, List.getElem_ofFn, List.getElem_ofFn]
  rw [List.length_take] at h1
  exact h ⟨n, _⟩ (by show n < j.val; omega)

theorem said_eq (w : Fin q → β) (i : Fin q) :
    said ask w i = if (ask ((List.ofFn w).take i)).1 then ((ask ((List.ofFn w).take i)).2, w i) else (w i, (ask ((List.ofFn w).take i)).2) := by
  simp only [said, Spec.Magma.learned, List.getElem_ofFn]

theorem taken_congr (i j : Fin q) (w w' : Fin q → β) (h : ∀ n < j, w n = w' n) : taken ask i j w = taken ask i j w' := by
  simp only [taken]
  split
  · next hij => rw [take_eq h, said_eq, said_eq, take_eq (j := i) (fun n hn => h n (hn.trans hij)), h i hij]
  · rfl

variable {ask}

theorem said_new (hask : Spec.Magma.AsksNew ask q) {w : Fin q → β} (hw : ∀ i j, i < j → w j ≠ taken ask i j w) (i j : Fin q) (hij : i < j) :
    (said ask w i).1 ≠ (said ask w j).1 ∧ (said ask w i).2 ≠ (said ask w j).2 := by
  have hl : ((List.ofFn w).take j).length = j := by rw [List.length_take, List.length_ofFn]; omega
  have h1 := hask ((List.ofFn w).take j) (by rw [hl]; exact j.2) i (by rw [hl]; exact hij)
  have e : Spec.Magma.learned ask ((List.ofFn w).take j) i (by rw [hl]; exact hij) = said ask w i := by
    simp only [said, Spec.Magma.learned, List.getElem_take, List.take_take, min_eq_left (show i.val ≤ j.val from hij.le)]
  have h2 := hw i j hij
  simp only [taken, if_pos hij] at h2
  rw [e] at h1
  rw [said_eq ask w j]
  by_cases hd : (ask ((List.ofFn w).take j)).1 = true
  · rw [if_pos hd] at h1 h2 ⊢
    exact ⟨h1, h2.symm⟩
  · rw [if_neg hd] at h1 h2 ⊢
    exact ⟨h2.symm, h1⟩

theorem injective_of_lt {v : Fin q → β} (h : ∀ i j : Fin q, i < j → v i ≠ v j) : Function.Injective v := by
  intro i j e
  rcases lt_trichotomy i j with hl | hl | hl
  · exact absurd e (h i j hl)
  · exact hl
  · exact absurd e.symm (h j i hl)

end

variable {W : Type} [Fintype W] [Nonempty W]

theorem count_both {x : W → W → W} (hx : ∀ a b, x (x a b) b = a) (hc : ∀ a b, x a b = x b a) {q : Nat} {ask : List (W × W) → Bool × (W × W)}
    (hask : Spec.Magma.AsksNew ask q) {w : Fin q → W × W} (hw : ∀ i j, i < j → w j ≠ taken ask i j w) :
    (1 - q * (q - 1) / Fintype.card W : ℚ) * (Nat.card (Fin 8 → W → W) / (Fintype.card (W × W) : ℚ) ^ q) ≤
      ({f : Fin 8 → W → W | convBoth (psi8 x f) (psi8R x f) ask q = List.ofFn w}.ncard : ℚ) := by
  have h1 := share_psi8_ncard hx hc (injective_of_lt fun i j h => (said_new hask hw i j h).1) (injective_of_lt fun i j h => (said_new hask hw i j h).2)
  have h2 : {f : Fin 8 → W → W | ∀ i, psi8 x f (said ask w i).1 = (said ask w i).2}.ncard ≤
      {f : Fin 8 → W → W | convBoth (psi8 x f) (psi8R x f) ask q = List.ofFn w}.ncard := by
    refine Set.ncard_le_ncard ?_ (Set.toFinite _)
    intro f hf
    have hf : ∀ i, psi8 x f (said ask w i).1 = (said ask w i).2 := hf
    have := convBoth_eq (E := psi8 x f) (R := psi8R x f) (psi8R_psi8 hx f) (ask := ask) (l := List.ofFn w) fun i hi => hf ⟨i, by simpa using hi⟩
    rw [List.length_ofFn] at this
    exact this
  exact h1.trans (by exact_mod_cast h2)

theorem share_both {x : W → W → W} (hx : ∀ a b, x (x a b) b = a) (hc : ∀ a b, x a b = x b a) {q : Nat} {ask : List (W × W) → Bool × (W × W)}
    (hask : Spec.Magma.AsksNew ask q) (A : Set (List (W × W))) :
    |({f : Fin 8 → W → W | convBoth (psi8 x f) (psi8R x f) ask q ∈ A}.ncard : ℚ) / Nat.card (Fin 8 → W → W) -
      ({l ∈ A | l.length = q}.ncard : ℚ) / (Fintype.card (W × W) : ℚ) ^ q| ≤
      (q * (q - 1) / Fintype.card W + q * (q - 1) / 2 / Fintype.card (W × W) : ℚ) ∧
    |({f : Fin 8 → W → W | convBoth (psi8 x f) (psi8R x f) ask q ∈ A}.ncard : ℚ) / Nat.card (Fin 8 → W → W) -
      ({l ∈ A | l.length = q}.ncard : ℚ) / (Fintype.card (W × W) : ℚ) ^ q| ≤ 1 := by
  have hq : (0 : ℚ) ≤ q * (q - 1) := by
    rcases Nat.eq_zero_or_pos q with h | h
    · simp [h]
    · have : (1 : ℚ) ≤ q := by exact_mod_cast h
      exact mul_nonneg (by linarith) (by linarith)
  have hδ : (0 : ℚ) ≤ q * (q - 1) / Fintype.card W := div_nonneg hq (by positivity)
  have hβ : (0 : ℚ) ≤ q * (q - 1) / 2 / Fintype.card (W × W) := div_nonneg (div_nonneg hq (by norm_num)) (by positivity)
  exact share_lists (fun f => convBoth (psi8 x f) (psi8R x f) ask q) (fun f => convBoth_length _ _ _ _)
    (fun w => ∀ i j, i < j → w j ≠ taken ask i j w) hδ hβ ((share_new (taken ask) (taken_congr ask)).trans (le_of_eq (by congr!))) (fun w hw => count_both hx hc hask hw) A

end

section
open Spec Spec.Magma Goost.Magma

theorem words_test_both (q : Nat) {ask : List (BitVec 32 × BitVec 32) → Bool × (BitVec 32 × BitVec 32)} (hask : AsksNew ask q)
    (test : Set (List (BitVec 32 × BitVec 32))) :
    |({f : Tables | convBoth (psi8 (· ^^^ ·) f) (psi8R (· ^^^ ·) f) ask q ∈ test}.ncard : ℚ) / Nat.card Tables -
      ({l ∈ test | l.length = q}.ncard : ℚ) / 2 ^ (64 * q)| ≤ (q : ℚ) ^ 2 / 2 ^ 32 := by
  have c : (Fintype.card (BitVec 32) : ℚ) = 2 ^ 32 := by rw [Goost.Differences.card_bitVec]; norm_num
  have c2 : (Fintype.card (BitVec 32 × BitVec 32) : ℚ) = 2 ^ 64 := by rw [Fintype.card_prod, Goost.Differences.card_bitVec]; norm_num
  have h := share_both (x := ((· ^^^ ·) : BitVec 32 → BitVec 32 → BitVec 32)) xor_back (fun a b => BitVec.xor_comm a b) hask test
  rw [c, c2, ← pow_mul] at h
  exact bound_le q h.1 h.2

end
end Goost.RandomTables
