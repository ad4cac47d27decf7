import Mathlib.GroupTheory.Perm.Sign
import Verif.Spec.EvenPermutations
import Verif.Spec.Kuznyechik
import Verif.Lemmas.Differences
import Verif.Lemmas.Feistel
import Verif.Lemmas.Kuz
/-
Helper lemmas: both ciphers are even permutations.
-/
namespace Goost.EvenPermutations
open Spec Equiv.Perm

section
variable {α : Type} [DecidableEq α] [Fintype α]

/-- The function is a permutation of sign 1. -/
def Ev (F : α → α) : Prop := ∃ e : Equiv.Perm α, (∀ x, e x = F x) ∧ sign e = 1

theorem Ev.comp {F G : α → α} (hF : Ev F) (hG : Ev G) : Ev fun x => F (G x) := by
  obtain ⟨e, he, se⟩ := hF
  obtain ⟨d, hd, sd⟩ := hG
  exact ⟨e * d, fun x => by rw [Equiv.Perm.mul_apply, hd, he], by rw [sign_mul, se, sd, one_mul]⟩

theorem Ev.id : Ev fun x : α => x := ⟨1, fun _ => rfl, sign_one⟩

/-- What is done twice is even. -/
theorem Ev.square {F G G' : α → α} (h1 : ∀ x, G' (G x) = x) (h2 : ∀ x, G (G' x) = x) (h : ∀ x, F x = G (G x)) : Ev F := by
  let e : Equiv.Perm α := ⟨G, G', h1, h2⟩
  exact ⟨e * e, fun x => (h x).symm, by rw [sign_mul, Int.units_mul_self]⟩

/-- What is done once, and once in other places, is even. -/
theorem Ev.conj {F A A' W : α → α} (h1 : ∀ x, A' (A x) = x) (h2 : ∀ x, A (A' x) = x) (hW : ∀ x, W (W x) = x)
    (h : ∀ x, F x = A (W (A (W x)))) : Ev F := by
  let e : Equiv.Perm α := ⟨A, A', h1, h2⟩
  let w : Equiv.Perm α := ⟨W, W, hW, hW⟩
  refine ⟨e * (w * (e * w)), fun x => (h x).symm, ?_⟩
  rw [sign_mul, sign_mul, sign_mul, mul_comm (sign w), mul_assoc, Int.units_mul_self, mul_one, Int.units_mul_self]

/-- The same in other places. -/
theorem Ev.moved {F W W' : α → α} (hF : Ev F) (h1 : ∀ x, W' (W x) = x) (h2 : ∀ x, W (W' x) = x) : Ev fun x => W' (F (W x)) := by
  obtain ⟨e, he, se⟩ := hF
  let w : Equiv.Perm α := ⟨W, W', h1, h2⟩
  refine ⟨w⁻¹ * (e * w), fun x => congrArg W' (he (W x)), ?_⟩
  rw [sign_mul, sign_mul, se, one_mul, sign_inv, Int.units_mul_self]

theorem Ev.congr {F G : α → α} (hF : Ev F) (h : ∀ x, G x = F x) : Ev G := by
  obtain ⟨e, he, se⟩ := hF
  exact ⟨e, fun x => (he x).trans (h x).symm, se⟩

theorem Ev.inverse {F G : α → α} (hF : Ev F) (h : ∀ x, F (G x) = x) : Ev G := by
  obtain ⟨e, he, se⟩ := hF
  refine ⟨e⁻¹, fun x => ?_, by rw [sign_inv, se]⟩
  rw [Equiv.Perm.inv_eq_iff_eq, he, h]

theorem Ev.injective {F : α → α} (hF : Ev F) {x y : α} (h : F x = F y) : x = y := by
  obtain ⟨e, he, -⟩ := hF
  rw [← he, ← he] at h
  exact e.injective h

omit [Fintype α] in
theorem exchange_swap (a b x : α) : exchange a b x = Equiv.swap a b x := (Equiv.swap_apply_def a b x).symm

omit [Fintype α] in
theorem foldr_swaps (l : List (α × α)) (x : α) :
    l.foldr (fun p x => exchange p.1 p.2 x) x = (l.map fun p => Equiv.swap p.1 p.2).prod x := by
  induction l with
  | nil => rfl
  | cons p l ih =>
    rw [List.foldr_cons, ih, exchange_swap, List.map_cons, List.prod_cons, Equiv.Perm.mul_apply]

omit [Fintype α] in
theorem pairs_of (l : List (Equiv.Perm α)) (h : ∀ e ∈ l, IsSwap e) :
    ∃ ps : List (α × α), (∀ p ∈ ps, p.1 ≠ p.2) ∧ ps.map (fun p => Equiv.swap p.1 p.2) = l := by
  induction l with
  | nil => exact ⟨[], by simp, rfl⟩
  | cons e l ih =>
    obtain ⟨ps, h1, h2⟩ := ih fun e he => h e (List.mem_cons_of_mem _ he)
    obtain ⟨a, b, hab, e'⟩ := h e List.mem_cons_self
    refine ⟨(a, b) :: ps, ?_, by rw [List.map_cons, h2, e']⟩
    intro p hp
    rcases List.mem_cons.1 hp with rfl | hp
    · exact hab
    · exact h1 p hp

theorem Ev.isEven {F : α → α} (hF : Ev F) : IsEven F := by
  obtain ⟨e, he, se⟩ := hF
  obtain ⟨l, hl, hs⟩ := (truncSwapFactors e).out
  obtain ⟨ps, h1, h2⟩ := pairs_of l hs
  refine ⟨ps, h1, ?_, fun x => by rw [foldr_swaps, h2, hl, he]⟩
  rw [← hl, sign_prod_list_swap hs] at se
  have hlen : ps.length = l.length := by rw [← h2, List.length_map]
  rw [hlen]
  rcases Nat.even_or_odd l.length with h | h
  · exact Nat.even_iff.1 h
  · rw [h.neg_one_pow] at se
    exact absurd se (by decide)

theorem ev_of_isEven {F : α → α} (hF : IsEven F) : Ev F := by
  obtain ⟨ps, h1, h2, h3⟩ := hF
  refine ⟨(ps.map fun p => Equiv.swap p.1 p.2).prod, fun x => by rw [← foldr_swaps, h3], ?_⟩
  rw [sign_prod_list_swap, List.length_map, (Nat.even_iff.2 h2).neg_one_pow]
  intro e he
  obtain ⟨p, hp, rfl⟩ := List.mem_map.1 he
  exact ⟨p.1, p.2, h1 p hp, rfl⟩

/-- Even permutations that agree but for two elements agree. -/
theorem Ev.agree {F G : α → α} (hF : Ev F) (hG : Ev G) {a b : α} (h : ∀ x, x ≠ a → x ≠ b → F x = G x) (x : α) : F x = G x := by
  obtain ⟨e, he, se⟩ := hF
  obtain ⟨d, hd, sd⟩ := hG
  have hfix : ∀ x, x ≠ a → x ≠ b → (d⁻¹ * e) x = x := by
    intro x ha hb
    rw [Equiv.Perm.mul_apply, Equiv.Perm.inv_eq_iff_eq, he, hd, h x ha hb]
  have hs : sign (d⁻¹ * e) = 1 := by rw [sign_mul, sign_inv, se, sd, one_mul]
  have hone : d⁻¹ * e = 1 := by
    obtain ⟨c, hc⟩ : ∃ c, c = d⁻¹ * e := ⟨_, rfl⟩
    rw [← hc] at hfix hs ⊢
    have ma : c a = a ∨ c a = b := by
      by_contra hn
      rw [not_or] at hn
      exact hn.1 (c.injective (hfix _ hn.1 hn.2))
    have mb : c b = a ∨ c b = b := by
      by_contra hn
      rw [not_or] at hn
      exact hn.2 (c.injective (hfix _ hn.1 hn.2))
    by_cases hab : a = b
    · subst hab
      ext1 x
      by_cases hx : x = a
      · subst hx
        exact ma.elim (fun h => h) fun h => h
      · exact hfix x hx hx
    rcases ma with ma | ma
    · have mb : c b = b := mb.resolve_left fun h => hab (c.injective (ma.trans h.symm))
      ext1 x
      by_cases hx : x = a
      · rw [hx, ma]; rfl
      by_cases hy : x = b
      · rw [hy, mb]; rfl
      exact hfix x hx hy
    · have mb : c b = a := mb.resolve_right fun h => hab (c.injective (ma.trans h.symm))
      have : c = Equiv.swap a b := by
        ext1 x
        by_cases hx : x = a
        · rw [hx, ma, Equiv.swap_apply_left]
        by_cases hy : x = b
        · rw [hy, mb, Equiv.swap_apply_right]
        rw [hfix x hx hy, Equiv.swap_apply_of_ne_of_ne hx hy]
      rw [this, sign_swap hab] at hs
      exact absurd hs (by decide)
  rw [← he, ← hd, (inv_mul_eq_one.1 hone).symm]

end

/-- An exchange is not even. -/
theorem exchange_not_even {α : Type} [DecidableEq α] [Fintype α] {a b : α} (h : a ≠ b) {F : α → α} (hF : Ev F) : ¬ ∀ x, F x = exchange a b x := by
  intro e
  have := hF.agree Ev.id (a := a) (b := b) (fun x ha hb => by rw [e, exchange, if_neg ha, if_neg hb]) a
  rw [e, exchange, if_pos rfl] at this
  exact h this.symm

section
variable {n : Nat}

/-- Adding a word without the bit `j`, which may depend on the first half, is what is done twice. -/
theorem ev_add_without {α : Type} [DecidableEq α] [Fintype α] (f : α → BitVec n) (j : Nat) (hj : j < n) (h : ∀ a, (f a).getLsbD j = false) :
    Ev fun v : α × BitVec n => (v.1, v.2 ^^^ f v.1) := by
  obtain ⟨e, he⟩ : ∃ e : BitVec n, e = BitVec.twoPow n j := ⟨_, rfl⟩
  have hb : ∀ b : BitVec n, (b ^^^ e).getLsbD j = !b.getLsbD j := by
    intro b
    rw [he, BitVec.getLsbD_xor, BitVec.getLsbD_twoPow]
    simp [hj]
  have hc : ∀ a (b : BitVec n), (b ^^^ f a).getLsbD j = b.getLsbD j := by
    intro a b
    rw [BitVec.getLsbD_xor, h, Bool.xor_false]
  have cancel : ∀ x y : BitVec n, x ^^^ y ^^^ y = x := fun x y => by rw [BitVec.xor_assoc, BitVec.xor_self, BitVec.xor_zero]
  have comm : ∀ x y z : BitVec n, x ^^^ y ^^^ z = x ^^^ z ^^^ y := fun x y z => by
    rw [BitVec.xor_assoc, BitVec.xor_comm y z, ← BitVec.xor_assoc]
  let G : α × BitVec n → α × BitVec n := fun v => if v.2.getLsbD j then (v.1, v.2 ^^^ e ^^^ f v.1) else (v.1, v.2 ^^^ e)
  let G' : α × BitVec n → α × BitVec n := fun v => if v.2.getLsbD j then (v.1, v.2 ^^^ e) else (v.1, v.2 ^^^ e ^^^ f v.1)
  refine Ev.square (G := G) (G' := G') ?_ ?_ ?_ <;> rintro ⟨a, b⟩
  · by_cases hv : b.getLsbD j = true
    · simp only [G, G', hv, if_true, hc, hb, Bool.not_true, Bool.false_eq_true, if_false]
      rw [comm (b ^^^ e) (f a) e, cancel, cancel]
    · simp only [G, G', hv, hb, Bool.not_false, Bool.false_eq_true, if_false, if_true]
      rw [cancel]
  · by_cases hv : b.getLsbD j = true
    · simp only [G, G', hv, if_true, hb, Bool.not_true, Bool.false_eq_true, if_false]
      rw [cancel]
    · simp only [G, G', hv, hc, hb, Bool.not_false, Bool.false_eq_true, if_false, if_true]
      rw [comm (b ^^^ e) (f a) e, cancel, cancel]
  · by_cases hv : b.getLsbD j = true
    · simp only [G, hv, if_true, hc, hb, Bool.not_true, Bool.false_eq_true, if_false]
      rw [comm b e (f a), cancel]
    · simp only [G, hv, hb, Bool.not_false, Bool.false_eq_true, if_false, if_true]
      rw [cancel]

/-- Adding a word which may depend on the first half. -/
theorem ev_add {α : Type} [DecidableEq α] [Fintype α] (f : α → BitVec n) (hn : 2 ≤ n) : Ev fun v : α × BitVec n => (v.1, v.2 ^^^ f v.1) := by
  have h1 := ev_add_without (fun a => f a &&& 1#n) 1 (by omega) fun a => by simp
  have h2 := ev_add_without (fun a => f a &&& ~~~1#n) 0 (by omega) fun a => by simp
  refine (h2.comp h1).congr fun v => ?_
  refine Prod.ext rfl ?_
  show v.2 ^^^ f v.1 = v.2 ^^^ (f v.1 &&& 1#n) ^^^ (f v.1 &&& ~~~1#n)
  apply BitVec.eq_of_getLsbD_eq
  intro i hi
  simp only [BitVec.getLsbD_xor, BitVec.getLsbD_and, BitVec.getLsbD_not, hi, decide_true, Bool.true_and]
  cases v.2.getLsbD i <;> cases (f v.1).getLsbD i <;> cases (1#n).getLsbD i <;> rfl

end

theorem Ev.transport {α β : Type} [DecidableEq α] [Fintype α] [DecidableEq β] [Fintype β] (e : α ≃ β) {F : α → α} (hF : Ev F) :
    Ev fun x => e (F (e.symm x)) := by
  obtain ⟨d, hd, sd⟩ := hF
  exact ⟨e.permCongr d, fun x => by rw [Equiv.permCongr_apply, hd], by rw [sign_permCongr, sd]⟩

theorem ev_xor {n : Nat} (hn : 2 ≤ n) (k : BitVec n) : Ev fun x => k ^^^ x := by
  refine ((ev_add (α := Unit) (fun _ => k) hn).transport (Equiv.punitProd (BitVec n))).congr fun x => ?_
  exact BitVec.xor_comm k x

section Magma
open Goost.Magma

/-- Exchange of the halves. -/
theorem ev_swap {n : Nat} (hn : 2 ≤ n) : Ev fun v : BitVec n × BitVec n => v.swap := by
  have h := ev_add (α := BitVec n) (fun a => a) hn
  let W : BitVec n × BitVec n → BitVec n × BitVec n := fun v => (v.1 ^^^ v.2, v.2)
  have hW : ∀ v, W (W v) = v := fun v => Prod.ext (by
    show v.1 ^^^ v.2 ^^^ v.2 = v.1
    rw [BitVec.xor_assoc, BitVec.xor_self, BitVec.xor_zero]) rfl
  refine (h.moved hW hW).congr fun v => ?_
  refine Prod.ext ?_ ?_
  · show v.2 = v.1 ^^^ v.2 ^^^ (v.2 ^^^ (v.1 ^^^ v.2))
    rw [BitVec.xor_comm v.2 (v.1 ^^^ v.2), ← BitVec.xor_assoc, BitVec.xor_self, BitVec.zero_xor]
  · show v.1 = v.2 ^^^ (v.1 ^^^ v.2)
    rw [BitVec.xor_comm v.1, ← BitVec.xor_assoc, BitVec.xor_self, BitVec.zero_xor]

theorem ev_right (f : W32 → W32) : Ev fun v : W32 × W32 => (v.1, v.2 ^^^ f v.1) := ev_add f (by omega)

theorem ev_left (f : W32 → W32) : Ev fun v : W32 × W32 => (v.1 ^^^ f v.2, v.2) :=
  (ev_right f).moved (W := Prod.swap) (W' := Prod.swap) (fun _ => rfl) (fun _ => rfl)

theorem ev_fwd (f : Fin 8 → W32 → W32) : Ev (fwd f) :=
  (ev_left (f 7)).comp <| (ev_right (f 6)).comp <| (ev_left (f 5)).comp <| (ev_right (f 4)).comp <|
    (ev_left (f 3)).comp <| (ev_right (f 2)).comp <| (ev_left (f 1)).comp (ev_right (f 0))

theorem ev_bwd (f : Fin 8 → W32 → W32) : Ev (bwd f) :=
  (ev_left (f 0)).comp <| (ev_right (f 1)).comp <| (ev_left (f 2)).comp <| (ev_right (f 3)).comp <|
    (ev_left (f 4)).comp <| (ev_right (f 5)).comp <| (ev_left (f 6)).comp (ev_right (f 7))

theorem ev_encP (f : Fin 8 → W32 → W32) : Ev (encP f) :=
  (ev_swap (by omega)).comp <| (ev_bwd f).comp <| (ev_fwd f).comp <| (ev_fwd f).comp (ev_fwd f)

theorem ev_decP (f : Fin 8 → W32 → W32) : Ev (decP f) :=
  (ev_swap (by omega)).comp <| (ev_bwd f).comp <| (ev_bwd f).comp <| (ev_bwd f).comp (ev_fwd f)

end Magma

section Kuz
open Spec.Kuz Goost.Kuz

/-- Substitution of the lower eight bytes. -/
def lower (p : Byte → Byte) (a : Block) : Block := ofBytes fun i => if i < 8 then p (byte a i) else byte a i

/-- Exchange of the halves of eight bytes. -/
def turn (a : Block) : Block := ofBytes fun i => byte a ((i + 8) % 16)

theorem lower_lower {p q : Byte → Byte} (h : ∀ x, p (q x) = x) (a : Block) : lower p (lower q a) = a := by
  refine block_ext fun i hi => ?_
  rw [lower, byte_ofBytes _ hi, lower, byte_ofBytes _ hi]
  by_cases h8 : i < 8
  · rw [if_pos h8, if_pos h8, h]
  · rw [if_neg h8, if_neg h8]

theorem turn_turn (a : Block) : turn (turn a) = a := by
  refine block_ext fun i hi => ?_
  rw [turn, byte_ofBytes _ hi, turn, byte_ofBytes _ (Nat.mod_lt _ (by omega))]
  congr 1
  omega

theorem ev_S : Ev S := by
  refine Ev.conj (A := lower Spec.Kuz.pi) (A' := lower piInv) (W := turn) (lower_lower piInv_pi) (lower_lower pi_piInv) turn_turn fun a => ?_
  refine block_ext fun i hi => ?_
  rw [S, byte_ofBytes _ hi, lower, byte_ofBytes _ hi]
  have hm : (i + 8) % 16 < 16 := Nat.mod_lt _ (by omega)
  rw [turn, byte_ofBytes _ hi, lower, byte_ofBytes _ hm, turn, byte_ofBytes _ hm]
  rw [show ((i + 8) % 16 + 8) % 16 = i by omega]
  by_cases h8 : i < 8
  · rw [if_pos h8, if_neg (by omega)]
  · rw [if_neg h8, if_pos (by omega)]

theorem ev_L : Ev L := by
  refine Ev.square (G := fun a => Nat.repeat R 8 a) (G' := fun a => Nat.repeat Rinv 8 a) (repeat_inverse Rinv_R 8) (repeat_inverse R_Rinv 8) ?_
  intro a
  rfl

theorem ev_encWith : ∀ ks : List Block, Ev (encWith ks)
  | [] => Ev.id
  | [k] => ev_xor (by omega) k
  | k :: l :: ks => (ev_encWith (l :: ks)).comp (ev_L.comp (ev_S.comp (ev_xor (by omega) k)))

/-- Pairs of words are blocks. -/
def pairs : BitVec 128 ≃ W64 × W64 where
  toFun x := (x.extractLsb' 0 64, x.extractLsb' 64 64)
  invFun v := join64 v
  left_inv x := join64_surj x
  right_inv v := join64_inj (join64_surj (join64 v))

theorem ev_enc (K : BitVec 256) : Ev fun v : W64 × W64 => pairs (enc K (join64 v)) := (ev_encWith (roundKeys K)).transport pairs

end Kuz

end Goost.EvenPermutations
