import Verif.Spec.Hiding
import Verif.Lemmas.MagmaRounds
/-
Helper lemmas: how many keys take one block to another in rounds whose last two words are used for the first time.
-/
namespace Goost.Hiding
open Spec Spec.Magma Goost.Magma Goost.Differences

theorem keyWord_bijective : Function.Bijective fun (K : BitVec 256) (i : Fin 8) => keyWord K i := by
  rw [Fintype.bijective_iff_injective_and_card]
  refine ⟨fun _ _ e => keyWords_inj fun i => congrFun e i, ?_⟩
  rw [Fintype.card_fun, card_bitVec, card_bitVec, Fintype.card_fin]
  norm_num

theorem ncard_keys_eq (P : (Fin 8 → BitVec 32) → Prop) : {K : BitVec 256 | P (keyWord K)}.ncard = {ks | P ks}.ncard := by
  refine Set.ncard_congr (fun K _ => keyWord K) (fun _ h => h) (fun _ _ _ _ e => keyWord_bijective.1 e) fun ks hks => ?_
  obtain ⟨K, rfl⟩ := keyWord_bijective.2 ks
  exact ⟨K, hks, rfl⟩

theorem sbox_fun {sbox : Sbox} (h : IsBijection sbox) : ∃ t : W32 → W32, (∀ x, sbox x = .ok (t x)) ∧ Function.Bijective t := by
  obtain ⟨h1, h2, h3⟩ := h
  choose t ht using h1
  refine ⟨t, ht, fun x y e => h2 x y (by rw [ht, ht, e]), fun y => ?_⟩
  obtain ⟨x, hx⟩ := h3 y
  exact ⟨x, Exec.ok.inj ((ht x).symm.trans hx)⟩

theorem keyWith_computes {sbox : Sbox} {t : W32 → W32} (ht : ∀ x, sbox x = .ok (t x)) (K : BitVec 256) :
    Computes (keyWith sbox K) fun i v => t (v + keyWord K i) := by
  intro v i
  have := LazyKey_ofNative_computes (kd := (List.finRange 8).map (keyWord K)) (by simp) ht v i
  rw [keyWith, this]
  simp

/-- Given words in the places but two, there is exactly one choice for these two. -/
theorem words_count {t : W32 → W32} (ht : Function.Bijective t) (pre : List (Fin 8)) {i j : Fin 8} (hij : i ≠ j) (hi : i ∉ pre) (hj : j ∉ pre)
    (x y : W32 × W32) :
    {ks : Fin 8 → W32 | rounds ((pre ++ [i, j]).map fun n v => t (v + ks n)) x = y}.ncard = 2 ^ 192 := by
  have last : ∀ ks : Fin 8 → W32, rounds ((pre ++ [i, j]).map fun n v => t (v + ks n)) x =
      (t ((rounds (pre.map fun n v => t (v + ks n)) x).2 + ks i) ^^^ (rounds (pre.map fun n v => t (v + ks n)) x).1,
        t ((t ((rounds (pre.map fun n v => t (v + ks n)) x).2 + ks i) ^^^ (rounds (pre.map fun n v => t (v + ks n)) x).1) + ks j) ^^^
          (rounds (pre.map fun n v => t (v + ks n)) x).2) := by
    intro ks
    rw [List.map_append, rounds_append]
    rfl
  have before : ∀ ks ls : Fin 8 → W32, (∀ n, n ≠ i → n ≠ j → ks n = ls n) →
      rounds (pre.map fun n v => t (v + ks n)) x = rounds (pre.map fun n v => t (v + ls n)) x := by
    intro ks ls h
    congr 1
    refine List.map_congr_left fun n hn => ?_
    funext v
    rw [h n (fun e => hi (e ▸ hn)) fun e => hj (e ▸ hn)]
  have xor_eq : ∀ a b c : W32, a ^^^ b = c ↔ a = c ^^^ b := by
    intro a b c
    constructor
    · rintro rfl
      rw [BitVec.xor_assoc, BitVec.xor_self, BitVec.xor_zero]
    · rintro rfl
      rw [BitVec.xor_assoc, BitVec.xor_self, BitVec.xor_zero]
  have mem : ∀ ks : Fin 8 → W32, rounds ((pre ++ [i, j]).map fun n v => t (v + ks n)) x = y ↔
      t ((rounds (pre.map fun n v => t (v + ks n)) x).2 + ks i) = y.1 ^^^ (rounds (pre.map fun n v => t (v + ks n)) x).1 ∧
      t (y.1 + ks j) = y.2 ^^^ (rounds (pre.map fun n v => t (v + ks n)) x).2 := by
    intro ks
    rw [last, Prod.ext_iff]
    simp only
    constructor
    · rintro ⟨e1, e2⟩
      rw [e1, xor_eq] at e2
      exact ⟨(xor_eq _ _ _).1 e1, e2⟩
    · rintro ⟨e1, e2⟩
      rw [← xor_eq] at e1
      rw [e1]
      exact ⟨rfl, (xor_eq _ _ _).2 e2⟩
  let P := {n : Fin 8 // n ≠ i ∧ n ≠ j}
  have hc : Fintype.card P = 6 := by
    have : ∀ i j : Fin 8, i ≠ j → Fintype.card {n : Fin 8 // n ≠ i ∧ n ≠ j} = 6 := by decide
    exact this i j hij
  have hu : (Set.univ : Set (P → W32)).ncard = 2 ^ 192 := by
    rw [Set.ncard_univ, Nat.card_eq_fintype_card, Fintype.card_fun, hc, card_bitVec]
    norm_num
  rw [← hu]
  refine Set.ncard_congr (fun ks _ n => ks n.1) (fun _ _ => trivial) ?_ ?_
  · intro ks ls hk hl e
    have e' : ∀ n, n ≠ i → n ≠ j → ks n = ls n := fun n h1 h2 => congrFun e ⟨n, h1, h2⟩
    have hk := (mem ks).1 hk
    have hl := (mem ls).1 hl
    rw [before ks ls e'] at hk
    have ei := (BitVec.add_right_inj _).1 (ht.1 (hk.1.trans hl.1.symm))
    have ej := (BitVec.add_right_inj _).1 (ht.1 (hk.2.trans hl.2.symm))
    funext n
    by_cases h1 : n = i
    · rw [h1, ei]
    by_cases h2 : n = j
    · rw [h2, ej]
    exact e' n h1 h2
  · intro r _
    let base : Fin 8 → W32 := fun n => if h : n ≠ i ∧ n ≠ j then r ⟨n, h⟩ else 0
    obtain ⟨s, hs⟩ : ∃ s, s = rounds (pre.map fun n v => t (v + base n)) x := ⟨_, rfl⟩
    obtain ⟨u, hu⟩ := ht.2 (y.1 ^^^ s.1)
    obtain ⟨w, hw⟩ := ht.2 (y.2 ^^^ s.2)
    let ks : Fin 8 → W32 := fun n => if n = i then u - s.2 else if n = j then w - y.1 else base n
    have hb : rounds (pre.map fun n v => t (v + ks n)) x = s := by
      rw [hs]
      exact before _ _ fun n h1 h2 => by simp only [ks, if_neg h1, if_neg h2]
    have add_sub : ∀ a b : W32, a + (b - a) = b := fun a b => by rw [BitVec.add_comm, BitVec.sub_add_cancel]
    refine ⟨ks, (mem ks).2 ?_, ?_⟩
    · rw [hb]
      refine ⟨?_, ?_⟩
      · simp only [ks, if_true]
        rw [add_sub, hu]
      · simp only [ks, if_neg hij.symm, if_true]
        rw [add_sub, hw]
    · funext n
      simp only [ks, if_neg n.2.1, if_neg n.2.2, base, dif_pos n.2]
      rfl

end Goost.Hiding
