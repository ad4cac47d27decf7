import Verif.Spec.MagmaDifferences
import Verif.Lemmas.MagmaPaths
import Verif.Lemmas.KeyText
import Verif.Lemmas.Feistel
/-
Helper lemmas: rounds of key objects and the differences they make.
-/
namespace Goost.Differences
open Spec Spec.Magma Goost.Magma

theorem afterRounds_eq {key : Key} {f : Fin 8 → BitVec 32 → BitVec 32} (h : Computes key f) (is : List (Fin 8)) :
    ∀ v, afterRounds key is v = .ok (rounds (is.map f) v.swap).swap := by
  induction is with
  | nil => exact fun v => rfl
  | cons i is ih =>
    intro v
    rw [afterRounds, h v.1 i, Exec.ok_bind, ih]
    congr 2
    simp only [List.map_cons, rounds, List.foldl_cons, Prod.swap, G]
    rw [BitVec.xor_comm]

theorem rnds_rounds (f : BitVec 32 → BitVec 32 → BitVec 32) (ks : List (BitVec 32)) (v : Halves) :
    rounds (ks.map f) v = rnds f ks v := by
  rw [rounds, rnds, List.foldl_map]
  rfl

theorem wordKey_computes (k : BitVec 32) : Computes (wordKey k) fun _ => g Spec.Magma.pi k :=
  LazyKey_computes (k := fun _ => k) (fun _ => rfl) SboxR3412_eq

theorem nativeKey_computes (K : BitVec 256) : Computes (nativeKey K) fun i => g Spec.Magma.pi (keyWord K i) := by
  intro v i
  have := LazyKey_ofNative_computes (kd := (List.finRange 8).map (keyWord K)) (by simp) SboxR3412_eq v i
  rw [nativeKey, this]
  simp [g]

theorem native_rounds (K : BitVec 256) (n : Nat) (v : BitVec 32 × BitVec 32) :
    afterRounds (nativeKey K) ((List.finRange 8).take n) v =
      .ok (rnds (g Spec.Magma.pi) ((List.ofFn (keyWord K)).take n) v.swap).swap := by
  rw [afterRounds_eq (nativeKey_computes K), ← rnds_rounds, List.ofFn_eq_map, ← List.map_take, List.map_map]
  rfl

theorem ncard_keys (P : (Fin 8 → BitVec 32) → Prop) : {K : BitVec 256 | P (keyWord K)}.ncard ≤ {ks | P ks}.ncard :=
  Set.ncard_le_ncard_of_injOn keyWord (fun _ h => h) (fun _ _ _ _ e => keyWords_inj fun i => congrFun e i) (Set.toFinite _)

theorem difference_swap (v w : BitVec 32 × BitVec 32) : difference v.swap w.swap = (diff v w).swap := rfl

theorem path_of (f : BitVec 32 → BitVec 32 → BitVec 32) : ∀ (ks : List (BitVec 32)) (d : Nat → Halves) (v w : Halves),
    (∀ n < ks.length, diff (rnds f (ks.take (n + 1)) v) (rnds f (ks.take (n + 1)) w) = d n) →
    Path f ks ((List.range ks.length).map d) v w
  | [], _, _, _, _ => trivial
  | k :: ks, d, v, w, h => by
    rw [List.length_cons, List.range_succ_eq_map, List.map_cons, List.map_map]
    refine ⟨h 0 (by simp), path_of f ks _ _ _ fun n hn => ?_⟩
    exact h (n + 1) (by simpa using hn)

/-- Of 3 m + 2 in a row at least 2 m + 1, if of three in a row at least two. -/
theorem count_active (p : Nat → Bool)
    (h : ∀ n, (p n ∨ p (n + 1)) ∧ (p (n + 1) ∨ p (n + 2)) ∧ (p n ∨ p (n + 2))) (m : Nat) :
    2 * m + 1 ≤ (List.range (3 * m + 2)).countP p := by
  induction m with
  | zero =>
    obtain ⟨a, -, -⟩ := h 0
    cases e : p 0 <;> cases e' : p 1 <;> simp_all [List.range_succ]
  | succ m ih =>
    rw [show 3 * (m + 1) + 2 = 3 * m + 2 + 1 + 1 + 1 by ring, List.range_succ, List.range_succ, List.range_succ]
    simp only [List.countP_append, List.countP_singleton]
    obtain ⟨a, b, c⟩ := h (3 * m + 2)
    cases e : p (3 * m + 2) <;> cases e' : p (3 * m + 2 + 1) <;> cases e'' : p (3 * m + 2 + 2) <;> simp_all <;> omega

/-- The word with the highest nibble `n` and the lower bits `z`. -/
def word (n : BitVec 4) (z : BitVec 28) : BitVec 32 := BitVec.ofNat 32 (n.toNat * 2 ^ 28 + z.toNat)

theorem word_toNat (n : BitVec 4) (z : BitVec 28) : (word n z).toNat = n.toNat * 2 ^ 28 + z.toNat := by
  have := z.isLt
  have := n.isLt
  rw [word, BitVec.toNat_ofNat]
  omega

theorem word_add (n : BitVec 4) (z : BitVec 28) : word n z + 0x80000000#32 = word (n + 8) z := by
  apply BitVec.eq_of_toNat_eq
  have := z.isLt
  have := n.isLt
  have e : (n + 8).toNat = (n.toNat + 8) % 16 := by rw [BitVec.toNat_add]; rfl
  rw [BitVec.toNat_add, word_toNat, word_toNat, e]
  simp only [BitVec.toNat_ofNat]
  omega

theorem nibble_toNat (w : BitVec 32) (i : Fin 8) : (nibble w i).toNat = w.toNat / 2 ^ (4 * i.val) % 16 := by
  rw [nibble, BitVec.extractLsb'_toNat, Nat.shiftRight_eq_div_pow]

theorem nibble_high (n : BitVec 4) (z : BitVec 28) : nibble (word n z) 7 = n := by
  apply BitVec.eq_of_toNat_eq
  have := z.isLt
  have := n.isLt
  rw [nibble_toNat, word_toNat]
  show _ / 2 ^ 28 % 16 = _
  omega

theorem nibble_low (n n' : BitVec 4) (z : BitVec 28) (i : Fin 8) (h : i ≠ 7) : nibble (word n z) i = nibble (word n' z) i := by
  apply BitVec.eq_of_toNat_eq
  have := z.isLt
  rw [nibble_toNat, nibble_toNat, word_toNat, word_toNat]
  obtain ⟨i, hi⟩ := i
  have : i < 7 := by
    have : i ≠ 7 := fun e => h (Fin.ext e)
    omega
  simp only
  interval_cases i <;> omega

theorem word_inj {n n' : BitVec 4} {z z' : BitVec 28} (h : word n z = word n' z') : n = n' ∧ z = z' := by
  have e := congrArg BitVec.toNat h
  rw [word_toNat, word_toNat] at e
  have := z.isLt
  have := z'.isLt
  exact ⟨BitVec.eq_of_toNat_eq (by omega), BitVec.eq_of_toNat_eq (by omega)⟩

/-- Four nibbles of the last row give the difference 9 when the words differ in the highest bit. -/
theorem last_row : ∀ n : BitVec 4, n = 4 ∨ n = 5 ∨ n = 12 ∨ n = 13 → Spec.Magma.pi 7 n ^^^ Spec.Magma.pi 7 (n + 8) = 9 := by
  decide

theorem reached (n : BitVec 4) (z : BitVec 28) (h : n = 4 ∨ n = 5 ∨ n = 12 ∨ n = 13) :
    g Spec.Magma.pi (word n z) 0 ^^^ g Spec.Magma.pi (word n z) 0x80000000#32 = (0x90000000#32).rotateLeft 11 := by
  rw [g, g, ← rotate_xor]
  congr 1
  rw [show (0 : BitVec 32) + word n z = word n z from BitVec.zero_add _, BitVec.add_comm, word_add]
  refine nibble_ext fun i => ?_
  rw [nibble_xor, nibble_t, nibble_t]
  by_cases hi : i = 7
  · subst hi
    rw [nibble_high, nibble_high, last_row n h]
    decide
  · rw [nibble_low (n + 8) n z i hi, BitVec.xor_self]
    revert i
    decide

theorem reached_count : 2 ^ 30 ≤ {k | g Spec.Magma.pi k 0 ^^^ g Spec.Magma.pi k 0x80000000#32 = (0x90000000#32).rotateLeft 11}.ncard := by
  classical
  obtain ⟨F, mF, hF⟩ := exists_finset fun k : BitVec 32 =>
    g Spec.Magma.pi k 0 ^^^ g Spec.Magma.pi k 0x80000000#32 = (0x90000000#32).rotateLeft 11
  rw [hF]
  have hc : (({4, 5, 12, 13} : Finset (BitVec 4)) ×ˢ (Finset.univ : Finset (BitVec 28))).card = 2 ^ 30 := by
    rw [Finset.card_product, Finset.card_univ, card_bitVec]
    rfl
  rw [← hc]
  refine Finset.card_le_card_of_injOn (fun p => word p.1 p.2) ?_ ?_
  · rintro ⟨n, z⟩ hp
    have hp := (Finset.mem_product.1 (Finset.mem_coe.1 hp)).1
    refine Finset.mem_coe.2 ((mF _).2 (reached n z ?_))
    simpa using hp
  · rintro ⟨n, z⟩ _ ⟨n', z'⟩ _ e
    obtain ⟨e1, e2⟩ := word_inj e
    exact Prod.ext e1 e2

end Goost.Differences
