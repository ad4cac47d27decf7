import Verif.Lemmas.MagmaRounds
/-
C132: how far differences of blocks can be followed through the rounds of the 64-bit cipher.
-/
namespace Goost.Props
open Spec Spec.Magma Goost.Magma Goost.Differences

/-- The rounds of the specification are those of the library: `BlkForwarded` is the eight rounds with the words 0 … 7, and
`BlkEncrypted` is the 32 rounds of the standard, with the halves exchanged at the end. -/
theorem C132_rounds (m : Machine) {key : Key} (hk : Usable key) {b : Blk} {v : BitVec 32 × BitVec 32} (hb : b.value m = .ok v) :
    (Blk.forwarded b (some key)).value m = afterRounds key (List.finRange 8) v ∧
    (BlkEncrypted b (some key)).value m = (do let u ← afterRounds key schedule v; return u.swap) := by
  obtain ⟨f, hf⟩ := hk.computes
  have e8 : List.finRange 8 = [0, 1, 2, 3, 4, 5, 6, 7] := rfl
  constructor
  · rw [afterRounds_eq hf, e8, ← fwd_eq_rounds, Prod.swap_swap]
    simp only [Blk.value, hb, Exec.ok_bind, forwardRounds_eq hf]
  · rw [BlkEncrypted_value hf m hb, afterRounds_eq hf, Exec.ok_bind, Prod.swap_swap, encP]
    rw [schedule_split]
    simp only [rounds_append]
    rw [← fwd_eq_rounds, ← fwd_eq_rounds, ← fwd_eq_rounds, ← bwd_eq_rounds]
    rfl

example : Usable (wordKey 5) ∧ (Blk.raw 1 2).value .x86 = .ok (1, 2) ∧
    afterRounds (wordKey 5) (List.finRange 8) (1, 2) ≠ .ok (1, 2) := by
  refine ⟨(wordKey_computes 5).usable, rfl, ?_⟩
  rw [afterRounds_eq (wordKey_computes 5)]
  decide +kernel

/-- Whatever two different words enter a round, and whatever difference is hoped for: at most a quarter of the key words give it. -/
theorem C132_round (x y d : BitVec 32) (i : Fin 8) (h : x ≠ y) :
    {k : BitVec 32 | ∃ u v, (wordKey k).transform x (i.val : Int) = .ok u ∧ (wordKey k).transform y (i.val : Int) = .ok v ∧
      u ^^^ v = d}.ncard ≤ 2 ^ 30 := by
  refine le_trans (Set.ncard_le_ncard ?_ (Set.toFinite _)) (g_differences x y d h)
  rintro k ⟨u, v, hu, hv, e⟩
  rw [wordKey_computes k x i] at hu
  rw [wordKey_computes k y i] at hv
  cases hu
  cases hv
  exact e

example := C132_round 1 2 3 4 (by decide)

/-- A quarter is reached: words that differ in the highest bit. -/
theorem C132_round_reached (i : Fin 8) :
    {k : BitVec 32 | ∃ u v, (wordKey k).transform 0 (i.val : Int) = .ok u ∧
      (wordKey k).transform 0x80000000#32 (i.val : Int) = .ok v ∧ u ^^^ v = (0x90000000#32).rotateLeft 11}.ncard = 2 ^ 30 := by
  refine le_antisymm (C132_round _ _ _ i (by decide)) (le_trans reached_count (Set.ncard_le_ncard ?_ (Set.toFinite _)))
  intro k hk
  exact ⟨_, _, wordKey_computes k 0 i, wordKey_computes k _ i, hk⟩

example : (0 : BitVec 32) ≠ 0x80000000#32 ∧ (0x90000000#32).rotateLeft 11 ≠ 0 := by decide

/-- Of three rounds in a row, at most one gets the same word for both of two different blocks, whatever the key; so that of the 32 rounds of
encryption at least 21 get different words. -/
theorem C132_active {key_data : KeyData} {k : Fin 8 → BitVec 32} (hk : ∀ i : Fin 8, key_data (i.val : Int) = .ok (k i))
    {v w : BitVec 32 × BitVec 32} (h : v ≠ w) :
    ∃ x y : Nat → BitVec 32 × BitVec 32,
      (∀ n ≤ 32, afterRounds (LazyKey key_data SboxR3412) (schedule.take n) v = .ok (x n) ∧
        afterRounds (LazyKey key_data SboxR3412) (schedule.take n) w = .ok (y n)) ∧
      (∀ n < 30, ((x n).1 ≠ (y n).1 ∨ (x (n + 1)).1 ≠ (y (n + 1)).1) ∧
        ((x (n + 1)).1 ≠ (y (n + 1)).1 ∨ (x (n + 2)).1 ≠ (y (n + 2)).1) ∧
        ((x n).1 ≠ (y n).1 ∨ (x (n + 2)).1 ≠ (y (n + 2)).1)) ∧
      21 ≤ (List.range 32).countP fun n => (x n).1 ≠ (y n).1 := by
  have hf : Computes (LazyKey key_data SboxR3412) fun i => g Spec.Magma.pi (k i) := LazyKey_computes hk SboxR3412_eq
  -- the rounds, continued with any words after the last
  let key : Nat → BitVec 32 := fun n => ((schedule.map k)[n]?).getD 0
  let st : Halves → Nat → Halves := fun v n => rnds (g Spec.Magma.pi) ((List.range n).map key) v
  have step : ∀ v n, st v (n + 1) = rnd (g Spec.Magma.pi) (key n) (st v n) := by
    intro v n
    simp only [st, rnds, List.range_succ, List.map_append, List.foldl_append]
    rfl
  have ne : ∀ n, st v.swap n ≠ st w.swap n := fun n => rnds_ne _ fun e => h (Prod.swap_injective e)
  have act : ∀ n, ((st v.swap n).2 ≠ (st w.swap n).2 ∨ (st v.swap (n + 1)).2 ≠ (st w.swap (n + 1)).2) ∧
      ((st v.swap (n + 1)).2 ≠ (st w.swap (n + 1)).2 ∨ (st v.swap (n + 2)).2 ≠ (st w.swap (n + 2)).2) ∧
      ((st v.swap n).2 ≠ (st w.swap n).2 ∨ (st v.swap (n + 2)).2 ≠ (st w.swap (n + 2)).2) := by
    intro n
    have := active g_good (key n) (key (n + 1)) (ne n)
    rw [← step, ← step, ← step, ← step] at this
    simpa only [not_and_or] using this
  have run : ∀ v : BitVec 32 × BitVec 32, ∀ n ≤ 32,
      afterRounds (LazyKey key_data SboxR3412) (schedule.take n) v = .ok (st v.swap n).swap := by
    intro v n hn
    rw [afterRounds_eq hf]
    show Exec.ok (rounds ((schedule.take n).map (g Spec.Magma.pi ∘ k)) v.swap).swap = _
    rw [← List.map_map, rnds_rounds]
    refine congrArg (fun ks => Exec.ok (rnds (g Spec.Magma.pi) ks v.swap).swap) ?_
    apply List.ext_getElem
    · simp [schedule]; omega
    · intro j h1 h2
      have : j < n := by simpa using h2
      have : j < schedule.length := by simp [schedule]; omega
      simp [key, List.getElem?_eq_getElem this]
  refine ⟨fun n => (st v.swap n).swap, fun n => (st w.swap n).swap, fun n hn => ⟨run v n hn, run w n hn⟩, fun n _ => act n, ?_⟩
  have := count_active (fun n => decide ((st v.swap n).2 ≠ (st w.swap n).2)) (by simpa using act) 10
  exact this

example : (∀ i : Fin 8, KeyDataNative [1, 2, 3, 4, 5, 6, 7, 8] (i.val : Int) = .ok ((fun i : Fin 8 => BitVec.ofNat 32 (i.val + 1)) i)) ∧
    ((0, 0) : BitVec 32 × BitVec 32) ≠ (1, 0) := by decide

/-- Whatever differences are foreseen after each of the eight rounds of `BlkForwarded`: two different blocks show all of them with at most one
in 2¹⁰ of the keys. -/
theorem C132_path {v w : BitVec 32 × BitVec 32} (h : v ≠ w) (d : Nat → BitVec 32 × BitVec 32) :
    {K : BitVec 256 | ∀ n, 1 ≤ n → n ≤ 8 → ∃ x y,
      afterRounds (nativeKey K) ((List.finRange 8).take n) v = .ok x ∧
      afterRounds (nativeKey K) ((List.finRange 8).take n) w = .ok y ∧ difference x y = d n}.ncard ≤ 2 ^ 246 := by
  refine le_trans (Set.ncard_le_ncard ?_ (Set.toFinite _)) (le_trans (ncard_keys fun ks =>
    Path (g Spec.Magma.pi) (List.ofFn ks) ((List.range 8).map fun n => (d (n + 1)).swap) v.swap w.swap)
    (eight_paths g_good _ fun e => h (Prod.swap_injective e)))
  intro K hK
  have := path_of (g Spec.Magma.pi) (List.ofFn (keyWord K)) (fun n => (d (n + 1)).swap) v.swap w.swap fun n hn => by
    obtain ⟨x, y, hx, hy, e⟩ := hK (n + 1) (by omega) (by simpa using hn)
    rw [native_rounds] at hx hy
    cases hx
    cases hy
    rw [← e, difference_swap, Prod.swap_swap]
  rwa [List.length_ofFn] at this

example := C132_path (v := (1, 2)) (w := (3, 4)) (by decide) fun n => (BitVec.ofNat 32 n, 5)

/-- Whatever difference is hoped for after the eight rounds of `BlkForwarded`: two different blocks show it with at most seven of 64 keys. -/
theorem C132_forwarded (m : Machine) {a b : Blk} {v w : BitVec 32 × BitVec 32} (ha : a.value m = .ok v) (hb : b.value m = .ok w)
    (h : v ≠ w) (d : BitVec 32 × BitVec 32) :
    {K : BitVec 256 | ∃ x y, (Blk.forwarded a (some (nativeKey K))).value m = .ok x ∧
      (Blk.forwarded b (some (nativeKey K))).value m = .ok y ∧ difference x y = d}.ncard ≤ 7 * 2 ^ 250 := by
  refine le_trans (Set.ncard_le_ncard ?_ (Set.toFinite _)) (le_trans (ncard_keys fun ks =>
    diff (rnds (g Spec.Magma.pi) (List.ofFn ks) v.swap) (rnds (g Spec.Magma.pi) (List.ofFn ks) w.swap) = d.swap)
    (eight_rounds g_good (fun e => h (Prod.swap_injective e)) _))
  rintro K ⟨x, y, hx, hy, e⟩
  rw [(C132_rounds m (nativeKey_computes K).usable ha).1] at hx
  rw [(C132_rounds m (nativeKey_computes K).usable hb).1] at hy
  have all : (List.finRange 8).take 8 = List.finRange 8 := rfl
  have rx := native_rounds K 8 v
  have ry := native_rounds K 8 w
  rw [all, hx, List.take_of_length_le (by simp)] at rx
  rw [all, hy, List.take_of_length_le (by simp)] at ry
  cases rx
  cases ry
  show diff _ _ = _
  rw [← e, difference_swap, Prod.swap_swap]

example : (Blk.raw 0 0).value .x86 = .ok (0, 0) ∧ (Blk.str "0000000000000001".toList).value .x86 = .ok (1, 0) ∧
    ((0, 0) : BitVec 32 × BitVec 32) ≠ (1, 0) ∧ 7 * 2 ^ 250 < 2 ^ 256 := by
  refine ⟨rfl, ?_, ?_, ?_⟩ <;> decide +kernel

end Goost.Props
