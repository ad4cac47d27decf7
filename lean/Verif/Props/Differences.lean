import Verif.Lemmas.TwoRounds
/-
C131: how well differences and parities can be followed through the rounds of the 128-bit cipher.
-/
namespace Goost.Props
open Goost.Kuz Goost.Differences Spec Spec.Kuz

theorem rawBlock_value (m : Machine) (a : Block) : HasValue m (rawBlock a) a := by
  refine ⟨_, rfl, ?_⟩
  apply BitVec.eq_of_getLsbD_eq
  intro i hi
  simp only [join64, BitVec.getLsbD_append, BitVec.getLsbD_extractLsb']
  by_cases h : i < 64
  · simp [h]
  · rw [if_neg h]
    simp [show i - 64 < 64 by omega, show 64 + (i - 64) = i by omega]

/-- C131. Two blocks that differ in `n` bytes, and any difference: at most one in `32 ^ n` of the `2 ^ 128` round keys gives them
this difference after the round. -/
theorem C131_round (m : Machine) (hm : m.unalignedLoad = true) (a b : Blk) (v w : W64 × W64) (ha : a.value m = .ok v)
    (hb : b.value m = .ok w) (d : Block) :
    {k : Block | ∃ x y, (Key.encryptStep a (rawBlock k)).value m = .ok x ∧ (Key.encryptStep b (rawBlock k)).value m = .ok y ∧
        join64 x ^^^ join64 y = d}.ncard * 32 ^ differing (join64 v) (join64 w) ≤ 2 ^ 128 := by
  refine le_trans (Nat.mul_le_mul_right _ (Set.ncard_le_ncard ?_ (Set.toFinite _))) (round_differences (join64 v) (join64 w) d)
  rintro k ⟨x, y, hx, hy, e⟩
  obtain ⟨x', e1, e2⟩ := HasValue.lsx hm (b := a) ⟨v, ha, rfl⟩ (rawBlock_value m k)
  obtain ⟨y', e3, e4⟩ := HasValue.lsx hm (b := b) ⟨w, hb, rfl⟩ (rawBlock_value m k)
  rw [hx] at e1; cases e1
  rw [hy] at e3; cases e3
  rw [e2, e4] at e
  exact e

/-- Blocks that differ in all bytes. -/
example (d : Block) := C131_round .x86 rfl (.raw 0 0) (.raw 0x0101010101010101 0x0101010101010101) _ _ rfl rfl d
example : differing (join64 (0, 0)) (join64 (0x0101010101010101, 0x0101010101010101)) = 16 := by decide +kernel

/-- C131. This bound is reached, for each number of bytes. -/
theorem C131_reached (m : Machine) (hm : m.unalignedLoad = true) (n : Nat) (hn : n ≤ 16) : ∃ v w d : Block, differing v w = n ∧
    {k : Block | ∃ x y, (Key.encryptStep (rawBlock v) (rawBlock k)).value m = .ok x ∧
        (Key.encryptStep (rawBlock w) (rawBlock k)).value m = .ok y ∧ join64 x ^^^ join64 y = d}.ncard * 32 ^ n = 2 ^ 128 := by
  obtain ⟨v, w, d, h1, h2⟩ := round_reached n hn
  refine ⟨v, w, d, h1, ?_⟩
  rw [← h2]
  congr 2
  ext k
  obtain ⟨x, e1, e2⟩ := HasValue.lsx hm (rawBlock_value m v) (rawBlock_value m k)
  obtain ⟨y, e3, e4⟩ := HasValue.lsx hm (rawBlock_value m w) (rawBlock_value m k)
  constructor
  · rintro ⟨x', y', h1, h2, h3⟩
    rw [h1] at e1; cases e1
    rw [h2] at e3; cases e3
    rw [e2, e4] at h3
    exact h3
  · intro h
    exact ⟨x, y, e1, e3, by rw [e2, e4]; exact h⟩

example := C131_reached .x86 rfl 16 le_rfl

theorem afterRounds_value {m : Machine} (hm : m.unalignedLoad = true) (K : BitVec 256) {a : Blk} {v : W64 × W64} (ha : a.value m = .ok v) :
    HasValue m (afterRounds (rawKey K) 1 a) (LSX (K.extractLsb' 128 128) (join64 v)) ∧
    HasValue m (afterRounds (rawKey K) 2 a) (LSX (K.extractLsb' 0 128) (LSX (K.extractLsb' 128 128) (join64 v))) := by
  have h1 : HasValue m (rawKey K).k1 (K.extractLsb' 128 128) := rawBlock_value m _
  have h2 : HasValue m (rawKey K).k2 (K.extractLsb' 0 128) := rawBlock_value m _
  have e1 : HasValue m (Key.encryptStep a (rawKey K).k1) _ := HasValue.lsx hm ⟨v, ha, rfl⟩ h1
  exact ⟨e1, HasValue.lsx hm e1 h2⟩

theorem halves_injective : Function.Injective fun K : BitVec 256 => (K.extractLsb' 128 128, K.extractLsb' 0 128) := by
  intro K K' h
  have h1 := congrArg Prod.fst h
  have h2 := congrArg Prod.snd h
  apply BitVec.eq_of_getLsbD_eq
  intro i hi
  by_cases hl : i < 128
  · have := congrArg (fun x : BitVec 128 => x.getLsbD i) h2
    simpa [hl] using this
  · have := congrArg (fun x : BitVec 128 => x.getLsbD (i - 128)) h1
    simpa [show i - 128 < 128 by omega, show 128 + (i - 128) = i by omega] using this

/-- C131. Two different blocks, and any difference: at most `2 ^ 176` of the `2 ^ 256` keys give them this difference after two
rounds. -/
theorem C131_two_rounds (m : Machine) (hm : m.unalignedLoad = true) (a b : Blk) (v w : W64 × W64) (ha : a.value m = .ok v)
    (hb : b.value m = .ok w) (hne : v ≠ w) (d : Block) :
    {K : BitVec 256 | ∃ x y, (afterRounds (rawKey K) 2 a).value m = .ok x ∧ (afterRounds (rawKey K) 2 b).value m = .ok y ∧
        join64 x ^^^ join64 y = d}.ncard ≤ 2 ^ 176 := by
  have h := two_round_differences (join64 v) (join64 w) d fun e => hne (join64_inj e)
  refine le_trans (Set.ncard_le_ncard_of_injOn _ ?_ halves_injective.injOn (Set.toFinite _))
    (Nat.le_of_mul_le_mul_right (c := 2 ^ 80) (le_trans h (by norm_num)) (by norm_num))
  rintro K ⟨x, y, hx, hy, e⟩
  obtain ⟨x', e1, e2⟩ := (afterRounds_value hm K ha).2
  obtain ⟨y', e3, e4⟩ := (afterRounds_value hm K hb).2
  rw [hx] at e1; cases e1
  rw [hy] at e3; cases e3
  rw [e2, e4] at e
  exact e

example (d : Block) := C131_two_rounds .x86 rfl (.raw 1 2) (.raw 1 3) _ _ rfl rfl (by decide) d

/-- C131. Two different blocks, and any differences after the first and after the second round: at most `2 ^ 171` keys give
them both. -/
theorem C131_path (m : Machine) (hm : m.unalignedLoad = true) (a b : Blk) (v w : W64 × W64) (ha : a.value m = .ok v)
    (hb : b.value m = .ok w) (hne : v ≠ w) (d₁ d₂ : Block) :
    {K : BitVec 256 | ∃ x₁ y₁ x₂ y₂,
        (afterRounds (rawKey K) 1 a).value m = .ok x₁ ∧ (afterRounds (rawKey K) 1 b).value m = .ok y₁ ∧
        (afterRounds (rawKey K) 2 a).value m = .ok x₂ ∧ (afterRounds (rawKey K) 2 b).value m = .ok y₂ ∧
        join64 x₁ ^^^ join64 y₁ = d₁ ∧ join64 x₂ ^^^ join64 y₂ = d₂}.ncard ≤ 2 ^ 171 := by
  have h := two_rounds (join64 v) (join64 w) d₁ d₂ fun e => hne (join64_inj e)
  refine le_trans (Set.ncard_le_ncard_of_injOn _ ?_ halves_injective.injOn (Set.toFinite _))
    (Nat.le_of_mul_le_mul_right (c := 2 ^ 85) (le_trans h (by norm_num)) (by norm_num))
  rintro K ⟨x₁, y₁, x₂, y₂, hx₁, hy₁, hx₂, hy₂, e, e'⟩
  obtain ⟨⟨p, e1, e2⟩, p', e3, e4⟩ := afterRounds_value hm K ha
  obtain ⟨⟨q, e5, e6⟩, q', e7, e8⟩ := afterRounds_value hm K hb
  rw [hx₁] at e1; cases e1
  rw [hx₂] at e3; cases e3
  rw [hy₁] at e5; cases e5
  rw [hy₂] at e7; cases e7
  rw [e2, e6] at e
  rw [e4, e8] at e'
  exact ⟨e, e'⟩

example (d e : Block) := C131_path .x86 rfl (.raw 1 2) (.raw 1 3) _ _ rfl rfl (by decide) d e

/-- C131. A round with any key, any parity of the result that selects from `t` of its bytes, and any parity of the data: among the
`2 ^ 128` blocks they agree about as often as not. The two numbers differ by at most `(7/32) ^ (17 - t)` of all. -/
theorem C131_parities (m : Machine) (hm : m.unalignedLoad = true) (k : Blk) (u : W64 × W64) (hk : k.value m = .ok u)
    (α γ : Block) (hγ : γ ≠ 0) :
    |2 * (({x : Block | ∃ y, (Key.encryptStep (rawBlock x) k).value m = .ok y ∧ parity γ (join64 y) = parity α x}.ncard : ℕ) : ℤ) -
        2 ^ 128| * 32 ^ (17 - differing γ 0) ≤ 7 ^ (17 - differing γ 0) * 2 ^ 128 := by
  have e : {x : Block | ∃ y, (Key.encryptStep (rawBlock x) k).value m = .ok y ∧ parity γ (join64 y) = parity α x} =
      {x : Block | parity γ (LSX (join64 u) x) = parity α x} := by
    ext x
    obtain ⟨y, e1, e2⟩ := HasValue.lsx hm (rawBlock_value m x) ⟨u, hk, rfl⟩
    constructor
    · rintro ⟨y', h1, h2⟩
      rw [h1] at e1; cases e1
      rw [e2] at h2
      exact h2
    · intro h
      exact ⟨y, e1, by rw [e2]; exact h⟩
  have h := round_parities (join64 u) α γ hγ
  rw [sum_sgn, card_bitVec, ← ncard_eq] at h
  have hc : {x : Block | parity γ (LSX (join64 u) x) = parity α x}.ncard +
      {x : Block | parity γ (LSX (join64 u) x) ≠ parity α x}.ncard = 2 ^ 128 := by
    rw [← card_bitVec 128, ← Nat.card_eq_fintype_card, ← Set.ncard_add_ncard_compl {x : Block | parity γ (LSX (join64 u) x) = parity α x}]
    rfl
  rw [e, show (2 * (({x : Block | parity γ (LSX (join64 u) x) = parity α x}.ncard : ℕ) : ℤ) - 2 ^ 128) =
    (2 ^ 128 : ℕ) - 2 * (({x : Block | parity γ (LSX (join64 u) x) ≠ parity α x}.ncard : ℕ) : ℤ) by
      rw [← hc]; push_cast; have := congrArg (Nat.cast : ℕ → ℤ) hc; push_cast at this; omega]
  exact h

/-- The lowest bit of the result. -/
example (α : Block) := C131_parities .x86 rfl (.raw 5 6) _ rfl α 1 (by decide)
example : differing (1 : Block) 0 = 1 := by decide +kernel

/-- C131. A parity of the data of the linear step and a parity of its result that agree for every block: their masks together
select from at least 17 bytes. -/
theorem C131_masks (m : Machine) (hm : m.unalignedLoad = true) (β γ : Block) (hγ : γ ≠ 0)
    (h : ∀ b v, (b : Blk).value m = .ok v → ∃ y, (BlkL b).value m = .ok y ∧ parity γ (join64 y) = parity β (join64 v)) :
    17 ≤ differing β 0 + differing γ 0 := by
  refine L_masks β γ (fun y => ?_) hγ
  obtain ⟨v, e1, e2⟩ := rawBlock_value m y
  obtain ⟨x, e3, e4⟩ := h _ v e1
  obtain ⟨x', e5, e6⟩ := HasValue.blkL hm (rawBlock_value m y)
  rw [e3] at e5; cases e5
  rw [e6, e2] at e4
  exact e4

/-- C131. Each parity of the result of the linear step is a parity of its data. -/
theorem C131_mask_exists (m : Machine) (hm : m.unalignedLoad = true) (γ : Block) : ∃ β : Block,
    ∀ b v, (b : Blk).value m = .ok v → ∃ y, (BlkL b).value m = .ok y ∧ parity γ (join64 y) = parity β (join64 v) := by
  obtain ⟨β, hβ⟩ := exists_mask (fun y => parity γ (L y)) fun a b => by rw [L_xor, parity_xor]
  refine ⟨β, fun b v hv => ?_⟩
  obtain ⟨y, e1, e2⟩ := HasValue.blkL hm (b := b) ⟨v, hv, rfl⟩
  exact ⟨y, e1, by rw [e2]; exact hβ _⟩

/-- Both together, for the lowest bit of the result. -/
example : ∃ β : Block, 16 ≤ differing β 0 := by
  obtain ⟨β, hβ⟩ := C131_mask_exists .x86 rfl 1
  have h := C131_masks .x86 rfl β 1 (by decide) hβ
  have : differing (1 : Block) 0 = 1 := by decide +kernel
  exact ⟨β, by omega⟩

end Goost.Props
