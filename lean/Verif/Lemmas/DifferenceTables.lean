import Verif.Lemmas.Diffusion
import Verif.Spec.Differences
import Mathlib.Data.BitVec
import Mathlib.Data.Fintype.BigOperators
import Mathlib.Data.Set.Card

/-
The substitution of the 128-bit cipher: the difference table and the table of linear approximations are counted by the kernel
in the lanes of large numbers.
-/
namespace Goost.Differences
open Spec.Kuz (Byte Block)

/-- The table of π as one number. -/
def packed : Nat := 0xb6634b39c2af66d1c0b4f4e6d274a659526ce5bed0259bcb5b092b2da46771206185d8ca90aa538dfef83f4c49831be189e7d988e46b3730f71dac8640b358073b95d5697da5a38c2f555e27924645ad41269f648238b81a4462001e736097a74a0a334e5028e8dcbcb0947adeec0fe003b9227cf6d679d7c943a83ea924f5df570dbdc380c6546d7e8a35ff3d197532b1b29e9d6f7891f3c79a7b102996a115875db79c471372bf12760c08560e70b5ccce3afda2682af2ab48c8ea512c34eb1fd3d47f98ed0b06a08f6ae3ae0284054f8e018b423c1c8121ef5ce25a6518f9c15fcd14bbf13617ba992e93dbf077e94d04c523dafac4fb16316ecf11ddeefc

/-- π from the packed table. -/
def s (x : Nat) : Nat := packed >>> (8 * x) % 256

theorem s_eq (x : Byte) : (Spec.Kuz.pi x).toNat = s x.toNat := by
  have h : ∀ n < 256, (BitVec.ofNat 8 (Spec.Kuz.piTable.getD n 0)).toNat = s n := by decide +kernel
  exact h _ x.isLt

/-! ### Counting in lanes of one number -/

/-- One is added to the lane number `f i` for every `i < n`. -/
def lanes (f : Nat → Nat) : Nat → Nat
  | 0 => 0
  | n + 1 => lanes f n + 1 <<< (16 * f n)

theorem lanes_split (f : Nat → Nat) (b n : Nat) : ∃ A Q, lanes f n =
      A + 2 ^ (16 * b) * ((Finset.range n).filter fun i => f i = b).card + 2 ^ (16 * b) * 2 ^ 16 * Q ∧
    A * 2 ^ 16 ≤ n * 2 ^ (16 * b) := by
  induction n with
  | zero => exact ⟨0, 0, by simp [lanes], by simp⟩
  | succ n ih =>
    obtain ⟨A, Q, h1, h2⟩ := ih
    rw [Finset.range_add_one, Finset.filter_insert]
    simp only [lanes, h1, Nat.one_shiftLeft]
    rcases lt_trichotomy (f n) b with h | h | h
    · refine ⟨A + 2 ^ (16 * f n), Q, ?_, ?_⟩
      · rw [if_neg (by omega)]; ring
      · have : 2 ^ (16 * f n) * 2 ^ 16 ≤ 2 ^ (16 * b) := by
          rw [← pow_add]; exact Nat.pow_le_pow_right (by omega) (by omega)
        rw [add_mul, add_mul, one_mul]; exact Nat.add_le_add h2 this
    · refine ⟨A, Q, ?_, by rw [add_mul]; omega⟩
      rw [if_pos h, Finset.card_insert_of_notMem (by simp), h]; ring
    · refine ⟨A, Q + 2 ^ (16 * (f n - b - 1)), ?_, by rw [add_mul]; omega⟩
      rw [if_neg (by omega)]
      have : 2 ^ (16 * f n) = 2 ^ (16 * b) * 2 ^ 16 * 2 ^ (16 * (f n - b - 1)) := by
        rw [← pow_add, ← pow_add]; congr 1; omega
      rw [this]; ring

theorem lanes_count (f : Nat → Nat) (b n : Nat) (hn : n < 2 ^ 16) :
    lanes f n >>> (16 * b) % 65536 = ((Finset.range n).filter fun i => f i = b).card := by
  obtain ⟨A, Q, h1, h2⟩ := lanes_split f b n
  have hc : ((Finset.range n).filter fun i => f i = b).card ≤ n := by
    simpa using Finset.card_filter_le (Finset.range n) fun i => f i = b
  have hp : 0 < 2 ^ (16 * b) := by positivity
  have hA : A < 2 ^ (16 * b) := by
    by_contra h
    have := Nat.mul_le_mul_right (2 ^ 16) (not_lt.1 h)
    have := Nat.mul_lt_mul_of_pos_right hn hp
    nlinarith
  rw [Nat.shiftRight_eq_div_pow, h1, show A + 2 ^ (16 * b) * ((Finset.range n).filter fun i => f i = b).card +
      2 ^ (16 * b) * 2 ^ 16 * Q = A + 2 ^ (16 * b) * (((Finset.range n).filter fun i => f i = b).card + 2 ^ 16 * Q) by ring,
    Nat.add_mul_div_left _ _ hp, Nat.div_eq_of_lt hA]
  omega

/-- All of the first `n` lanes have at most 8. -/
def small (c : Nat) : Nat → Bool
  | 0 => true
  | n + 1 => (c >>> (16 * n) % 65536).ble 8 && small c n

theorem small_spec (c n : Nat) (h : small c n = true) : ∀ b < n, c >>> (16 * b) % 65536 ≤ 8 := by
  induction n with
  | zero => intro b hb; omega
  | succ n ih =>
    simp only [small, Bool.and_eq_true] at h
    intro b hb
    rcases Nat.lt_succ_iff_lt_or_eq.1 hb with hb | rfl
    · exact ih h.2 b hb
    · exact Nat.le_of_ble_eq_true h.1

/-- As `small`, with the number evaluated first. -/
def small' (c : Nat) : Bool :=
  match c with
  | 0 => true
  | k + 1 => small (k + 1) 256

/-- The lanes for the differences `a = 1 … n`. -/
def table : Nat → Bool
  | 0 => true
  | a + 1 => small' (lanes (fun x => s x ^^^ s (x ^^^ (a + 1))) 256) && table a


set_option maxRecDepth 100000 in
theorem table_ok : table 255 = true := by decide +kernel

/-! ### Parities -/

/-- The parities of the bytes as one number. -/
def parities : Nat := 0x6996966996696996966969966996966996696996699696696996966996696996

/-- The parity of a byte. -/
def par (n : Nat) : Nat := parities >>> n % 2

/-- `f x` in the lane number `x` for every `x < n`. -/
def spread (f : Nat → Nat) : Nat → Nat
  | 0 => 0
  | n + 1 => spread f n + f n <<< (16 * n)

/-- The masks `a < n` against the mask `b`. -/
def row (b : Nat) : Nat → Bool
  | 0 => true
  | a + 1 =>
    let c := (spread (fun x => par (b &&& s x)) 256 ^^^ spread (fun x => par (a &&& x)) 256) % 65535
    Nat.ble 100 c && Nat.ble c 156 && row b a

/-- The masks `b = 1 … n`. -/
def rows : Nat → Bool
  | 0 => true
  | b + 1 => row (b + 1) 256 && rows b

set_option maxRecDepth 100000 in
theorem rows_ok : rows 255 = true := by decide +kernel

end Goost.Differences
