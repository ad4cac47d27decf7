import Verif.Lemmas.TestSupport
import Verif.Lemmas.Keys
/-
Helper lemmas on the container of the tests.
-/
namespace Goost.TestSupport
open Spec Spec.Magma

theorem getChar_hex {c : Char} (h : (hexDigit c).isSome) (s : List Char) : getChar (c :: s) = (some c, s) := by
  rw [getChar, List.dropWhile_cons, (hex_plain h).1]; rfl

theorem natOfBytes_append (a b : List Byte) :
    natOfBytes (a ++ b) = natOfBytes a + 256 ^ a.length * natOfBytes b := by
  induction a with
  | nil => simp [natOfBytes]
  | cons x a ih =>
    rw [List.cons_append, natOfBytes, natOfBytes, ih, List.length_cons, Nat.pow_succ, Nat.mul_add,
      Nat.mul_comm (256 ^ a.length) 256, Nat.mul_assoc]
    omega

theorem hexPair {a b : Char} (ha : (hexDigit a).isSome) (hb : (hexDigit b).isSome) :
    stoull16 [a, b] = .ok (BitVec.ofNat 64 (hexNat [a, b])) :=
  stoull16_eq (by intro c hc; simp only [List.mem_cons, List.not_mem_nil, or_false] at hc
                  rcases hc with rfl | rfl <;> assumption) (by simp) (by simp)

/-- The bytes of a text of digits. -/
theorem keyLoop_hex : ∀ (n : Nat) (s : List Char), IsHex s → s.length = 2 * n →
    ∃ k, HexContainer.keyLoop n s = .ok k ∧ k.length = n ∧ natOfBytes k.reverse = hexNat s
  | 0, s, _, hl => by
    have : s = [] := List.length_eq_zero_iff.mp (by omega)
    subst this
    exact ⟨[], rfl, rfl, rfl⟩
  | n + 1, [], _, hl => by simp at hl
  | n + 1, [_], _, hl => by simp at hl; omega
  | n + 1, a :: b :: s, hh, hl => by
    have ha := hh a (by simp)
    have hb := hh b (by simp)
    obtain ⟨k, e, lk, hk⟩ := keyLoop_hex n s (fun c hc => hh c (by simp [hc])) (by simp at hl; omega)
    have hv : hexNat [a, b] < 256 := by have := hexNat_lt [a, b]; simpa using this
    refine ⟨(BitVec.ofNat 64 (hexNat [a, b])).setWidth 8 :: k, ?_, by simp [lk], ?_⟩
    · rw [HexContainer.keyLoop]
      simp only [getChar_hex ha, getChar_hex hb, hexPair ha hb, Exec.ok_bind, e, Exec.pure_eq]
    · rw [List.reverse_cons, natOfBytes_append, hk, List.length_reverse, lk,
        show a :: b :: s = [a, b] ++ s from rfl, hexNat_append, show s.length = 2 * n by simp at hl; omega,
        Nat.pow_mul, natOfBytes, natOfBytes, BitVec.toNat_setWidth, BitVec.toNat_ofNat,
        Nat.mod_eq_of_lt (show hexNat [a, b] < 2 ^ 64 by omega), Nat.mod_eq_of_lt hv]
      rw [Nat.mul_zero, Nat.add_zero, Nat.mul_comm, Nat.add_comm]

/-- With fewer than `2 n` characters that are not white space a character is not stored. -/
theorem keyLoop_short : ∀ (n : Nat) (s : List Char),
    (∀ c ∈ s, (hexDigit c).isSome ∨ isSpaceC c = true) → (hexDigitsOf s).length < 2 * n →
    HexContainer.keyLoop n s = .ub .uninit
  | 0, _, _, hl => by omega
  | n + 1, s, hh, hl => by
    have get : ∀ s : List Char, (∀ c ∈ s, (hexDigit c).isSome ∨ isSpaceC c = true) →
        (getChar s = (none, []) ∧ hexDigitsOf s = []) ∨
        ∃ c t, getChar s = (some c, t) ∧ (hexDigit c).isSome ∧
          (∀ d ∈ t, (hexDigit d).isSome ∨ isSpaceC d = true) ∧ hexDigitsOf s = c :: hexDigitsOf t := by
      intro s
      induction s with
      | nil => intro _; exact .inl ⟨rfl, rfl⟩
      | cons c s ih =>
        intro h
        have hs : ∀ d ∈ s, (hexDigit d).isSome ∨ isSpaceC d = true := fun d hd => h d (by simp [hd])
        by_cases hc : (hexDigit c).isSome
        · exact .inr ⟨c, s, getChar_hex hc s, hc, hs, by rw [hexDigitsOf_cons, if_pos hc]⟩
        · have sp : isSpaceC c = true := (h c (by simp)).resolve_left hc
          have e : getChar (c :: s) = getChar s := by
            rw [getChar, List.dropWhile_cons, if_pos sp]; rfl
          rw [e, hexDigitsOf_cons, if_neg hc]
          exact ih hs
    rw [HexContainer.keyLoop]
    rcases get s hh with ⟨e, _⟩ | ⟨a, t, e, ha, ht, hd⟩
    · rw [e]
    · rw [e]
      rcases get t ht with ⟨e', _⟩ | ⟨b, u, e', hb, hu, hd'⟩
      · simp only [e']
      · simp only [e', hexPair ha hb, Exec.ok_bind]
        rw [keyLoop_short n u hu (by rw [hd, hd'] at hl; simp at hl; omega), Exec.ub_bind]

theorem packedRows_sbox : packedRows HexContainer.sbox = Spec.Magma.pi := by
  funext i x
  have : ∀ i : Fin 8, ∀ x : Fin 16, packedRows HexContainer.sbox i (BitVec.ofFin x) =
      Spec.Magma.pi i (BitVec.ofFin x) := by decide
  exact this i x.toFin

end Goost.TestSupport
