import Verif.Model.Text
import Verif.Spec.Bytes
/-
Helper lemmas: reading hexadecimal text.
-/
namespace Goost
open Spec

theorem hex_mem {c : Char} (h : (hexDigit c).isSome) :
    c ∈ ['0', '1', '2', '3', '4', '5', '6', '7', '8', '9', 'a', 'b', 'c', 'd', 'e', 'f',
      'A', 'B', 'C', 'D', 'E', 'F'] := by
  unfold hexDigit at h
  split at h <;> first | decide | simp at h

/-- The hexadecimal digits. -/
def hexChars : List Char := ['0', '1', '2', '3', '4', '5', '6', '7', '8', '9',
  'a', 'b', 'c', 'd', 'e', 'f', 'A', 'B', 'C', 'D', 'E', 'F']

theorem hex_all {P : Char → Prop} (hP : ∀ c ∈ hexChars, P c) {c : Char}
    (h : (hexDigit c).isSome) : P c := hP c (hex_mem h)

theorem hexDigit?_eq (c : Char) : hexDigit? c = hexDigit c := by
  have ne : ∀ d : Char, c ≠ d → c.val.toNat ≠ d.val.toNat := by
    intro d h e
    exact h (Char.ext (UInt32.toNat_inj.mp e))
  by_cases h : (hexDigit c).isSome
  · exact hex_all (P := fun c => hexDigit? c = hexDigit c) (by decide) h
  · have hn : hexDigit c = none := by simpa using h
    rw [hn]
    have all : ∀ d ∈ hexChars, c ≠ d := by
      intro d hd e
      have : ∀ d ∈ hexChars, (hexDigit d).isSome := by decide
      exact h (e ▸ this d hd)
    have n0 := ne _ (all '0' (by decide)); have n1 := ne _ (all '1' (by decide))
    have n2 := ne _ (all '2' (by decide)); have n3 := ne _ (all '3' (by decide))
    have n4 := ne _ (all '4' (by decide)); have n5 := ne _ (all '5' (by decide))
    have n6 := ne _ (all '6' (by decide)); have n7 := ne _ (all '7' (by decide))
    have n8 := ne _ (all '8' (by decide)); have n9 := ne _ (all '9' (by decide))
    have na := ne _ (all 'a' (by decide)); have nb := ne _ (all 'b' (by decide))
    have nc := ne _ (all 'c' (by decide)); have nd := ne _ (all 'd' (by decide))
    have ne' := ne _ (all 'e' (by decide)); have nf := ne _ (all 'f' (by decide))
    have nA := ne _ (all 'A' (by decide)); have nB := ne _ (all 'B' (by decide))
    have nC := ne _ (all 'C' (by decide)); have nD := ne _ (all 'D' (by decide))
    have nE := ne _ (all 'E' (by decide)); have nF := ne _ (all 'F' (by decide))
    simp only [Char.reduceVal, UInt32.reduceToNat] at *
    unfold hexDigit?
    simp only [Char.le_def, UInt32.le_iff_toNat_le, Char.reduceVal, UInt32.reduceToNat]
    rw [if_neg (by omega), if_neg (by omega), if_neg (by omega)]

theorem hexDigit_lt {c : Char} : (hexDigit c).getD 0 < 16 := by
  by_cases h : (hexDigit c).isSome
  · exact hex_all (P := fun c => (hexDigit c).getD 0 < 16) (by decide) h
  · have hn : hexDigit c = none := by simpa using h
    simp [hn]

theorem hex_plain {c : Char} (h : (hexDigit c).isSome) :
    isSpaceC c = false ∧ c ≠ '-' ∧ c ≠ '+' ∧ (c == 'x' || c == 'X') = false := by
  exact hex_all (P := fun c => isSpaceC c = false ∧ c ≠ '-' ∧ c ≠ '+' ∧
    (c == 'x' || c == 'X') = false) (by decide) h

theorem readDigits_eq {s : List Char} (h : IsHex s) (acc : Nat) :
    readDigits acc s = s.foldl (fun n c => 16 * n + (hexDigit c).getD 0) acc := by
  induction s generalizing acc with
  | nil => rfl
  | cons c s ih =>
    have hc : (hexDigit c).isSome := h c (by simp)
    obtain ⟨d, hd⟩ := Option.isSome_iff_exists.mp hc
    rw [readDigits, hexDigit?_eq, hd]
    simp only [List.foldl_cons, hd, Option.getD_some]
    rw [ih (fun c hc => h c (by simp [hc])), Nat.mul_comm]

theorem readNumber_eq {s : List Char} (h : IsHex s) (hs : s ≠ []) :
    readNumber s = some (hexNat s) := by
  match s, hs with
  | c :: cs, _ =>
    have hc : (hexDigit c).isSome := h c (by simp)
    obtain ⟨d, hd⟩ := Option.isSome_iff_exists.mp hc
    simp only [readNumber, hexDigit?_eq, hd]
    split
    · rename_i x y ys _
      have hx : (hexDigit x).isSome := h x (by simp)
      rw [(hex_plain hx).2.2.2]
      simp only [Bool.false_and]
      rw [readDigits_eq h]
      rfl
    · rw [readDigits_eq h]
      rfl

theorem readSigned_eq {s : List Char} (h : IsHex s) (hs : s ≠ []) :
    readSigned s = some (false, hexNat s) := by
  match s, hs with
  | c :: cs, _ =>
    have hc := hex_plain (h c (by simp))
    unfold readSigned
    split
    · rename_i e; exact absurd (List.cons.inj e).1 hc.2.1
    · rename_i e; exact absurd (List.cons.inj e).1 hc.2.2.1
    · rw [readNumber_eq h (by simp)]; rfl

theorem dropWhile_eq {s : List Char} (h : IsHex s) : s.dropWhile isSpaceC = s := by
  cases s with
  | nil => rfl
  | cons c s => rw [List.dropWhile_cons, (hex_plain (h c (by simp))).1]; rfl

theorem hexFold_lt (s : List Char) (acc : Nat) :
    s.foldl (fun n c => 16 * n + (hexDigit c).getD 0) acc < (acc + 1) * 16 ^ s.length := by
  induction s generalizing acc with
  | nil => simp
  | cons c s ih =>
    rw [List.foldl_cons]
    refine Nat.lt_of_lt_of_le (ih _) ?_
    rw [List.length_cons, Nat.pow_succ, Nat.mul_comm (16 ^ s.length) 16, ← Nat.mul_assoc]
    refine Nat.mul_le_mul_right _ ?_
    have := @hexDigit_lt c
    omega

theorem hexNat_lt (s : List Char) : hexNat s < 16 ^ s.length := by
  have := hexFold_lt s 0
  simpa [hexNat] using this

theorem hexFold_eq (s : List Char) (acc : Nat) :
    s.foldl (fun n c => 16 * n + (hexDigit c).getD 0) acc = acc * 16 ^ s.length + hexNat s := by
  induction s generalizing acc with
  | nil => simp [hexNat]
  | cons c s ih =>
    have e : hexNat (c :: s) = (16 * 0 + (hexDigit c).getD 0) * 16 ^ s.length + hexNat s := by
      rw [← ih]; rfl
    rw [List.foldl_cons, ih, e]
    rw [List.length_cons, Nat.pow_succ, Nat.mul_comm (16 ^ s.length) 16]
    rw [Nat.add_mul, Nat.mul_zero, Nat.zero_add, Nat.mul_comm 16 acc, Nat.mul_assoc, Nat.add_assoc]

theorem hexNat_append (s u : List Char) :
    hexNat (s ++ u) = hexNat s * 16 ^ u.length + hexNat u := by
  rw [hexNat, List.foldl_append, hexFold_eq]
  rfl

theorem istreamHex32_eq {s : List Char} (h : IsHex s) (hl : s.length = 8) :
    istreamHex32 s = .ok (BitVec.ofNat 32 (hexNat s)) := by
  have hs : s ≠ [] := by intro e; simp [e] at hl
  unfold istreamHex32
  rw [dropWhile_eq h]
  split
  · contradiction
  · rw [readSigned_eq h hs]
    have := hexNat_lt s
    rw [hl] at this
    simp only
    rw [if_pos (by omega)]
    rfl

theorem stoull16_eq {s : List Char} (h : IsHex s) (hs : s ≠ []) (hl : s.length ≤ 16) :
    stoull16 s = .ok (BitVec.ofNat 64 (hexNat s)) := by
  unfold stoull16
  rw [dropWhile_eq h, readSigned_eq h hs]
  have h1 := hexNat_lt s
  have h2 : 16 ^ s.length ≤ 16 ^ 16 := Nat.pow_le_pow_right (by decide) hl
  simp only
  rw [if_pos (by omega)]
  rfl

theorem _root_.Spec.IsHex.take {s : List Char} (h : IsHex s) (n : Nat) : IsHex (s.take n) :=
  fun c hc => h c (List.mem_of_mem_take hc)

theorem _root_.Spec.IsHex.drop {s : List Char} (h : IsHex s) (n : Nat) : IsHex (s.drop n) :=
  fun c hc => h c (List.mem_of_mem_drop hc)

/-- The digits `a … a + n` of a text, as a number. -/
theorem hexNat_slice (s : List Char) (a n : Nat) (h : a + n ≤ s.length) :
    hexNat ((s.drop a).take n) = hexNat s / 16 ^ (s.length - a - n) % 16 ^ n := by
  have e : s = s.take a ++ ((s.drop a).take n ++ (s.drop a).drop n) := by
    rw [List.take_append_drop, List.take_append_drop]
  have l1 : ((s.drop a).take n).length = n := by simp; omega
  have l2 : ((s.drop a).drop n).length = s.length - a - n := by simp; omega
  have h1 := hexNat_append (s.take a) ((s.drop a).take n ++ (s.drop a).drop n)
  have h2 := hexNat_append ((s.drop a).take n) ((s.drop a).drop n)
  rw [← e] at h1
  have b1 := hexNat_lt ((s.drop a).take n)
  have b2 := hexNat_lt ((s.drop a).drop n)
  rw [l1] at b1
  rw [l2] at b2 h2
  rw [h1, h2, List.length_append, l1, l2, Nat.pow_add]
  generalize hexNat (s.take a) = A at *
  generalize hexNat ((s.drop a).take n) = B at *
  generalize hexNat ((s.drop a).drop n) = D at *
  generalize hX : 16 ^ (s.length - a - n) = X at *
  have hX0 : 0 < X := by rw [← hX]; exact Nat.pow_pos (by decide)
  have : A * (16 ^ n * X) + (B * X + D) = D + X * (A * 16 ^ n + B) := by
    rw [Nat.mul_add, Nat.mul_comm X B, Nat.mul_comm X (A * 16 ^ n), Nat.mul_assoc]; omega
  rw [this, Nat.add_mul_div_left _ _ hX0, Nat.div_eq_of_lt b2, Nat.zero_add,
    Nat.mul_comm, Nat.mul_add_mod, Nat.mod_eq_of_lt b1]

/-- Everything after the first character that is not a digit is ignored. -/
theorem readDigits_garbage {p : List Char} (h : IsHex p) {c : Char} (hc : hexDigit c = none)
    (r : List Char) (acc : Nat) : readDigits acc (p ++ c :: r) = readDigits acc p := by
  induction p generalizing acc with
  | nil => simp [readDigits, hexDigit?_eq, hc]
  | cons d p ih =>
    simp only [List.cons_append, readDigits]
    cases hexDigit? d with
    | none => rfl
    | some n => exact ih (fun c hc => h c (by simp [hc])) _

theorem readNumber_garbage {p : List Char} (h : IsHex p) (hp : p ≠ []) {c : Char}
    (hc : hexDigit c = none) (hx : c ≠ 'x' ∧ c ≠ 'X') (r : List Char) :
    readNumber (p ++ c :: r) = some (hexNat p) := by
  match p, hp with
  | a :: p, _ =>
    have ha : (hexDigit a).isSome := h a (by simp)
    obtain ⟨d, hd⟩ := Option.isSome_iff_exists.mp ha
    have e : readDigits 0 (a :: (p ++ c :: r)) = hexNat (a :: p) := by
      rw [← List.cons_append, readDigits_garbage h hc, readDigits_eq h]; rfl
    simp only [List.cons_append, readNumber, hexDigit?_eq, hd]
    split
    · rename_i x y ys heq _
      have hxx : (x == 'x' || x == 'X') = false := by
        cases p with
        | nil =>
          have := (List.cons.inj heq).1
          subst this
          simp [hx.1, hx.2]
        | cons b p =>
          have := (List.cons.inj heq).1
          subst this
          exact (hex_plain (h b (by simp))).2.2.2
      rw [hxx]
      simp only [Bool.false_and]
      exact congrArg some e
    · exact congrArg some e

theorem istreamHex32_garbage {p : List Char} (h : IsHex p) (hp : p ≠ []) (hl : p.length ≤ 8)
    {c : Char} (hc : hexDigit c = none) (hx : c ≠ 'x' ∧ c ≠ 'X') (r : List Char) :
    istreamHex32 (p ++ c :: r) = .ok (BitVec.ofNat 32 (hexNat p)) := by
  match p, hp with
  | a :: p, _ =>
    have ha := hex_plain (h a (by simp))
    have e : (a :: p ++ c :: r).dropWhile isSpaceC = a :: p ++ c :: r := by
      rw [List.cons_append, List.dropWhile_cons, ha.1]; rfl
    have e2 : readSigned (a :: p ++ c :: r) = some (false, hexNat (a :: p)) := by
      rw [← Option.map_some (f := fun x => (false, x)),
        ← readNumber_garbage h (by simp) hc hx r]
      unfold readSigned
      split
      · rename_i e; exact absurd (List.cons.inj e).1 ha.2.1
      · rename_i e; exact absurd (List.cons.inj e).1 ha.2.2.1
      · rfl
    unfold istreamHex32
    rw [e]
    split
    · rename_i e; simp at e
    · rw [e2]
      have h1 := hexNat_lt (a :: p)
      have h2 : 16 ^ (a :: p).length ≤ 16 ^ 8 := Nat.pow_le_pow_right (by decide) hl
      simp only
      rw [if_pos (by omega)]
      rfl

theorem istreamHex32_no_throw (s : List Char) (e : Exn) : istreamHex32 s ≠ .throw e := by
  unfold istreamHex32
  split
  · simp
  · split
    · simp
    · split <;> simp

end Goost
