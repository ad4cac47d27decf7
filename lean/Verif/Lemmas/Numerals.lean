import Verif.Lemmas.Text
import Verif.Spec.Numerals
import Verif.Model.MagmaKey
import Verif.Model.MagmaBlock
import Verif.Model.Kuznyechik
/-
What the text to number conversions do with every text.
-/
namespace Goost
open Spec

theorem isSpaceC_iff (c : Char) : isSpaceC c = true ↔ IsBlank c := by
  simp [isSpaceC, IsBlank, or_assoc]

theorem readDigits_split {ds : List Char} (h : IsHex ds) {rest : List Char}
    (hr : ∀ c ∈ rest.head?, hexDigit c = none) : readDigits 0 (ds ++ rest) = hexNat ds := by
  cases rest with
  | nil => rw [List.append_nil, readDigits_eq h]; rfl
  | cons c r =>
    rw [readDigits_garbage h (hr c (by simp)), readDigits_eq h]; rfl

/-- Every text that begins with a digit is digits and a rest that does not begin with one. -/
theorem digits_split (t : List Char) : ∃ ds rest, t = ds ++ rest ∧ IsHex ds ∧
    (∀ c ∈ rest.head?, hexDigit c = none) ∧ (∀ c ∈ t.head?, (hexDigit c).isSome → ds ≠ []) := by
  induction t with
  | nil => exact ⟨[], [], rfl, by simp [IsHex], by simp, by simp⟩
  | cons c t ih =>
    by_cases hc : (hexDigit c).isSome
    · obtain ⟨ds, rest, rfl, h1, h2, -⟩ := ih
      refine ⟨c :: ds, rest, rfl, ?_, h2, by simp⟩
      intro d hd
      rcases List.mem_cons.1 hd with rfl | hd
      · exact hc
      · exact h1 d hd
    · refine ⟨[], c :: t, rfl, by simp [IsHex], ?_, ?_⟩
      · intro d hd
        simp only [List.head?_cons, Option.mem_def, Option.some.injEq] at hd
        subst hd
        simpa using hc
      · intro d hd hs
        simp only [List.head?_cons, Option.mem_def, Option.some.injEq] at hd
        subst hd
        exact absurd hs hc

/-- The part of `Reads` after the sign. -/
def NumberAt (t ds : List Char) : Prop :=
  ∃ pre rest, t = pre ++ (ds ++ rest) ∧ ds ≠ [] ∧ IsHex ds ∧
    (∀ c ∈ rest.head?, hexDigit c = none) ∧
    (pre = ['0', 'x'] ∨ pre = ['0', 'X'] ∨
      pre = [] ∧ ¬ ∃ x y r, ds ++ rest = '0' :: x :: y :: r ∧ (x = 'x' ∨ x = 'X') ∧
        (hexDigit y).isSome)

theorem NumberAt.head {t ds : List Char} (h : NumberAt t ds) :
    ∃ c r, t = c :: r ∧ (hexDigit c).isSome := by
  obtain ⟨pre, rest, rfl, h0, hh, -, hp⟩ := h
  rcases hp with rfl | rfl | ⟨rfl, -⟩
  · exact ⟨'0', _, rfl, rfl⟩
  · exact ⟨'0', _, rfl, rfl⟩
  · cases ds with
    | nil => exact absurd rfl h0
    | cons c ds => exact ⟨c, _, rfl, hh c (by simp)⟩

theorem readNumber_of {t ds : List Char} (h : NumberAt t ds) : readNumber t = some (hexNat ds) := by
  obtain ⟨pre, rest, rfl, h0, hh, hr, hp⟩ := h
  have e := readDigits_split hh hr
  have hne : ∃ y ys, ds = y :: ys := by
    cases ds with
    | nil => exact absurd rfl h0
    | cons y ys => exact ⟨y, ys, rfl⟩
  obtain ⟨y, ys, rfl⟩ := hne
  have hy : (hexDigit y).isSome := hh y (by simp)
  rcases hp with rfl | rfl | ⟨rfl, hn⟩
  · simp only [List.cons_append, List.nil_append, readNumber, hexDigit?_eq, hy] at e ⊢
    simp [e, hexDigit]
  · simp only [List.cons_append, List.nil_append, readNumber, hexDigit?_eq, hy] at e ⊢
    simp [e, hexDigit]
  · obtain ⟨d, hd⟩ := Option.isSome_iff_exists.1 hy
    simp only [List.cons_append, List.nil_append] at e hn ⊢
    simp only [readNumber, hexDigit?_eq, hd]
    split
    · rename_i x z zs heq
      rw [if_neg, e]
      intro hc
      simp only [Bool.and_eq_true, Bool.or_eq_true, beq_iff_eq] at hc
      exact hn ⟨x, z, zs, by rw [heq], hc.1, hc.2⟩
    · rw [e]

theorem readNumber_some {t : List Char} {n : Nat} (h : readNumber t = some n) :
    ∃ ds, NumberAt t ds := by
  cases t with
  | nil => simp [readNumber] at h
  | cons c cs =>
    have hc : (hexDigit c).isSome := by
      cases hc : hexDigit c with
      | none => simp [readNumber, hexDigit?_eq, hc] at h
      | some d => rfl
    by_cases hp : ∃ x y r, c :: cs = '0' :: x :: y :: r ∧ (x = 'x' ∨ x = 'X') ∧ (hexDigit y).isSome
    · obtain ⟨x, y, r, e, hx, hy⟩ := hp
      rw [e]
      obtain ⟨ds, rest, e', h1, h2, h3⟩ := digits_split (y :: r)
      refine ⟨ds, ['0', x], rest, by rw [← e']; rfl, h3 y (by simp) hy, h1, h2, ?_⟩
      rcases hx with rfl | rfl
      · exact Or.inl rfl
      · exact Or.inr (Or.inl rfl)
    · obtain ⟨ds, rest, e', h1, h2, h3⟩ := digits_split (c :: cs)
      rw [e'] at hp ⊢
      rw [e'] at h3
      refine ⟨ds, [], rest, rfl, h3 c (by rw [← e']; simp) hc, h1, h2, Or.inr (Or.inr ⟨rfl, hp⟩)⟩

theorem readSigned_of {sg t ds : List Char} {neg : Bool} (hs : Sign sg neg) (h : NumberAt t ds) :
    readSigned (sg ++ t) = some (neg, hexNat ds) := by
  have e := readNumber_of h
  cases hs with
  | none =>
    obtain ⟨c, r, rfl, hc⟩ := h.head
    have hp := hex_plain hc
    rw [List.nil_append]
    unfold readSigned
    split
    · rename_i e; exact absurd (List.cons.inj e).1 hp.2.1
    · rename_i e; exact absurd (List.cons.inj e).1 hp.2.2.1
    · rw [e]; rfl
  | plus => show (readNumber t).map (false, ·) = _; rw [e]; rfl
  | minus => show (readNumber t).map (true, ·) = _; rw [e]; rfl

theorem readSigned_some {t : List Char} {neg : Bool} {n : Nat} (h : readSigned t = some (neg, n)) :
    ∃ sg t' ds, t = sg ++ t' ∧ Sign sg neg ∧ NumberAt t' ds := by
  unfold readSigned at h
  split at h
  · rename_i cs
    obtain ⟨k, hk, e⟩ := Option.map_eq_some_iff.1 h
    cases e
    obtain ⟨ds, hd⟩ := readNumber_some hk
    exact ⟨['-'], cs, ds, rfl, .minus, hd⟩
  · rename_i cs
    obtain ⟨k, hk, e⟩ := Option.map_eq_some_iff.1 h
    cases e
    obtain ⟨ds, hd⟩ := readNumber_some hk
    exact ⟨['+'], cs, ds, rfl, .plus, hd⟩
  · obtain ⟨k, hk, e⟩ := Option.map_eq_some_iff.1 h
    cases e
    obtain ⟨ds, hd⟩ := readNumber_some hk
    exact ⟨[], _, ds, rfl, .none, hd⟩

theorem dropWhile_blank {sp t : List Char} (h : ∀ c ∈ sp, IsBlank c)
    (ht : ∀ c ∈ t.head?, ¬ IsBlank c) : (sp ++ t).dropWhile isSpaceC = t := by
  induction sp with
  | nil =>
    cases t with
    | nil => rfl
    | cons c t =>
      have : isSpaceC c = false := by
        rw [← Bool.not_eq_true, isSpaceC_iff]; exact ht c (by simp)
      rw [List.nil_append, List.dropWhile_cons, this]; rfl
  | cons c sp ih =>
    rw [List.cons_append, List.dropWhile_cons, (isSpaceC_iff c).2 (h c (by simp)), if_pos rfl]
    exact ih fun d hd => h d (by simp [hd])

theorem readSigned_reads {s ds : List Char} {neg : Bool} (h : Reads s neg ds) :
    readSigned (s.dropWhile isSpaceC) = some (neg, hexNat ds) := by
  obtain ⟨sp, sg, pre, rest, rfl, hb, hsg, h1, h2, h3, h4⟩ := h
  have hn : NumberAt (pre ++ (ds ++ rest)) ds := ⟨pre, rest, rfl, h1, h2, h3, h4⟩
  rw [dropWhile_blank hb, readSigned_of hsg hn]
  intro c hc
  cases hsg with
  | none =>
    obtain ⟨d, r, e, hd⟩ := hn.head
    rw [List.nil_append, e] at hc
    simp only [List.head?_cons, Option.mem_def, Option.some.injEq] at hc
    subst hc
    rw [← isSpaceC_iff, (hex_plain hd).1]
    simp
  | plus =>
    simp only [List.cons_append, List.head?_cons, Option.mem_def, Option.some.injEq] at hc
    subst hc
    simp [IsBlank]
  | minus =>
    simp only [List.cons_append, List.head?_cons, Option.mem_def, Option.some.injEq] at hc
    subst hc
    simp [IsBlank]

theorem reads_of_readSigned {s : List Char} {neg : Bool} {n : Nat}
    (h : readSigned (s.dropWhile isSpaceC) = some (neg, n)) : ∃ ds, Reads s neg ds := by
  obtain ⟨sg, t, ds, e, hs, pre, rest, rfl, h1, h2, h3, h4⟩ := readSigned_some h
  refine ⟨ds, s.takeWhile isSpaceC, sg, pre, rest, ?_, ?_, hs, h1, h2, h3, h4⟩
  · rw [← e, List.takeWhile_append_dropWhile]
  · intro c hc
    rw [← isSpaceC_iff]
    exact List.all_eq_true.1 List.all_takeWhile c hc

theorem reads_none {s : List Char} (h : ¬ ∃ neg ds, Reads s neg ds) :
    readSigned (s.dropWhile isSpaceC) = none := by
  cases e : readSigned (s.dropWhile isSpaceC) with
  | none => rfl
  | some p =>
    obtain ⟨neg, n⟩ := p
    obtain ⟨ds, hd⟩ := reads_of_readSigned e
    exact absurd ⟨neg, ds, hd⟩ h

theorem _root_.Spec.Reads.length {s ds : List Char} {neg : Bool} (h : Reads s neg ds) : ds.length ≤ s.length := by
  obtain ⟨sp, sg, pre, rest, rfl, -⟩ := h
  simp only [List.length_append]
  omega

/-- The sign and the number are determined by the text. -/
theorem _root_.Spec.Reads.unique {s ds ds' : List Char} {neg neg' : Bool} (h : Reads s neg ds)
    (h' : Reads s neg' ds') : neg = neg' ∧ hexNat ds = hexNat ds' := by
  have := (readSigned_reads h).symm.trans (readSigned_reads h')
  simpa using this

theorem _root_.Spec.Reads.lt {s ds : List Char} {neg : Bool} (h : Reads s neg ds) {n : Nat} (hl : s.length ≤ n) :
    hexNat ds < 16 ^ n :=
  Nat.lt_of_lt_of_le (hexNat_lt ds) (Nat.pow_le_pow_right (by decide) (by have := h.length; omega))

theorem stoull16_reads {s ds : List Char} {neg : Bool} (h : Reads s neg ds) (hl : s.length ≤ 16) :
    stoull16 s = .ok (signedNumber 64 neg ds) := by
  have := h.lt hl
  unfold stoull16
  rw [readSigned_reads h]
  simp only
  rw [if_pos (by omega), signedNumber]

theorem stoull16_none {s : List Char} (h : ¬ ∃ neg ds, Reads s neg ds) :
    stoull16 s = .throw .invalidArgument := by
  unfold stoull16
  rw [reads_none h]

theorem dropWhile_all {s : List Char} (h : ∀ c ∈ s, IsBlank c) : s.dropWhile isSpaceC = [] := by
  have := dropWhile_blank (sp := s) (t := []) h (by simp)
  rwa [List.append_nil] at this

theorem dropWhile_some {s : List Char} (h : ∃ c ∈ s, ¬ IsBlank c) : s.dropWhile isSpaceC ≠ [] := by
  intro e
  obtain ⟨c, hc, hb⟩ := h
  have h := List.takeWhile_append_dropWhile (p := isSpaceC) (l := s)
  rw [e, List.append_nil] at h
  rw [← h] at hc
  exact hb ((isSpaceC_iff c).1 (List.all_eq_true.1 List.all_takeWhile c hc))

theorem istreamHex32_blank {s : List Char} (h : ∀ c ∈ s, IsBlank c) :
    istreamHex32 s = .ub .uninit := by
  unfold istreamHex32
  rw [dropWhile_all h]

theorem istreamHex32_none {s : List Char} (hb : ∃ c ∈ s, ¬ IsBlank c)
    (h : ¬ ∃ neg ds, Reads s neg ds) : istreamHex32 s = .ok 0 := by
  unfold istreamHex32
  split
  · rename_i e; exact absurd e (dropWhile_some hb)
  · rw [reads_none h]

theorem istreamHex32_reads {s ds : List Char} {neg : Bool} (h : Reads s neg ds) (hl : s.length ≤ 8) :
    istreamHex32 s = .ok (signedNumber 32 neg ds) := by
  have := h.lt hl
  have hr := readSigned_reads h
  unfold istreamHex32
  split
  · rename_i e; rw [e] at hr; simp [readSigned, readNumber] at hr
  · rw [hr]
    simp only
    rw [if_pos (by omega), signedNumber]

theorem magma_field {s : List Char} (hl : s.length = 64) (i : Fin 8) :
    Magma.KeyDataString s (i.val : Int) = istreamHex32 (field 8 s i.val) := by
  have h0 : ¬ ((i.val : Int) < 0 ∨ (i.val : Int) > 7) := by omega
  simp only [Magma.KeyDataString, hl, ne_eq, not_true_eq_false, if_false, h0, Int.toNat_natCast, substr]
  rw [if_pos (by omega), Exec.ok_bind, field, Nat.mul_comm]

theorem magma_str_value (m : Machine) (s : List Char) :
    (Magma.Blk.str s).value m = (do
      let first ← stoull16 (field 8 (zeroFilled 16 s) 1)
      let second ← stoull16 (field 8 (zeroFilled 16 s) 0)
      return (first.setWidth 32, second.setWidth 32)) := by
  have hl : 16 ≤ (Magma.padZeros 16 s).length := by simp [Magma.padZeros]; omega
  simp only [Magma.Blk.value, substr, if_pos (show 8 ≤ (Magma.padZeros 16 s).length by omega),
    Nat.zero_le, if_true, Exec.ok_bind]
  rfl

theorem kuz_str_value (m : Machine) (s : List Char) :
    (Kuz.Blk.str s).value m = (do
      let first ← stoull16 (field 16 (zeroFilled 32 s) 1)
      let second ← stoull16 (field 16 (zeroFilled 32 s) 0)
      return (first, second)) := by
  have hl : 32 ≤ (Kuz.padZeros 32 s).length := by simp [Kuz.padZeros]; omega
  simp only [Kuz.Blk.value, substr, if_pos (show 16 ≤ (Kuz.padZeros 32 s).length by omega),
    Nat.zero_le, if_true, Exec.ok_bind]
  rfl

end Goost
