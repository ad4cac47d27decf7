import Verif.Spec.Locale
import Verif.Spec.Keys
import Verif.Lemmas.Text
/-
Lemmas for C120.
-/
namespace Goost.Locale
open Spec Goost.Magma

theorem accumulated_hex {l : Locale} (h : DigitsOnly l) {s : List Char} (hs : IsHex s) : l.accumulated s = s := by
  induction s with
  | nil => rfl
  | cons c cs ih =>
    obtain ⟨-, h2, h3⟩ := h c (hs c (by simp))
    simp only [accumulated]
    rw [if_neg (by rintro ⟨e, hg⟩; exact hg (h3 e)), if_neg h2, ih fun d hd => hs d (by simp [hd])]

theorem dropWhile_hex {p : Char → Bool} (h : ∀ c, (hexDigit c).isSome → p c = false) {s : List Char} (hs : IsHex s) :
    s.dropWhile p = s := by
  cases s with
  | nil => rfl
  | cons c cs => simp [h c (hs c (by simp))]

theorem classic_digits : DigitsOnly classic := by
  intro c hc
  refine ⟨?_, ?_, fun _ => rfl⟩
  · simp only [classic]
    unfold hexDigit at hc
    split at hc <;> first | decide | cases hc
  · rintro rfl; revert hc; decide

theorem space_classic (c : Char) (hc : (hexDigit c).isSome) : isSpaceC c = false := (classic_digits c hc).1

theorem istream_eq {l : Locale} (h : DigitsOnly l) {s : List Char} (hs : IsHex s) :
    l.istreamHex32 s = Goost.istreamHex32 s := by
  unfold istreamHex32 Goost.istreamHex32
  rw [dropWhile_hex (fun c hc => (h c hc).1) hs, dropWhile_hex space_classic hs]
  split
  · rfl
  · simp only [accumulated_hex h hs]
    rfl

theorem stoull_eq {l : Locale} (h : DigitsNotSpace l) {s : List Char} (hs : IsHex s) :
    l.stoull16 s = Goost.stoull16 s := by
  unfold stoull16 Goost.stoull16
  rw [dropWhile_hex h hs, dropWhile_hex space_classic hs]
  rfl

theorem substr_hex {s t : List Char} {p n : Nat} (hs : IsHex s) (h : substr s p n = .ok t) : IsHex t := by
  simp only [substr] at h
  split at h
  · cases h
    exact fun c hc => hs c (List.mem_of_mem_drop (List.mem_of_mem_take hc))
  · cases h

theorem bind_congr {α β : Type} {x : Exec α} {f g : α → Exec β} (h : ∀ a, x = .ok a → f a = g a) :
    (x >>= f) = (x >>= g) := by
  cases x with
  | ok a => exact h a rfl
  | throw e => rfl
  | ub u => rfl
  | diverge => rfl

theorem keyData_eq {l : Locale} (h : DigitsOnly l) {s : List Char} (hs : IsHex s) :
    l.keyDataString s = KeyDataString s := by
  funext i
  unfold keyDataString KeyDataString
  split
  · rfl
  · split
    · rfl
    · exact bind_congr fun t ht => istream_eq h (substr_hex hs ht)

theorem zeros_hex {s : List Char} (hs : IsHex s) (n : Nat) : IsHex (List.replicate n '0' ++ s) := by
  intro c hc
  rcases List.mem_append.1 hc with hc | hc
  · rw [(List.mem_replicate.1 hc).2]; decide
  · exact hs c hc

theorem magmaBlock_eq {l : Locale} (h : DigitsNotSpace l) (m : Machine) {s : List Char} (hs : IsHex s) :
    l.magmaBlock s = (Magma.Blk.str s).value m := by
  have hz := zeros_hex hs (16 - s.length)
  simp only [magmaBlock, Magma.Blk.value, Magma.padZeros]
  refine bind_congr fun t ht => ?_
  rw [stoull_eq h (substr_hex hz ht)]
  refine bind_congr fun _ _ => bind_congr fun t ht => ?_
  rw [stoull_eq h (substr_hex hz ht)]

theorem kuznyechikBlock_eq {l : Locale} (h : DigitsNotSpace l) (m : Machine) {s : List Char} (hs : IsHex s) :
    l.kuznyechikBlock s = (Kuz.Blk.str s).value m := by
  have hz := zeros_hex hs (32 - s.length)
  simp only [kuznyechikBlock, Kuz.Blk.value, Kuz.padZeros]
  refine bind_congr fun t ht => ?_
  rw [stoull_eq h (substr_hex hz ht)]
  refine bind_congr fun _ _ => bind_congr fun t ht => ?_
  rw [stoull_eq h (substr_hex hz ht)]

/-! ### The "C" locale, every text -/

theorem classic_cons (c : Char) (cs : List Char) :
    classic.accumulated (c :: cs) = if c = '.' then [] else c :: classic.accumulated cs := by
  simp only [accumulated]
  have h1 : classic.grouping = [] := rfl
  have h2 : classic.point = '.' := rfl
  simp [h1, h2]

theorem readDigits_classic (s : List Char) : ∀ n, readDigits n (classic.accumulated s) = readDigits n s := by
  induction s with
  | nil => intro n; rfl
  | cons c cs ih =>
    intro n
    rw [classic_cons]
    split
    · subst c; rfl
    · simp only [readDigits]
      split
      · exact ih _
      · rfl

theorem readNumber_other {c : Char} (hc : c ≠ '0') (t : List Char) :
    readNumber (c :: t) = (hexDigit? c).map fun _ => readDigits 0 (c :: t) := by
  unfold readNumber
  cases h : hexDigit? c with
  | none => simp [h]
  | some d =>
    simp only [h, Option.map_some]
    split
    · rename_i e _; exact absurd rfl hc
    · rfl

theorem readNumber_classic (s : List Char) : readNumber (classic.accumulated s) = readNumber s := by
  match s with
  | [] => rfl
  | c :: t =>
    have hd := readDigits_classic (c :: t) 0
    rw [classic_cons] at hd ⊢
    by_cases hc : c = '.'
    · subst hc; rfl
    · rw [if_neg hc] at hd ⊢
      by_cases h0 : c = '0'
      · subst h0
        match t with
        | [] => rfl
        | [x] =>
          rw [classic_cons] at hd ⊢
          by_cases hx : x = '.'
          · subst hx; exact congrArg some hd
          · rw [if_neg hx]; rfl
        | x :: y :: ys =>
          rw [classic_cons] at hd ⊢
          by_cases hx : x = '.'
          · subst hx
            exact congrArg some hd
          · rw [if_neg hx, classic_cons] at hd ⊢
            by_cases hy : y = '.'
            · subst hy
              have e : readNumber ('0' :: x :: '.' :: ys) = some (readDigits 0 ('0' :: x :: '.' :: ys)) := by
                have : hexDigit? '.' = none := by decide
                simp only [readNumber, this, Option.isSome_none, Bool.and_false]
                rfl
              rw [e]
              exact congrArg some hd
            · have hy' := readDigits_classic (y :: ys) 0
              rw [if_neg hy] at hd ⊢
              rw [classic_cons, if_neg hy] at hy'
              have e : ∀ r, readNumber ('0' :: x :: y :: r) = if (x == 'x' || x == 'X') && (hexDigit? y).isSome then
                  some (readDigits 0 (y :: r)) else some (readDigits 0 ('0' :: x :: y :: r)) := fun _ => rfl
              rw [e, e, hy', hd]
      · rw [readNumber_other h0, readNumber_other h0, hd]

theorem readSigned_classic (s : List Char) : readSigned (classic.accumulated s) = readSigned s := by
  match s with
  | [] => rfl
  | c :: cs =>
    rw [classic_cons]
    by_cases hc : c = '.'
    · subst hc; rfl
    · rw [if_neg hc]
      by_cases h1 : c = '-'
      · subst h1; simp only [readSigned, readNumber_classic]
      · by_cases h2 : c = '+'
        · subst h2; simp only [readSigned, readNumber_classic]
        · have : ∀ t, readSigned (c :: t) = (readNumber (c :: t)).map (false, ·) := by
            intro t
            unfold readSigned
            split
            · rename_i e; exact absurd (List.cons.inj e).1 h1
            · rename_i e; exact absurd (List.cons.inj e).1 h2
            · rfl
          rw [this, this]
          have := readNumber_classic (c :: cs)
          rw [classic_cons, if_neg hc] at this
          rw [this]

theorem istream_classic (s : List Char) : classic.istreamHex32 s = Goost.istreamHex32 s := by
  unfold istreamHex32 Goost.istreamHex32
  have : classic.space = isSpaceC := rfl
  rw [this]
  cases s.dropWhile isSpaceC with
  | nil => rfl
  | cons c cs =>
    simp only [readSigned_classic]
    rfl

/-! ### Locales in which digits are something else -/

/-- The character is skipped, or ends the number. -/
def Bad (l : Locale) (c : Char) : Prop := c = l.point ∨ (c = l.separator ∧ l.grouping ≠ [])

theorem accumulated_bad {l : Locale} {c : Char} (h : l.Bad c) : ∀ n, l.accumulated (List.replicate n c) = [] := by
  intro n
  induction n with
  | zero => rfl
  | succ n ih =>
    rw [List.replicate_succ, accumulated]
    by_cases e : c = l.separator ∧ l.grouping ≠ []
    · rw [if_pos e]; exact ih
    · rw [if_neg e, if_pos (h.resolve_right e)]

theorem accumulated_good {l : Locale} {c : Char} (h : ¬ l.Bad c) (t : List Char) :
    l.accumulated (c :: t) = c :: l.accumulated t := by
  rw [accumulated, if_neg fun e => h (.inr e), if_neg fun e => h (.inl e)]

theorem istream_of {l : Locale} {c : Char} {t u : List Char} (hs : l.space c = false) (ha : l.accumulated (c :: t) = u) :
    l.istreamHex32 (c :: t) = match readSigned u with
      | none => .ok 0
      | some (neg, n) =>
        if n < 2 ^ 32 then .ok (if neg then -(BitVec.ofNat 32 n) else BitVec.ofNat 32 n)
        else .ok (BitVec.allOnes 32) := by
  unfold istreamHex32
  rw [List.dropWhile_cons_of_neg (by simp [hs])]
  simp only [ha]
  rfl

/-! ### Locales that change -/

theorem fill_answers {Ω : Type} {kd : Ω → Int → Exec W32 × Ω} {k : KeyData} (h : ∀ o i, (kd o i).1 = k i) (n : Nat) :
    ∀ (i : Nat) (key : List W32) (o : Ω),
      (KeyCachedData.fill kd n i key o).1 = (KeyCachedData.fill (fun (o : Unit) i => (k i, o)) n i key ()).1 ∧
      (KeyCachedData.fill kd n i key o).2.1 = (KeyCachedData.fill (fun (o : Unit) i => (k i, o)) n i key ()).2.1 := by
  induction n with
  | zero => intro i key o; exact ⟨rfl, rfl⟩
  | succ n ih =>
    intro i key o
    simp only [KeyCachedData.fill]
    have e := h o i
    rcases hk : kd o i with ⟨r, o'⟩
    rw [hk] at e
    simp only at e
    subst e
    cases k i with
    | ok w => exact ih _ _ _
    | throw e => exact ⟨rfl, rfl⟩
    | ub u => exact ⟨rfl, rfl⟩
    | diverge => exact ⟨rfl, rfl⟩

theorem key_answers {Ω : Type} {kd : Ω → Int → Exec W32 × Ω} {k : KeyData} (h : ∀ o i, (kd o i).1 = k i) (i : Int)
    (c : CachedData) (o : Ω) :
    (KeyCachedData.key kd i c o).1 = (KeyCachedData.key (fun (o : Unit) i => (k i, o)) i c ()).1 ∧
    (KeyCachedData.key kd i c o).2.1 = (KeyCachedData.key (fun (o : Unit) i => (k i, o)) i c ()).2.1 := by
  simp only [KeyCachedData.key]
  split
  · exact ⟨rfl, rfl⟩
  · obtain ⟨h1, h2⟩ := fill_answers h c.key.length 0 c.key o
    rcases e1 : KeyCachedData.fill kd c.key.length 0 c.key o with ⟨r, q, o'⟩
    rcases e2 : KeyCachedData.fill (fun (o : Unit) i => (k i, o)) c.key.length 0 c.key () with ⟨r', q', u⟩
    rw [e1, e2] at h1 h2
    simp only at h1 h2
    subst h1; subst h2
    cases r <;> exact ⟨rfl, rfl⟩

theorem history_answers {Ω γ : Type} (idx : γ → Int) {kd : Ω → Int → Exec W32 × Ω} {k : KeyData} (h : ∀ o i, (kd o i).1 = k i)
    (hist : List γ) : ∀ (c : CachedData) (o : Ω),
    (runCalls (fun i s => KeyCachedData.key kd (idx i) s.1 s.2) hist (c, o)).1 =
      (runCalls (fun i s => KeyCachedData.key (fun (o : Unit) j => (k j, o)) (idx i) s.1 s.2) hist (c, ())).1 := by
  induction hist with
  | nil => intro c o; rfl
  | cons i is ih =>
    intro c o
    obtain ⟨h1, h2⟩ := key_answers h (idx i) c o
    rcases e1 : KeyCachedData.key kd (idx i) c o with ⟨r, q, o'⟩
    rcases e2 : KeyCachedData.key (fun (o : Unit) i => (k i, o)) (idx i) c () with ⟨r', q', u⟩
    rw [e1, e2] at h1 h2
    simp only at h1 h2
    subst h1; subst h2
    have := ih q o'
    simp only [runCalls, e1, e2]
    rw [this]

end Goost.Locale
