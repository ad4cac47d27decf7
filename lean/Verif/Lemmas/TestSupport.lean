import Verif.Model.TestSupport
import Verif.Spec.TestSupport
import Verif.Spec.Streams
import Verif.Lemmas.Text
import Verif.Lemmas.Blocks
import Verif.Lemmas.Streams
/-
Helper lemmas on the sources, sinks and comparisons of the tests.
-/
namespace Goost.TestSupport
open Spec

variable {W σ τ : Type}

theorem isxdigit_eq (c : Char) : isxdigit c = (hexDigit c).isSome := by
  rw [isxdigit, hexDigit?_eq]

theorem filter_isxdigit (s : List Char) : s.filter isxdigit = hexDigitsOf s := by
  rw [hexDigitsOf]; congr 1; funext c; exact isxdigit_eq c

theorem hexDigitsOf_isHex (s : List Char) : IsHex (hexDigitsOf s) := by
  intro c hc
  rw [hexDigitsOf, List.mem_filter] at hc
  exact hc.2

/-! ### Words -/

theorem wordsOf_short {l : List Char} (h : l.length < 16) : wordsOf l = [] := by
  rw [wordsOf, Nat.div_eq_of_lt h]; rfl

theorem wordsOf_append {g : List Char} (h : g.length = 16) (l : List Char) :
    wordsOf (g ++ l) = BitVec.ofNat 64 (hexNat g) :: wordsOf l := by
  have e : (g ++ l).length / 16 = l.length / 16 + 1 := by rw [List.length_append, h]; omega
  rw [wordsOf, e, List.range_succ_eq_map, List.map_cons, List.map_map]
  congr 1
  · rw [Nat.mul_zero, List.drop_zero, ← h, List.take_left']
    rfl
  · rw [wordsOf]
    apply List.map_congr_left
    intro i _
    simp only [Function.comp]
    have : (g ++ l).drop (16 * (i + 1)) = l.drop (16 * i) := by
      rw [List.drop_append, h, List.drop_eq_nil_of_le (by omega)]
      rw [List.nil_append]; congr 1
    rw [Nat.succ_eq_add_one, this]

theorem pushWord_eq {hex : List Char} (hh : IsHex hex) (hl : hex.length = 16) (res : List Byte) :
    Hex64Source.pushWord hex 8 res = .ok (res ++ bytesOf64 (BitVec.ofNat 64 (hexNat hex))) := by
  have hN : hexNat hex < 2 ^ 64 := by have := hexNat_lt hex; rw [hl] at this; exact this
  have step : ∀ i res, i < 8 → Hex64Source.pushWord hex (i + 1) res =
      Hex64Source.pushWord hex i (res ++ [BitVec.ofNat 8 (hexNat hex / 256 ^ (7 - i))]) := by
    intro i res hi
    rw [Hex64Source.pushWord]
    have e : ((hex.drop (i * 2)).take 2) = [hex[i * 2]'(by omega), hex[i * 2 + 1]'(by omega)] := by
      rw [List.drop_eq_getElem_cons (by omega), List.drop_eq_getElem_cons (by omega)]; rfl
    simp only [vget, List.getElem?_eq_getElem (show i * 2 < hex.length by omega),
      List.getElem?_eq_getElem (show i * 2 + 1 < hex.length by omega), Exec.ok_bind]
    rw [← e, stoull16_eq ((hh.drop _).take _) (by rw [e]; simp) (by rw [e]; simp), Exec.ok_bind,
      hexNat_slice _ _ _ (by omega), hl]
    congr 3
    apply BitVec.eq_of_toNat_eq
    rw [BitVec.toNat_setWidth, BitVec.toNat_ofNat, BitVec.toNat_ofNat,
      show 16 - i * 2 - 2 = 2 * (7 - i) by omega, Nat.pow_mul]
    have := Nat.mod_lt (hexNat hex / (16 ^ 2) ^ (7 - i)) (show 0 < 16 ^ 2 by decide)
    rw [Nat.mod_eq_of_lt (show _ < 2 ^ 64 by omega), Nat.mod_mod]
  rw [step 7 _ (by decide), step 6 _ (by decide), step 5 _ (by decide), step 4 _ (by decide),
    step 3 _ (by decide), step 2 _ (by decide), step 1 _ (by decide), step 0 _ (by decide),
    Hex64Source.pushWord]
  simp only [List.append_assoc, bytesOf64, BitVec.toNat_ofNat, Nat.mod_eq_of_lt hN]
  rfl

theorem hexDigitsOf_cons (c : Char) (cs : List Char) :
    hexDigitsOf (c :: cs) = if (hexDigit c).isSome then c :: hexDigitsOf cs else hexDigitsOf cs := by
  simp only [hexDigitsOf, List.filter_cons]

theorem hexLoop_eq (size : Nat) : ∀ (cs : List Char) (res : List Byte) (hex : List Char), IsHex hex →
    hex.length < 16 → (hex ≠ [] → res.length < size) →
    ∃ rest, Hex64Source.loop size res hex cs =
        .ok (res ++ unblocks64 ((wordsOf (hex ++ hexDigitsOf cs)).take ((size - res.length + 7) / 8)),
          rest) ∧
      hexWords rest = (wordsOf (hex ++ hexDigitsOf cs)).drop ((size - res.length + 7) / 8)
  | [], res, hex, _, hl, _ => by
    refine ⟨[], ?_, ?_⟩
    · rw [Hex64Source.loop, show hexDigitsOf [] = [] from rfl, List.append_nil, wordsOf_short hl]
      simp
    · rw [show hexDigitsOf [] = [] from rfl, List.append_nil, wordsOf_short hl]
      simp [hexWords, hexDigitsOf, wordsOf]
  | c :: cs, res, hex, hh, hl, hr => by
    rw [Hex64Source.loop]
    by_cases h : res.length < size
    · rw [if_pos h, isxdigit_eq, hexDigitsOf_cons]
      by_cases hc : (hexDigit c).isSome
      · rw [if_pos hc, if_pos hc]
        have hh' : IsHex (hex ++ [c]) := by
          intro d hd
          rw [List.mem_append, List.mem_singleton] at hd
          rcases hd with hd | hd
          · exact hh d hd
          · rw [hd]; exact hc
        have app : hex ++ c :: hexDigitsOf cs = (hex ++ [c]) ++ hexDigitsOf cs := by simp
        rw [app]
        simp only
        by_cases h16 : (hex ++ [c]).length = 16
        · rw [if_pos h16, pushWord_eq hh' h16, Exec.ok_bind]
          obtain ⟨rest, e1, e2⟩ := hexLoop_eq size cs
            (res ++ bytesOf64 (BitVec.ofNat 64 (hexNat (hex ++ [c])))) [] (by intro c hc; cases hc) (by decide)
            (by simp)
          have k : (size - res.length + 7) / 8 =
              (size - (res ++ bytesOf64 (BitVec.ofNat 64 (hexNat (hex ++ [c])))).length + 7) / 8 + 1 := by
            have : (bytesOf64 (BitVec.ofNat 64 (hexNat (hex ++ [c])))).length = 8 := by simp [bytesOf64]
            rw [List.length_append, this]; omega
          refine ⟨rest, ?_, ?_⟩
          · rw [e1, k, wordsOf_append h16, List.take_succ_cons, unblocks64_cons, List.nil_append,
              List.append_assoc]
          · rw [e2, k, wordsOf_append h16, List.drop_succ_cons, List.nil_append]
        · rw [if_neg h16]
          exact hexLoop_eq size cs res _ hh' (by rw [List.length_append, List.length_singleton] at *; omega)
            (fun _ => h)
      · rw [if_neg hc, if_neg hc]
        exact hexLoop_eq size cs res hex hh hl hr
    · have hx : hex = [] := by
        by_cases e : hex = []
        · exact e
        · exact absurd (hr e) h
      refine ⟨c :: cs, ?_, ?_⟩
      · rw [if_neg h, show (size - res.length + 7) / 8 = 0 by omega]; simp
      · rw [show (size - res.length + 7) / 8 = 0 by omega, hx]; simp [hexWords]

/-- What a read of a `Hex64Source` gives. -/
theorem Hex64Source_read_eq (text : List Char) (n : Nat) (w : W) :
    ∃ rest, Hex64Source.read text n w =
        (.ok (unblocks64 ((hexWords text).take ((n + 7) / 8)), rest), w) ∧
      hexWords rest = (hexWords text).drop ((n + 7) / 8) := by
  obtain ⟨rest, e1, e2⟩ := hexLoop_eq n text [] [] (by intro c hc; cases hc) (by decide) (by simp)
  refine ⟨rest, ?_, ?_⟩
  · simpa [Hex64Source.read, Io.lift, hexWords] using congrArg (fun x => (x, w)) e1
  · simpa [hexWords] using e2

/-! ### Text of numbers -/

theorem digitChar_eq (d : Nat) (h : d < 16) : Nat.digitChar d = hexChar d := by
  have : ∀ d : Fin 16, Nat.digitChar d.val = hexChar d.val := by decide
  exact this ⟨d, h⟩

theorem putPadded_eq : ∀ (w n : Nat), n < 16 ^ (w + 1) → putPadded (w + 1) n = hexText (w + 1) n
  | 0, n, h => by
    rw [putPadded, Nat.toDigits_of_lt_base (by omega)]
    simp [hexText, digitChar_eq n (by omega), Nat.mod_eq_of_lt (show n < 16 by omega)]
  | w + 1, n, h => by
    have hm : n % 16 < 16 := Nat.mod_lt _ (by decide)
    by_cases hn : n < 16
    · have ih := putPadded_eq w 0 (Nat.pow_pos (by decide))
      rw [hexText, Nat.div_eq_of_lt hn, ← ih, putPadded, putPadded, Nat.toDigits_of_lt_base hn,
        Nat.toDigits_zero, Nat.mod_eq_of_lt hn, digitChar_eq n hn]
      simp [← List.replicate_succ']
    · have hd : n / 16 < 16 ^ (w + 1) := by
        rw [Nat.pow_succ] at h
        exact Nat.div_lt_of_lt_mul (by rw [Nat.mul_comm]; exact h)
      have ih := putPadded_eq w (n / 16) hd
      have := Nat.toDigits_append_toDigits (b := 16) (n := n / 16) (d := n % 16) (by decide)
        (Nat.div_pos (by omega) (by decide)) hm
      rw [Nat.div_add_mod, Nat.toDigits_of_lt_base hm, digitChar_eq _ hm] at this
      rw [hexText, ← ih, putPadded, putPadded, ← this]
      simp

theorem hexText_cat : ∀ (k a b : Nat), b < 16 ^ k → ∀ j, hexText j a ++ hexText k b = hexText (j + k) (a * 16 ^ k + b) := by
  intro k
  induction k with
  | zero => intro a b hb j; simp at hb; subst hb; simp [hexText]
  | succ k ih =>
    intro a b hb j
    have hb' : b / 16 < 16 ^ k := Nat.div_lt_of_lt_mul (by rw [Nat.pow_succ, Nat.mul_comm] at hb; exact hb)
    have e1 : (a * 16 ^ (k + 1) + b) / 16 = a * 16 ^ k + b / 16 := by
      rw [Nat.pow_succ, ← Nat.mul_assoc, Nat.add_comm, Nat.add_mul_div_right _ _ (by decide), Nat.add_comm]
    have e2 : (a * 16 ^ (k + 1) + b) % 16 = b % 16 := by
      rw [Nat.pow_succ, ← Nat.mul_assoc, Nat.add_comm, Nat.add_mul_mod_self_right]
    rw [hexText, ← List.append_assoc, ih a (b / 16) hb' j, ← Nat.add_assoc, hexText, e1, e2]

theorem putHex_eq (b : Byte) : putHex b = hexText 2 b.toNat := putPadded_eq 1 _ b.isLt

theorem flatMap_putHex (d : List Byte) : d.flatMap putHex = bytesText d := by
  rw [bytesText]; congr 1; funext b; exact putHex_eq b

theorem bytesText_append (a b : List Byte) : bytesText (a ++ b) = bytesText a ++ bytesText b := by
  simp [bytesText]

theorem bytesText_cons (b : Byte) (d : List Byte) : bytesText (b :: d) = hexText 2 b.toNat ++ bytesText d := by
  simp [bytesText]

theorem bytesText_length (d : List Byte) : (bytesText d).length = 2 * d.length := by
  induction d with
  | nil => rfl
  | cons b d ih => rw [bytesText_cons, List.length_append, hexText_length, ih, List.length_cons]; omega

theorem putPadded_htonl (x : W32) : putPadded 8 (htonl x).toNat = bytesText (bytes32 x) := by
  rw [putPadded_eq 7 _ (htonl x).isLt]
  have e : bytesText (bytes32 x) = hexText 2 (x.extractLsb' 0 8).toNat ++
      hexText 2 (x.extractLsb' 8 8).toNat ++ hexText 2 (x.extractLsb' 16 8).toNat ++
      hexText 2 (x.extractLsb' 24 8).toNat := by
    simp [bytes32, bytesText]
  have ap : ∀ {n : Nat} (a : BitVec n) (b : Byte), (a ++ b).toNat = a.toNat * 16 ^ 2 + b.toNat := by
    intro n a b
    rw [BitVec.toNat_append, ← Nat.shiftLeft_add_eq_or_of_lt b.isLt, Nat.shiftLeft_eq]
  rw [e, hexText_cat 2 _ _ (BitVec.isLt _) 2, hexText_cat 2 _ _ (BitVec.isLt _) (2 + 2),
    hexText_cat 2 _ _ (BitVec.isLt _) (2 + 2 + 2), ← ap, ← ap, ← ap]
  rfl

theorem flatMap_bytes32_inj : ∀ {ws ws' : List W32}, ws.flatMap bytes32 = ws'.flatMap bytes32 → ws = ws'
  | [], [], _ => rfl
  | [], x :: ws', h => by simp [bytes32] at h
  | x :: ws, [], h => by simp [bytes32] at h
  | x :: ws, y :: ws', h => by
    rw [List.flatMap_cons, List.flatMap_cons] at h
    obtain ⟨h1, h2⟩ := List.append_inj h rfl
    rw [flatMap_bytes32_inj h2]
    congr 1
    simp only [bytes32, List.cons.injEq, and_true] at h1
    obtain ⟨a, b, c, d⟩ := h1
    apply BitVec.eq_of_getLsbD_eq
    intro n hn
    have pick : ∀ k, x.extractLsb' (8 * k) 8 = y.extractLsb' (8 * k) 8 → n / 8 = k →
        x.getLsbD n = y.getLsbD n := by
      intro k e hk
      have := congrArg (fun z : BitVec 8 => z.getLsbD (n % 8)) e
      simp only [BitVec.getLsbD_extractLsb'] at this
      rwa [show 8 * k + n % 8 = n by omega, show decide (n % 8 < 8) = true by simp; omega,
        Bool.true_and, Bool.true_and] at this
    rcases (show n / 8 = 0 ∨ n / 8 = 1 ∨ n / 8 = 2 ∨ n / 8 = 3 by omega) with e | e | e | e
    · exact pick 0 a e
    · exact pick 1 b e
    · exact pick 2 c e
    · exact pick 3 d e

/-! ### Comparison -/

theorem equalUpper_eq : ∀ (t o : List Char), equalUpper t o =
    if upper t <+: upper o then .ok true
    else if upper o <+: upper t then .ub .oobRead
    else .ok false
  | [], o => by simp [equalUpper, upper]
  | a :: t, [] => by simp [equalUpper, upper]
  | a :: t, b :: o => by
    rw [equalUpper]
    simp only [upper, List.map_cons, List.cons_prefix_cons]
    by_cases h : a.toUpper = b.toUpper
    · rw [if_pos h, equalUpper_eq t o]
      by_cases h1 : List.map Char.toUpper t <+: List.map Char.toUpper o
      · simp only [upper, h, h1, and_self, if_true]
      · by_cases h2 : List.map Char.toUpper o <+: List.map Char.toUpper t
        · simp only [upper, h, h1, h2, and_self, and_false, if_true, if_false]
        · simp only [upper, h, h1, h2, and_false, if_false]
    · rw [if_neg h]
      simp [h, Ne.symm h]

theorem upper_hex {c : Char} (h : (hexDigit c).isSome) : hexDigit c.toUpper = hexDigit c :=
  hex_all (P := fun c => hexDigit c.toUpper = hexDigit c) (by decide) h

theorem hexNat_upper {s : List Char} (h : IsHex s) : hexNat (upper s) = hexNat s := by
  have : ∀ (s : List Char) (acc : Nat), IsHex s →
      (upper s).foldl (fun n c => 16 * n + (hexDigit c).getD 0) acc =
        s.foldl (fun n c => 16 * n + (hexDigit c).getD 0) acc := by
    intro s
    induction s with
    | nil => intros; rfl
    | cons c s ih =>
      intro acc h
      rw [upper, List.map_cons, List.foldl_cons, List.foldl_cons, upper_hex (h c (by simp))]
      exact ih _ fun c hc => h c (by simp [hc])
  exact this s 0 h

theorem upper_byte_inj {a b : Byte} (h : upper (hexText 2 a.toNat) = upper (hexText 2 b.toNat)) : a = b := by
  have := congrArg hexNat h
  rw [hexNat_upper (hexText_isHex _ _), hexNat_upper (hexText_isHex _ _), hexNat_hexText, hexNat_hexText,
    Nat.mod_eq_of_lt (show a.toNat < 16 ^ 2 from a.isLt),
    Nat.mod_eq_of_lt (show b.toNat < 16 ^ 2 from b.isLt)] at this
  exact BitVec.eq_of_toNat_eq this

theorem upper_bytesText_prefix : ∀ (a b : List Byte),
    upper (bytesText a) <+: upper (bytesText b) ↔ a <+: b
  | [], b => by simp [bytesText, upper]
  | x :: a, [] => by
    constructor
    · intro h
      have := h.length_le
      simp [upper, bytesText_length] at this
    · intro h; simp at h
  | x :: a, y :: b => by
    have l : ∀ z : Byte, (upper (hexText 2 z.toNat)).length = 2 := fun z => by
      rw [upper, List.length_map, hexText_length]
    rw [List.cons_prefix_cons, ← upper_bytesText_prefix a b, bytesText_cons, bytesText_cons]
    simp only [upper, List.map_append]
    have l := l
    simp only [upper] at l
    constructor
    · rintro ⟨r, hr⟩
      rw [List.append_assoc] at hr
      obtain ⟨e1, e2⟩ := List.append_inj hr (by rw [l, l])
      exact ⟨upper_byte_inj e1, ⟨r, e2⟩⟩
    · rintro ⟨rfl, r, hr⟩
      exact ⟨r, by rw [List.append_assoc, hr]⟩

/-! ### SourceText -/

/-- Reading all a source has in pieces. -/
theorem SourceText_eq (rd : σ → Nat → Io W (List Byte × σ)) (R : σ → W → List Byte → Prop)
    (hR : ∀ s w d, R s w d → ∃ s' w', (d = [] ∧ rd s sizeMax w = (.ok ([], s'), w')) ∨
      ∃ n, 0 < n ∧ d ≠ [] ∧ rd s sizeMax w = (.ok (d.take n, s'), w') ∧ R s' w' (d.drop n)) :
    ∀ (fuel : Nat) (s : σ) (w : W) (d : List Byte) (out : List Char), R s w d → d.length < fuel →
      ∃ w', SourceText.loop rd fuel s out w = (.ok (out ++ bytesText d), w')
  | 0, _, _, _, _, _, h => by omega
  | fuel + 1, s, w, d, out, h, hf => by
    obtain ⟨s', w', h0 | ⟨n, hn, hd, e, hr⟩⟩ := hR s w d h
    · obtain ⟨rfl, e⟩ := h0
      refine ⟨w', ?_⟩
      rw [SourceText.loop, Io.bind_run_ok e]
      simp [bytesText]
      rfl
    · have hl : 0 < d.length := List.length_pos_iff.mpr hd
      have ht : d.take n ≠ [] := by
        intro e; have := congrArg List.length e; rw [List.length_take, List.length_nil] at this; omega
      obtain ⟨w'', e'⟩ := SourceText_eq rd R hR fuel s' w' (d.drop n) (out ++ bytesText (d.take n)) hr
        (by rw [List.length_drop]; omega)
      refine ⟨w'', ?_⟩
      rw [SourceText.loop, Io.bind_run_ok e]
      simp only [if_neg ht, flatMap_putHex]
      rw [e', List.append_assoc, ← bytesText_append, List.take_append_drop]

end Goost.TestSupport
