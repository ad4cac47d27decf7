import Verif.Lemmas.Numerals
import Verif.Props.MagmaKeys
import Verif.Props.Kuznyechik
/-
Property C97: what every text means as a key or as a block.
-/
namespace Goost.Props
open Spec

/-! ### C97 -/

/-- C97. The sign and the number that a text begins with are determined by the text. -/
theorem C97_number_unique (s ds ds' : List Char) (neg neg' : Bool) (h : Reads s neg ds)
    (h' : Reads s neg' ds') : neg = neg' ∧ hexNat ds = hexNat ds' := h.unique h'

example := C97_number_unique " 12 bugs".toList "12".toList "012".toList false false
  ⟨" ".toList, [], [], " bugs".toList, by decide, by unfold IsBlank; decide, .none, by decide, by decide, by decide,
    Or.inr (Or.inr ⟨rfl, by rintro ⟨x, y, r, e, -⟩; simp at e⟩)⟩

/-- C97, magma key, every text of 64 characters none of whose eight words is blank: it is a key, the one
whose words are the numbers at the beginning of each eight characters. -/
theorem C97_magma_key (s : List Char) (hl : s.length = 64)
    (hb : ∀ i : Fin 8, ∃ c ∈ field 8 s i.val, ¬ IsBlank c) :
    ∃ k : Fin 8 → BitVec 32, (∀ i : Fin 8, WordOfText (field 8 s i.val) (k i)) ∧
      ∀ (m : Machine) (b : Magma.Blk) (v : W32 × W32), b.value m = .ok v →
        ∃ r, (Magma.BlkEncrypted b (some (Magma.LazyKey.ofString s))).value m = .ok r ∧
          join32 r = Spec.Magma.encF (fun i => Spec.Magma.g Spec.Magma.pi (k i)) (join32 v) := by
  have hw : ∀ i : Fin 8, ∃ k, WordOfText (field 8 s i.val) k ∧
      Magma.KeyDataString s (i.val : Int) = .ok k := by
    intro i
    rw [magma_field hl]
    by_cases h : ∃ neg ds, Reads (field 8 s i.val) neg ds
    · obtain ⟨neg, ds, hd⟩ := h
      exact ⟨_, Or.inl ⟨neg, ds, hd, rfl⟩, istreamHex32_reads hd (by simp [field])⟩
    · exact ⟨0, Or.inr ⟨h, rfl⟩, istreamHex32_none (hb i) h⟩
  refine ⟨fun i => (hw i).choose, fun i => (hw i).choose_spec.1, fun m b v hv => ?_⟩
  have h := Magma.LazyKey_computes (Magma.KeyCachedData_eq fun i => (hw i).choose_spec.2) Magma.SboxR3412_eq
  exact ⟨_, Magma.BlkEncrypted_value h m hv, Magma.join32_encP _ _⟩

example := C97_magma_key "1234567812 bugs.-1......0x1F....nonsense  7     00000000ffffffff".toList (by decide)
  (by unfold IsBlank; decide)

/-- C97, magma key, the other texts: a text of another length is rejected by every use, and with a text of
64 characters that has a blank word every use has undefined behaviour (it reads a variable that was
never set). -/
theorem C97_magma_key_other (s : List Char) (m : Machine) (b : Magma.Blk) (v : W32 × W32)
    (hv : b.value m = .ok v) :
    (s.length ≠ 64 → (Magma.BlkEncrypted b (some (Magma.LazyKey.ofString s))).value m =
      .throw (.runtimeError "Wrong key size")) ∧
    (s.length = 64 → (∃ i : Fin 8, ∀ c ∈ field 8 s i.val, IsBlank c) →
      (Magma.BlkEncrypted b (some (Magma.LazyKey.ofString s))).value m = .ub .uninit) := by
  refine ⟨fun h => C09_malformed_key_rejected_partial s h m b v hv, fun hl hb => ?_⟩
  have hw : ∀ i : Fin 8, (∃ k, Magma.KeyDataString s (i.val : Int) = .ok k) ∨
      Magma.KeyDataString s (i.val : Int) = .ub .uninit := by
    intro i
    rw [magma_field hl]
    by_cases h : ∃ neg ds, Reads (field 8 s i.val) neg ds
    · obtain ⟨neg, ds, hd⟩ := h
      exact Or.inl ⟨_, istreamHex32_reads hd (by simp [field])⟩
    · by_cases h' : ∃ c ∈ field 8 s i.val, ¬ IsBlank c
      · exact Or.inl ⟨_, istreamHex32_none h' h⟩
      · exact Or.inr (istreamHex32_blank fun c hc => Classical.byContradiction fun hn => h' ⟨c, hc, hn⟩)
  have hc : ∀ j, Magma.KeyCachedData (Magma.KeyDataString s) j = .ub .uninit := by
    intro j
    unfold Magma.KeyCachedData
    have w0 : (∃ k, Magma.KeyDataString s 0 = .ok k) ∨ Magma.KeyDataString s 0 = .ub .uninit := hw 0
    have w1 : (∃ k, Magma.KeyDataString s 1 = .ok k) ∨ Magma.KeyDataString s 1 = .ub .uninit := hw 1
    have w2 : (∃ k, Magma.KeyDataString s 2 = .ok k) ∨ Magma.KeyDataString s 2 = .ub .uninit := hw 2
    have w3 : (∃ k, Magma.KeyDataString s 3 = .ok k) ∨ Magma.KeyDataString s 3 = .ub .uninit := hw 3
    have w4 : (∃ k, Magma.KeyDataString s 4 = .ok k) ∨ Magma.KeyDataString s 4 = .ub .uninit := hw 4
    have w5 : (∃ k, Magma.KeyDataString s 5 = .ok k) ∨ Magma.KeyDataString s 5 = .ub .uninit := hw 5
    have w6 : (∃ k, Magma.KeyDataString s 6 = .ok k) ∨ Magma.KeyDataString s 6 = .ub .uninit := hw 6
    have w7 : (∃ k, Magma.KeyDataString s 7 = .ok k) ∨ Magma.KeyDataString s 7 = .ub .uninit := hw 7
    rcases w0 with ⟨k0, h0⟩ | h0
    case inr => simp [h0]
    rcases w1 with ⟨k1, h1⟩ | h1
    case inr => simp [h0, h1]
    rcases w2 with ⟨k2, h2⟩ | h2
    case inr => simp [h0, h1, h2]
    rcases w3 with ⟨k3, h3⟩ | h3
    case inr => simp [h0, h1, h2, h3]
    rcases w4 with ⟨k4, h4⟩ | h4
    case inr => simp [h0, h1, h2, h3, h4]
    rcases w5 with ⟨k5, h5⟩ | h5
    case inr => simp [h0, h1, h2, h3, h4, h5]
    rcases w6 with ⟨k6, h6⟩ | h6
    case inr => simp [h0, h1, h2, h3, h4, h5, h6]
    rcases w7 with ⟨k7, h7⟩ | h7
    case inr => simp [h0, h1, h2, h3, h4, h5, h6, h7]
    obtain ⟨i, hi⟩ := hb
    have hu := (magma_field hl i).trans (istreamHex32_blank hi)
    exfalso
    match i, hu with
    | 0, hu => exact absurd (h0.symm.trans hu) (by simp)
    | 1, hu => exact absurd (h1.symm.trans hu) (by simp)
    | 2, hu => exact absurd (h2.symm.trans hu) (by simp)
    | 3, hu => exact absurd (h3.symm.trans hu) (by simp)
    | 4, hu => exact absurd (h4.symm.trans hu) (by simp)
    | 5, hu => exact absurd (h5.symm.trans hu) (by simp)
    | 6, hu => exact absurd (h6.symm.trans hu) (by simp)
    | 7, hu => exact absurd (h7.symm.trans hu) (by simp)
  have ht : ∀ x j, (Magma.LazyKey.ofString s).transform x j = .ub .uninit := by
    intro x j
    simp [Magma.LazyKey.ofString, Magma.LazyKey.ofStringSbox, Magma.LazyKey, hc]
  simp [Magma.BlkEncrypted, Magma.Blk.value, hv, Magma.forwardRounds, Magma.callKey, ht]

/-- Eight words: digits, garbage after digits, a sign, a prefix, no number at all. -/
example : (∀ i : Fin 8, ∃ c ∈ field 8 "1234567812 bugs.-1......0x1F....nonsense  7     00000000ffffffff".toList i.val,
      ¬ IsBlank c) ∧
    "1234567812 bugs.-1......0x1F....nonsense  7     00000000ffffffff".toList.length = 64 := by
  unfold IsBlank; decide

/-- C97, blocks of magma: every text. Zeros are put before a text of less than 16 characters, and what is
beyond 16 characters is ignored. If both halves begin with a number, these are the words of the block;
if not, the block throws `invalid_argument`. -/
theorem C97_magma_block (m : Machine) (s : List Char) :
    (∀ n0 d0 n1 d1, Reads (field 8 (zeroFilled 16 s) 0) n0 d0 →
      Reads (field 8 (zeroFilled 16 s) 1) n1 d1 →
      (Magma.Blk.str s).value m = .ok (signedNumber 32 n1 d1, signedNumber 32 n0 d0)) ∧
    ((∃ i, i < 2 ∧ ¬ ∃ neg ds, Reads (field 8 (zeroFilled 16 s) i) neg ds) →
      (Magma.Blk.str s).value m = .throw .invalidArgument) := by
  have hlen : ∀ i, (field 8 (zeroFilled 16 s) i).length ≤ 16 := by
    intro i; simp only [field, List.length_take]; omega
  have hw : ∀ neg ds, (signedNumber 64 neg ds).setWidth 32 = signedNumber 32 neg ds := by
    intro neg ds
    unfold signedNumber
    split
    · rw [BitVec.setWidth_neg_of_le (by decide), BitVec.setWidth_ofNat_of_le (by decide)]
    · rw [BitVec.setWidth_ofNat_of_le (by decide)]
  rw [magma_str_value]
  constructor
  · intro n0 d0 n1 d1 h0 h1
    rw [stoull16_reads h1 (hlen 1), stoull16_reads h0 (hlen 0)]
    simp only [Exec.ok_bind, hw]
    rfl
  · rintro ⟨i, hi, h⟩
    by_cases h1 : ∃ neg ds, Reads (field 8 (zeroFilled 16 s) 1) neg ds
    · obtain ⟨neg, ds, hd⟩ := h1
      match i, hi, h with
      | 0, _, h => rw [stoull16_reads hd (hlen 1), stoull16_none h]; rfl
      | 1, _, h => exact absurd ⟨neg, ds, hd⟩ h
    · rw [stoull16_none h1]; rfl

/-- C97, blocks of the 128-bit cipher: every text, in the same way with 32 characters. -/
theorem C97_kuznyechik_block (m : Machine) (s : List Char) :
    (∀ n0 d0 n1 d1, Reads (field 16 (zeroFilled 32 s) 0) n0 d0 →
      Reads (field 16 (zeroFilled 32 s) 1) n1 d1 →
      (Kuz.Blk.str s).value m = .ok (signedNumber 64 n1 d1, signedNumber 64 n0 d0)) ∧
    ((∃ i, i < 2 ∧ ¬ ∃ neg ds, Reads (field 16 (zeroFilled 32 s) i) neg ds) →
      (Kuz.Blk.str s).value m = .throw .invalidArgument) := by
  have hlen : ∀ i, (field 16 (zeroFilled 32 s) i).length ≤ 16 := by
    intro i; simp only [field, List.length_take]; omega
  rw [kuz_str_value]
  constructor
  · intro n0 d0 n1 d1 h0 h1
    rw [stoull16_reads h1 (hlen 1), stoull16_reads h0 (hlen 0)]
    rfl
  · rintro ⟨i, hi, h⟩
    by_cases h1 : ∃ neg ds, Reads (field 16 (zeroFilled 32 s) 1) neg ds
    · obtain ⟨neg, ds, hd⟩ := h1
      match i, hi, h with
      | 0, _, h => rw [stoull16_reads hd (hlen 1), stoull16_none h]; rfl
      | 1, _, h => exact absurd ⟨neg, ds, hd⟩ h
    · rw [stoull16_none h1]; rfl

/-- C97, keys of the 128-bit cipher: every text. A text of less than 32 characters is rejected by the
constructor. Of a longer one the first 32 characters and the next ones, up to 32, with zeros before
them, are four quarters. If all of them begin with a number, the text is the key of these numbers; if
not, the constructor accepts the text and every encryption throws `invalid_argument`. -/
theorem C97_kuznyechik_key (m : Machine) (hm : m.unalignedLoad = true) (s : List Char) :
    (s.length < 32 → Kuz.Key.ofString s = .throw .outOfRange) ∧
    (32 ≤ s.length → ∃ key, Kuz.Key.ofString s = .ok key ∧
      ∀ (b : Kuz.Blk) (v : W64 × W64), b.value m = .ok v →
        let quarter := field 16 (s.take 32 ++ zeroFilled 32 ((s.drop 32).take 32))
        (∀ n0 d0 n1 d1 n2 d2 n3 d3, Reads (quarter 0) n0 d0 → Reads (quarter 1) n1 d1 →
          Reads (quarter 2) n2 d2 → Reads (quarter 3) n3 d3 →
          ∃ r, (Kuz.BlkEncrypted b key).value m = .ok r ∧
            join64 r = Spec.Kuz.enc ((signedNumber 64 n0 d0 ++ signedNumber 64 n1 d1) ++
              (signedNumber 64 n2 d2 ++ signedNumber 64 n3 d3)) (join64 v)) ∧
        ((∃ i, i < 4 ∧ ¬ ∃ neg ds, Reads (quarter i) neg ds) →
          (Kuz.BlkEncrypted b key).value m = .throw .invalidArgument)) := by
  refine ⟨(C42_short_text_rejected_partial s).1, fun hl => ?_⟩
  refine ⟨Kuz.Key.ofBlocks (.str (s.take 32)) (.str ((s.drop 32).take 32)), ?_, ?_⟩
  · simp [Kuz.Key.ofString, Kuz.KeyDataString.high, Kuz.KeyDataString.low, substr, hl]
  intro b v hv quarter
  have l1 : (s.take 32).length = 32 := by simp; omega
  have e1 : zeroFilled 32 (s.take 32) = s.take 32 := by
    rw [zeroFilled, l1]; rfl
  have q0 : field 16 (zeroFilled 32 (s.take 32)) 0 = quarter 0 := by
    rw [e1]
    simp only [quarter, field, Nat.mul_zero, List.drop_zero]
    rw [List.take_append_of_le_length (by omega)]
  have q1 : field 16 (zeroFilled 32 (s.take 32)) 1 = quarter 1 := by
    rw [e1]
    simp only [quarter, field, Nat.mul_one]
    rw [List.drop_append_of_le_length (by omega),
      List.take_append_of_le_length (by simp; omega)]
  have q2 : field 16 (zeroFilled 32 ((s.drop 32).take 32)) 0 = quarter 2 := by
    simp only [quarter, field, Nat.mul_zero, List.drop_zero]
    rw [List.drop_append, l1, List.drop_of_length_le (show (s.take 32).length ≤ 16 * 2 by omega)]
    rfl
  have q3 : field 16 (zeroFilled 32 ((s.drop 32).take 32)) 1 = quarter 3 := by
    simp only [quarter, field, Nat.mul_one]
    rw [List.drop_append, l1, List.drop_of_length_le (show (s.take 32).length ≤ 16 * 3 by omega)]
    rfl
  have hi := C97_kuznyechik_block m (s.take 32)
  have lo := C97_kuznyechik_block m ((s.drop 32).take 32)
  rw [q0, q1] at hi
  rw [q2, q3] at lo
  constructor
  · intro n0 d0 n1 d1 n2 d2 n3 d3 h0 h1 h2 h3
    exact C37_conforms_any_key_data m hm _ _ _ _ (hi.1 n0 d0 n1 d1 h0 h1) (lo.1 n2 d2 n3 d3 h2 h3) b v hv
  · rintro ⟨i, hi4, h⟩
    by_cases hr : ∃ n0 d0 n1 d1, Reads (quarter 0) n0 d0 ∧ Reads (quarter 1) n1 d1
    · obtain ⟨n0, d0, n1, d1, h0, h1⟩ := hr
      have hx := hi.1 n0 d0 n1 d1 h0 h1
      have he : (Kuz.Blk.str ((s.drop 32).take 32)).value m = .throw .invalidArgument := by
        apply lo.2
        match i, hi4, h with
        | 0, _, h => exact absurd ⟨_, _, h0⟩ h
        | 1, _, h => exact absurd ⟨_, _, h1⟩ h
        | 2, _, h => exact ⟨0, by decide, by rw [q2]; exact h⟩
        | 3, _, h => exact ⟨1, by decide, by rw [q3]; exact h⟩
      obtain ⟨r, hr, -⟩ := HasValue.lsx hm (b := b) (k := .cached 1 (.str (s.take 32)))
        ⟨v, hv, rfl⟩ ⟨_, hx, rfl⟩
      exact Kuz.encrypt_bad2 hr he (by simp)
    · refine C37_exceptions_pass m b _ _ _ (Or.inr ⟨⟨v, hv⟩, hi.2 ?_⟩)
      by_cases h0 : ∃ neg ds, Reads (quarter 0) neg ds
      · obtain ⟨n0, d0, h0⟩ := h0
        exact ⟨1, by decide, fun ⟨n1, d1, h1⟩ => hr ⟨n0, d0, n1, d1, h0, by rwa [q1] at h1⟩⟩
      · exact ⟨0, by decide, by rw [q0]; exact h0⟩

/-- A text of 40 characters whose four quarters begin with numbers, with white space, a sign and a
prefix. -/
example : (40 : Nat) = "  -12           0xAbCdg........ 1234567".toList.length + 1 ∧
    Reads (field 16 "  -12           0xAbCdg........ ".toList 0) true "12".toList ∧
    Reads (field 16 "  -12           0xAbCdg........ ".toList 1) false "AbCd".toList ∧
    ¬ IsBlank 'g' := by
  refine ⟨by decide, ⟨"  ".toList, "-".toList, [], "           ".toList, by decide, ?_, .minus, by decide,
    by decide, by decide, Or.inr (Or.inr ⟨rfl, ?_⟩)⟩, ⟨[], [], "0x".toList, "g........ ".toList, by decide,
    by simp, .none, by decide, by decide, by decide, Or.inl rfl⟩, by simp [IsBlank]⟩
  · unfold IsBlank; decide
  · rintro ⟨x, y, r, e, -, -⟩
    exact absurd (List.cons.inj e).1 (by decide)

end Goost.Props
