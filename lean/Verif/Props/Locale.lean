import Verif.Lemmas.Locale
import Verif.Props.MagmaKeys
import Verif.Props.KuzStream
/-
Property C120: texts of keys and blocks mean the same in every locale.
-/
namespace Goost.Props
open Spec Goost.Magma

/-- C120: the conversions of Model/Text, which the other properties are about, are those of the "C" locale, for every
text. -/
theorem C120_classic (m : Machine) (s : List Char) (i : Int) :
    Locale.classic.keyDataString s i = KeyDataString s i ∧ Locale.classic.magmaBlock s = (Magma.Blk.str s).value m ∧
      Locale.classic.kuznyechikBlock s = (Kuz.Blk.str s).value m := by
  refine ⟨?_, rfl, rfl⟩
  unfold Locale.keyDataString KeyDataString
  simp only [Locale.istream_classic]

/-- C120 for keys of the 64-bit cipher: exactly in the locales in which digits are nothing but digits, every text of 64
digits has the words that the digits say. -/
theorem C120_magma_key_iff (l : Locale) : (∀ s : List Char, IsHex s → s.length = 64 → ∀ i : Nat, i ≤ 7 →
    l.keyDataString s i = .ok (BitVec.ofNat 32 (hexNat ((s.drop (8 * i)).take 8)))) ↔ DigitsOnly l := by
  constructor
  · intro h
    -- the text of 64 times the digit
    have all : ∀ c, (hexDigit c).isSome → l.istreamHex32 (List.replicate 8 c) =
        .ok (BitVec.ofNat 32 (hexNat (List.replicate 8 c))) := by
      intro c hc
      have := h (List.replicate 64 c) (fun d hd => by rw [(List.mem_replicate.1 hd).2]; exact hc) (by simp) 0 (by omega)
      simpa [Locale.keyDataString, substr] using this
    have one : l.istreamHex32 "10000000".toList = .ok 0x10000000 := by
      have := h ("10000000".toList ++ List.replicate 56 '0') (by decide) (by decide) 0 (by omega)
      simpa [Locale.keyDataString, substr, hexNat, hexDigit] using this
    have hsp : ∀ c, (hexDigit c).isSome → l.space c = false := by
      intro c hc
      cases hs : l.space c with
      | false => rfl
      | true =>
        have := all c hc
        simp [Locale.istreamHex32, List.replicate, hs] at this
    -- a digit that is skipped, or ends the number, makes nothing of a text of that digit
    have good : ∀ c, (hexDigit c).isSome → c ≠ '0' → ¬ l.Bad c := by
      intro c hc h0 hb
      have hz := Locale.istream_of (hsp c hc) (Locale.accumulated_bad hb 8)
      have h8 : l.istreamHex32 (c :: List.replicate 7 c) = _ := all c hc
      rw [h8] at hz
      revert hz
      unfold hexDigit at hc
      split at hc <;> first | exact absurd rfl h0 | decide | cases hc
    have good0 : ¬ l.Bad '0' := by
      intro hb
      have h1 : l.accumulated ('1' :: List.replicate 7 '0') = ['1'] := by
        rw [Locale.accumulated_good (good '1' (by decide) (by decide)), Locale.accumulated_bad hb]
      have h2 := Locale.istream_of (hsp '1' (by decide)) h1
      have h3 : l.istreamHex32 ('1' :: List.replicate 7 '0') = .ok 0x10000000 := one
      rw [h3] at h2
      exact absurd h2 (by decide)
    intro c hc
    have hg : ¬ l.Bad c := by
      by_cases h0 : c = '0'
      · subst h0; exact good0
      · exact good c hc h0
    exact ⟨hsp c hc, fun e => hg (.inl e), fun e => Decidable.byContradiction fun h => hg (.inr ⟨e, h⟩)⟩
  · intro h s hs hl i hi
    rw [Locale.keyData_eq h hs]
    exact C08_parsed_exactly s hs hl i hi

/-- In the German locale and in the "C" locale the digits are nothing but digits; not so in one with the separator
`a`. -/
example : DigitsOnly german ∧ DigitsOnly Locale.classic ∧ ¬ DigitsOnly odd := by
  refine ⟨fun c hc => ⟨Locale.space_classic c hc, ?_, ?_⟩, Locale.classic_digits, fun h => ?_⟩
  · rintro rfl; revert hc; decide
  · rintro rfl; revert hc; decide
  · have := (h 'a' (by decide)).2.2 rfl
    cases this

/-- C120 for keys of the 64-bit cipher: in every such locale the key object of a text of digits is the one of the "C"
locale, so all that is proved about it holds. -/
theorem C120_magma_key (l : Locale) (hl : DigitsOnly l) (s : List Char) (hs : IsHex s) (sbox : Sbox) :
    LazyKey (KeyCachedData (l.keyDataString s)) sbox = LazyKey.ofStringSbox s sbox := by
  rw [Locale.keyData_eq hl hs]; rfl

example (sbox : Sbox) := C120_magma_key Locale.classic Locale.classic_digits sampleKeyText (by decide) sbox

/-- C120 for keys of the 64-bit cipher: the program may change the global locale whenever it likes, also while the words
are being read. All calls give the words that the digits say. -/
theorem C120_magma_key_any_time (s : List Char) (hs : IsHex s) (h64 : s.length = 64) (locale : Nat → Locale)
    (hl : ∀ n, DigitsOnly (locale n)) (hist : List (Fin 8)) :
    (runCalls (fun (i : Fin 8) st => KeyCachedData.key (fun n j => ((locale n).keyDataString s j, n + 1)) (i.val : Int)
        st.1 st.2) hist ({}, 0)).1 =
      hist.map fun i => .ok (BitVec.ofNat 32 (hexNat ((s.drop (8 * i.val)).take 8))) := by
  rw [Locale.history_answers (fun i : Fin 8 => (i.val : Int)) (k := KeyDataString s)
    (fun n i => by rw [Locale.keyData_eq (hl n) hs])]
  exact C10_cache_unobservable (KeyDataString s) _ (fun i => C08_parsed_exactly s hs h64 i.val (by omega)) hist

example := C120_magma_key_any_time sampleKeyText (by decide) (by decide) (fun _ => Locale.classic)
  (fun _ => Locale.classic_digits) [3, 7, 3, 0]

/-- C120 for texts of blocks: they are read without separators and decimal points, so that only white space matters. -/
theorem C120_blocks (m : Machine) (l : Locale) (hl : DigitsNotSpace l) (s : List Char) (hs : IsHex s) :
    l.magmaBlock s = (Magma.Blk.str s).value m ∧ l.kuznyechikBlock s = (Kuz.Blk.str s).value m :=
  ⟨Locale.magmaBlock_eq hl m hs, Locale.kuznyechikBlock_eq hl m hs⟩

example (m : Machine) := C120_blocks m odd (fun c h => Locale.space_classic c h) "fedcba9876543210".toList (by decide)

/-- C120 for texts of blocks: exactly in the locales in which no digit is white space, every text of 32 digits is the block
that the digits say. -/
theorem C120_block_iff (l : Locale) : (∀ s : List Char, IsHex s → s.length = 32 →
    ∃ v, l.kuznyechikBlock s = .ok v ∧ join64 v = BitVec.ofNat 128 (hexNat s)) ↔ DigitsNotSpace l := by
  constructor
  · intro h c hc
    cases hs : l.space c with
    | false => rfl
    | true =>
      obtain ⟨v, hv, -⟩ := h (List.replicate 32 c) (fun d hd => by rw [(List.mem_replicate.1 hd).2]; exact hc) (by simp)
      have : l.stoull16 (List.replicate 16 c) = .throw .invalidArgument := by
        simp [Locale.stoull16, List.replicate, hs, readSigned, readNumber]
      simp only [List.replicate] at this
      simp [Locale.kuznyechikBlock, Kuz.padZeros, substr, this] at hv
  · intro h s hs hl
    obtain ⟨v, hv, e⟩ := Kuz.str_value .x86 hs (by omega)
    exact ⟨v, by rw [Locale.kuznyechikBlock_eq h .x86 hs, hv], e⟩

/-- C120 for keys of the 128-bit cipher: whatever locales the halves of the text are converted under, when the key is
first used, it encrypts under the key that the digits say. -/
theorem C120_kuznyechik_key (m : Machine) (hm : m.unalignedLoad = true) (l1 l2 : Locale) (h1 : DigitsNotSpace l1)
    (h2 : DigitsNotSpace l2) (s : List Char) (hs : IsHex s) (h64 : s.length = 64) :
    ∃ key, Locale.kuznyechikKey l1 l2 s = .ok key ∧ Encrypts m key (BitVec.ofNat 256 (hexNat s)) := by
  refine ⟨_, by simp [Locale.kuznyechikKey, substr, h64]; rfl, ?_⟩
  have e1 : HasValue m (.user (l1.kuznyechikBlock (s.take 32))) (BitVec.ofNat 128 (hexNat (s.take 32))) := by
    obtain ⟨v, hv, e⟩ := Kuz.str_value m (hs.take 32) (by simp; omega)
    exact ⟨v, by rw [Kuz.Blk.value, Locale.kuznyechikBlock_eq h1 m (hs.take 32), hv], e⟩
  have e2 : HasValue m (.user (l2.kuznyechikBlock ((s.drop 32).take 32)))
      (BitVec.ofNat 128 (hexNat ((s.drop 32).take 32))) := by
    obtain ⟨v, hv, e⟩ := Kuz.str_value m ((hs.drop 32).take 32) (by simp; omega)
    exact ⟨v, by rw [Kuz.Blk.value, Locale.kuznyechikBlock_eq h2 m ((hs.drop 32).take 32), hv], e⟩
  intro b v hb
  rw [← key_of_halves h64]
  exact encrypt_value hm e1 e2 0 ⟨v, hb, rfl⟩

example := C120_kuznyechik_key .x86 rfl odd german (fun c h => Locale.space_classic c h) (fun c h => Locale.space_classic c h)
  sampleKeyText (by decide) (by decide)

/-- C120: of a text with other characters the locale decides. The text 1.234567 1.234567 … is one key in the "C" locale
and another one in the German. -/
theorem C120_other_texts : ∃ s : List Char, s.length = 64 ∧ Locale.classic.keyDataString s 0 = .ok 1 ∧
    german.keyDataString s 0 = .ok 0x1234567 :=
  ⟨(List.replicate 8 "1.234567".toList).flatten, by decide, by decide, by decide⟩

/-- C120: a key object over a text with other characters has the words of the locale of its first use, whatever the
locale later on: here the program sets the German locale after it has made the key, and unsets it after the first use. -/
theorem C120_first_use_decides : ∃ s : List Char, s.length = 64 ∧
    (runCalls (fun i st => KeyCachedData.key (fun n j => ((if n < 8 then german else Locale.classic).keyDataString s j,
      n + 1)) i st.1 st.2) [0, 0] ({}, 0)).1 = [.ok 0x1234567, .ok 0x1234567] ∧
    (runCalls (fun i (n : Nat) => ((if n < 1 then german else Locale.classic).keyDataString s i, n + 1)) [0, 0] 0).1 =
      [.ok 0x1234567, .ok 1] :=
  ⟨(List.replicate 8 "1.234567".toList).flatten, by decide, by decide, by decide⟩

end Goost.Props
