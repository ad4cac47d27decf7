import Verif.Lemmas.KeyText
import Verif.Props.KeySchedule
import Verif.Props.Blocks
import Verif.Props.MagmaKeys
/-
Property C92: when two texts denote the same key or the same block.
-/
namespace Goost.Props
open Spec

/-- C92. Two texts of 64 hexadecimal digits are the same magma key exactly if they are equal up to the
case of the letters. Even one question to each of the eight subkeys tells different keys apart. -/
theorem C92_magma_key_texts (s u : List Char) (hs : IsHex s) (hu : IsHex u) (h1 : s.length = 64)
    (h2 : u.length = 64) :
    ((∀ (v : BitVec 32) (i : Fin 8), (Magma.LazyKey.ofString s).transform v (i.val : Int) =
        (Magma.LazyKey.ofString u).transform v (i.val : Int)) ↔ upper s = upper u) ∧
    ((∀ i : Fin 8, ∃ v : BitVec 32, (Magma.LazyKey.ofString s).transform v (i.val : Int) =
        (Magma.LazyKey.ofString u).transform v (i.val : Int)) ↔ upper s = upper u) := by
  have cs := Magma.LazyKey_ofString_computes hs h1
  have cu := Magma.LazyKey_ofString_computes hu h2
  have key : (∀ i : Fin 8, ∃ v : BitVec 32, (Magma.LazyKey.ofString s).transform v (i.val : Int) =
      (Magma.LazyKey.ofString u).transform v (i.val : Int)) → upper s = upper u := by
    intro h
    rw [← ofNat_hexNat_eq_iff (w := 256) hs hu (by omega) (by omega)]
    refine keyWords_inj fun i => ?_
    obtain ⟨v, e⟩ := h i
    rw [cs v i, cu v i] at e
    have := Exec.ok.inj e
    have inj := C05_r3412_bijection.2.1
    have hr : ∀ x : BitVec 32, Magma.SboxR3412 x = .ok ((Spec.Magma.t Spec.Magma.pi x).rotateLeft 11) :=
      Magma.SboxR3412_eq
    have hh := inj _ _ _ (hr _) ((hr _).trans (congrArg Exec.ok this.symm))
    have := congrArg (· - v) hh
    simpa [BitVec.add_comm v] using this
  have back : upper s = upper u → ∀ (v : BitVec 32) (i : Fin 8),
      (Magma.LazyKey.ofString s).transform v (i.val : Int) =
        (Magma.LazyKey.ofString u).transform v (i.val : Int) := by
    intro h v i
    rw [cs v i, cu v i, (hexNat_eq_iff hs hu (by omega)).2 h]
  exact ⟨⟨fun h => key fun i => ⟨0, h 0 i⟩, back⟩, ⟨key, fun h i => ⟨0, back h 0 i⟩⟩⟩

example := C92_magma_key_texts sampleKeyText (upper sampleKeyText) (by decide) (by decide) (by decide) (by decide)

/-- C92 for the 128-bit cipher: two texts of 64 hexadecimal digits have the same first two round keys
exactly if they are equal up to the case of the letters. -/
theorem C92_kuznyechik_key_texts (m : Machine) (s u : List Char) (hs : IsHex s) (hu : IsHex u)
    (h1 : s.length = 64) (h2 : u.length = 64) :
    ∃ key key', Kuz.Key.ofString s = .ok key ∧ Kuz.Key.ofString u = .ok key' ∧
      ((key.k1.value m = key'.k1.value m ∧ key.k2.value m = key'.k2.value m) ↔ upper s = upper u) := by
  have shape : ∀ t : List Char, t.length = 64 → Kuz.Key.ofString t =
      .ok (Kuz.Key.ofBlocks (.str (t.take 32)) (.str (t.drop 32)) 0) := by
    intro t ht
    have : (t.drop 32).take 32 = t.drop 32 := List.take_of_length_le (by simp; omega)
    simp [Kuz.Key.ofString, Kuz.KeyDataString.high, Kuz.KeyDataString.low, substr, ht, this]
  refine ⟨_, _, shape s h1, shape u h2, ?_⟩
  have half : ∀ a b : List Char, IsHex a → IsHex b → a.length = 32 → b.length = 32 →
      ((Kuz.Blk.str a).value m = (Kuz.Blk.str b).value m ↔ upper a = upper b) := by
    intro a b ha hb la lb
    obtain ⟨x, x1, x2⟩ := Kuz.str_value m ha (by omega)
    obtain ⟨y, y1, y2⟩ := Kuz.str_value m hb (by omega)
    rw [x1, y1, ← ofNat_hexNat_eq_iff (w := 128) ha hb (by omega) (by omega), ← x2, ← y2]
    exact ⟨fun e => by rw [Exec.ok.inj e], fun e => by rw [join64_inj e]⟩
  have e1 := half (s.take 32) (u.take 32) (hs.take _) (hu.take _) (by simp; omega) (by simp; omega)
  have e2 := half (s.drop 32) (u.drop 32) (hs.drop _) (hu.drop _) (by simp; omega) (by simp; omega)
  have k1 : ∀ h l : Kuz.Blk, (Kuz.Key.ofBlocks h l 0).k1.value m = h.value m := fun h l => by
    simp [Kuz.Key.ofBlocks, Kuz.Blk.value]
  have k2 : ∀ h l : Kuz.Blk, (Kuz.Key.ofBlocks h l 0).k2.value m = l.value m := fun h l => by
    simp [Kuz.Key.ofBlocks, Kuz.Blk.value]
  rw [k1, k1, k2, k2, e1, e2]
  have split : ∀ t : List Char, upper t = upper (t.take 32) ++ upper (t.drop 32) := fun t => by
    rw [upper, upper, upper, ← List.map_append, List.take_append_drop]
  rw [split s, split u]
  constructor
  · rintro ⟨a, b⟩
    rw [a, b]
  · intro h
    exact List.append_inj h (by simp [upper]; omega)

example (m : Machine) := C92_kuznyechik_key_texts m sampleKeyText (upper sampleKeyText) (by decide) (by decide) (by decide)
  (by decide)

/-- C92 for blocks: two texts of hexadecimal digits of the same length (at most 16) are the same magma
block exactly if they are equal up to the case of the letters. -/
theorem C92_magma_block_texts (m : Machine) (s u : List Char) (hs : IsHex s) (hu : IsHex u)
    (hl : s.length = u.length) (h : s.length ≤ 16) :
    (Magma.Blk.str s).value m = (Magma.Blk.str u).value m ↔ upper s = upper u := by
  obtain ⟨x, x1, x2⟩ := C53_magma_text_value m s hs h
  obtain ⟨y, y1, y2⟩ := C53_magma_text_value m u hu (by omega)
  rw [x1, y1, ← ofNat_hexNat_eq_iff (w := 64) hs hu hl (by omega), ← x2, ← y2]
  exact ⟨fun e => by rw [Exec.ok.inj e], fun e => by rw [join32_inj e]⟩

/-- C92 for blocks of the 128-bit cipher (texts of at most 32 digits). -/
theorem C92_kuznyechik_block_texts (m : Machine) (s u : List Char) (hs : IsHex s) (hu : IsHex u)
    (hl : s.length = u.length) (h : s.length ≤ 32) :
    (Kuz.Blk.str s).value m = (Kuz.Blk.str u).value m ↔ upper s = upper u := by
  obtain ⟨x, x1, x2⟩ := C53_kuznyechik_text_value m s hs h
  obtain ⟨y, y1, y2⟩ := C53_kuznyechik_text_value m u hu (by omega)
  rw [x1, y1, ← ofNat_hexNat_eq_iff (w := 128) hs hu hl (by omega), ← x2, ← y2]
  exact ⟨fun e => by rw [Exec.ok.inj e], fun e => by rw [join64_inj e]⟩

example (m : Machine) := C92_kuznyechik_block_texts m "01fe".toList "01FE".toList (by decide) (by decide) (by decide) (by decide)

/-- C92 for native words: with a substitution that does not fail and is injective, two lists of eight words
are the same key exactly if they are equal. -/
theorem C92_native_keys (ws ws' : List (BitVec 32)) (h1 : ws.length = 8) (h2 : ws'.length = 8)
    (sbox : Magma.Sbox) (hs : ∀ v, ∃ r, sbox v = .ok r)
    (hi : ∀ u v r, sbox u = .ok r → sbox v = .ok r → u = v) :
    (∀ (v : BitVec 32) (i : Fin 8), (Magma.LazyKey.ofNative ws sbox).transform v (i.val : Int) =
      (Magma.LazyKey.ofNative ws' sbox).transform v (i.val : Int)) ↔ ws = ws' := by
  refine ⟨fun h => ?_, fun h _ _ => by rw [h]⟩
  obtain ⟨t, ht⟩ : ∃ t : BitVec 32 → BitVec 32, ∀ v, sbox v = .ok (t v) :=
    ⟨fun v => (hs v).choose, fun v => (hs v).choose_spec⟩
  have c1 := Magma.LazyKey_ofNative_computes (kd := ws) (by omega) ht
  have c2 := Magma.LazyKey_ofNative_computes (kd := ws') (by omega) ht
  refine List.ext_getElem (by omega) fun i hi1 hi2 => ?_
  have e := h 0 ⟨i, by omega⟩
  rw [c1, c2] at e
  have e := Exec.ok.inj e
  have e := hi _ _ _ (ht _) ((ht _).trans (congrArg Exec.ok e.symm))
  simpa using e

/-- Cases that meet the hypotheses: the key of the standard in small and in capital letters, a block in both
ways, and the substitution of the standard. -/
example : IsHex sampleKeyText ∧ sampleKeyText.length = 64 ∧ IsHex (upper sampleKeyText) ∧
    upper sampleKeyText ≠ sampleKeyText ∧ upper (upper sampleKeyText) = upper sampleKeyText ∧
    (Magma.Blk.str "fedcba9876543210".toList).value .x86 =
      (Magma.Blk.str "FEDCba9876543210".toList).value .x86 ∧
    (∀ v, ∃ r, Magma.SboxR3412 v = .ok r) ∧
    ∀ u v r, Magma.SboxR3412 u = .ok r → Magma.SboxR3412 v = .ok r → u = v :=
  ⟨by decide, by decide, by decide, by decide, by decide,
    (C92_magma_block_texts .x86 _ _ (by decide) (by decide) (by decide) (by decide)).2 (by decide),
    C05_r3412_bijection.1, C05_r3412_bijection.2.1⟩

end Goost.Props
