import Verif.Lemmas.Keys
/-
Properties C01 – C06: the Magma block cipher and its substitution boxes.
-/
namespace Goost.Props
open Goost.Magma Spec Spec.Magma

/-- A key text used in the examples: the key of the standard's test vectors. -/
def sampleKeyText : List Char :=
  "ffeeddccbbaa99887766554433221100f0f1f2f3f4f5f6f7f8f9fafbfcfdfeff".toList

/-! ### C01 -/

/-- C01. For every key that answers for the indices 0 … 7 (whatever the key material and the S-box
are) decryption undoes encryption: the two nested blocks have the value of the inner block. This
includes blocks whose own value cannot be computed. -/
theorem C01_decrypt_encrypt (m : Machine) (key : Key) (h : Usable key) (b : Blk) :
    (BlkDecrypted (BlkEncrypted b (some key)) (some key)).value m = b.value m := by
  obtain ⟨f, hf⟩ := h.computes
  cases hb : b.value m with
  | ok v => rw [BlkDecrypted_value hf m (BlkEncrypted_value hf m hb), decP_encP]
  | throw e => simp [BlkDecrypted, BlkEncrypted, Blk.value, hb]
  | ub u => simp [BlkDecrypted, BlkEncrypted, Blk.value, hb]
  | diverge => simp [BlkDecrypted, BlkEncrypted, Blk.value, hb]

/-- C01, the other order. -/
theorem C01_encrypt_decrypt (m : Machine) (key : Key) (h : Usable key) (b : Blk) :
    (BlkEncrypted (BlkDecrypted b (some key)) (some key)).value m = b.value m := by
  obtain ⟨f, hf⟩ := h.computes
  cases hb : b.value m with
  | ok v => rw [BlkEncrypted_value hf m (BlkDecrypted_value hf m hb), encP_decP]
  | throw e => simp [BlkDecrypted, BlkEncrypted, Blk.value, hb]
  | ub u => simp [BlkDecrypted, BlkEncrypted, Blk.value, hb]
  | diverge => simp [BlkDecrypted, BlkEncrypted, Blk.value, hb]

/-- The keys built from hexadecimal text are usable, and so is a key with a constant (not bijective)
S-box. -/
example : Usable (LazyKey.ofString sampleKeyText) :=
  (LazyKey_ofString_computes (by decide) (by decide)).usable
example : Usable (LazyKey.ofNative [1, 2, 3, 4, 5, 6, 7, 8] fun _ => .ok 7) :=
  (LazyKey_ofNative_computes (t := fun _ => 7) (by decide) fun _ => rfl).usable

/-! ### C02 -/

/-- C02. `EncryptionBase::transform` and `BlkEncrypted` agree on every 64-bit block and for every key,
also when the key throws or runs into undefined behaviour. -/
theorem C02_encryptors_agree (m : Machine) (key : Key) (x : BitVec 64) :
    EncryptionBase.transform key x =
      (BlkEncrypted (BlkRaw.ofU64 x) (some key)).value m >>= fun v => .ok (join32 v) :=
  EncryptionBase_agree m key x

/-- A key that throws at its third use: both sides throw the same. -/
example : EncryptionBase.transform
      ⟨true, fun v i => if i = 2 then .throw (.user 5) else .ok (v + 1)⟩ 0x1122334455667788 =
    .throw (.user 5) := by decide

/-! ### C03 -/

/-- C03. With a key text of 64 hexadecimal digits, `BlkEncrypted` computes the encryption of
GOST R 34.12-2015 (64-bit block) under the 256-bit number written by the text. -/
theorem C03_encrypt_conforms (m : Machine) (s : List Char) (hs : IsHex s) (hl : s.length = 64)
    (b : Blk) (v : W32 × W32) (hb : b.value m = .ok v) :
    ∃ c, (BlkEncrypted b (some (LazyKey.ofString s))).value m = .ok c ∧
      join32 c = Spec.Magma.enc (BitVec.ofNat 256 (hexNat s)) (join32 v) :=
  ⟨_, BlkEncrypted_value (LazyKey_ofString_computes hs hl) m hb, join32_encP _ _⟩

example (m : Machine) := C03_encrypt_conforms m sampleKeyText (by decide) (by decide) (.raw 1 2) _ rfl

/-- C03 for decryption. -/
theorem C03_decrypt_conforms (m : Machine) (s : List Char) (hs : IsHex s) (hl : s.length = 64)
    (b : Blk) (v : W32 × W32) (hb : b.value m = .ok v) :
    ∃ c, (BlkDecrypted b (some (LazyKey.ofString s))).value m = .ok c ∧
      join32 c = Spec.Magma.dec (BitVec.ofNat 256 (hexNat s)) (join32 v) :=
  ⟨_, BlkDecrypted_value (LazyKey_ofString_computes hs hl) m hb, join32_decP _ _⟩

example (m : Machine) := C03_decrypt_conforms m sampleKeyText (by decide) (by decide) (.raw 1 2) _ rfl

/-- C03 for `EncryptionBase`. -/
theorem C03_encryptionBase_conforms (s : List Char) (hs : IsHex s) (hl : s.length = 64)
    (x : BitVec 64) :
    EncryptionBase.transform (LazyKey.ofString s) x =
      .ok (Spec.Magma.enc (BitVec.ofNat 256 (hexNat s)) x) := by
  have hv : (BlkRaw.ofU64 x).value .iso = .ok (x.extractLsb' 0 32, x.extractLsb' 32 32) := by
    rw [ofU64_eq]; rfl
  obtain ⟨c, h1, h2⟩ := C03_encrypt_conforms .iso s hs hl _ _ hv
  rw [C02_encryptors_agree .iso, h1, Exec.ok_bind, h2, join32_surj]

example : IsHex sampleKeyText ∧ sampleKeyText.length = 64 := by decide

/-! ### C04 -/

/-- C04. Under any key that answers, distinct blocks have distinct encryptions. -/
theorem C04_encrypt_injective (m : Machine) (key : Key) (h : Usable key) (x y : Blk)
    (hxy : (BlkEncrypted x (some key)).value m = (BlkEncrypted y (some key)).value m) :
    x.value m = y.value m := by
  have e : ∀ a b : Blk, a.value m = b.value m →
      (BlkDecrypted a (some key)).value m = (BlkDecrypted b (some key)).value m := by
    intro a b hab
    simp only [BlkDecrypted, Blk.value, hab]
  rw [← C01_decrypt_encrypt m key h x, ← C01_decrypt_encrypt m key h y]
  exact e _ _ hxy

example (m : Machine) := C04_encrypt_injective m _
  (LazyKey_ofString_computes (s := sampleKeyText) (by decide) (by decide)).usable (.raw 1 2) (BlkRaw.ofU64 3)

/-- C04. Every 64-bit value is the encryption of exactly one 64-bit value. -/
theorem C04_encrypt_bijective (m : Machine) (key : Key) (h : Usable key) (c : W32 × W32) :
    ∃ p : W32 × W32, (BlkEncrypted (BlkRaw.ofPair p) (some key)).value m = .ok c ∧
      ∀ q : W32 × W32, (BlkEncrypted (BlkRaw.ofPair q) (some key)).value m = .ok c → q = p := by
  obtain ⟨f, hf⟩ := h.computes
  refine ⟨decP f c, ?_, ?_⟩
  · rw [BlkEncrypted_value (v := decP f c) hf m rfl, encP_decP]
  · intro q hq
    rw [BlkEncrypted_value (v := q) hf m rfl] at hq
    rw [← Exec.ok.inj hq, decP_encP]

example (m : Machine) := C04_encrypt_bijective m _
  (LazyKey_ofString_computes (s := sampleKeyText) (by decide) (by decide)).usable (1, 2)

/-! ### C05 -/

/-- C05. `SboxNibble` over eight tables of 16 entries between 0 and 15 replaces every nibble by
the table entry that it selects. -/
theorem C05_nibble_substitution (p : Fin 8 → List Int) (hlen : ∀ i, (p i).length = 16)
    (hval : ∀ i, ∀ x ∈ p i, 0 ≤ x ∧ x < 16) (v : BitVec 32) :
    ∃ r, SboxNibble p v = .ok r ∧
      ∀ i, (p i)[(nibble v i).toNat]? = some ((nibble r i).toNat : Int) := by
  have hget : ∀ i (x : BitVec 4), (p i)[x.toNat]? =
      some (((BitVec.ofInt 4 ((p i).getD x.toNat 0)).toNat : Nat) : Int) := by
    intro i x
    have hx : x.toNat < (p i).length := by rw [hlen]; exact x.isLt
    have hv := hval i _ (List.getElem_mem hx)
    rw [List.getElem?_eq_getElem hx, List.getD_eq_getElem?_getD, List.getElem?_eq_getElem hx, Option.getD_some]
    congr 1
    rw [BitVec.toNat_ofInt]
    omega
  refine ⟨_, SboxNibble_eq (rows := fun i x => BitVec.ofInt 4 ((p i).getD x.toNat 0)) hget v, ?_⟩
  intro i
  rw [nibble_t, hget]

example : (∀ i, (SboxR3412.tables i).length = 16) ∧
    ∀ i, ∀ x ∈ SboxR3412.tables i, 0 ≤ x ∧ x < 16 := by decide

/-- C05. `SboxTwisted` rotates the result of the S-box it wraps left by 11 bits, and fails exactly
as that S-box fails. -/
theorem C05_twisted_rotation (sbox : Sbox) (v : BitVec 32) :
    SboxTwisted sbox v = (sbox v >>= fun r => .ok (r.rotateLeft 11)) := by
  cases h : sbox v with
  | ok r => rw [SboxTwisted_eq h]; rfl
  | throw e => simp [SboxTwisted, h]
  | ub u => simp [SboxTwisted, h]
  | diverge => simp [SboxTwisted, h]

/-- C05. `SboxR3412` never fails and is a bijection of 32-bit words. -/
theorem C05_r3412_bijection :
    (∀ v, ∃ r, SboxR3412 v = .ok r) ∧
    (∀ u v r, SboxR3412 u = .ok r → SboxR3412 v = .ok r → u = v) ∧
    ∀ r, ∃ v, SboxR3412 v = .ok r := by
  have rot : ∀ x y : BitVec 32, x.rotateLeft 11 = y.rotateLeft 11 → x = y := by
    intro x y h
    apply BitVec.eq_of_getLsbD_eq; intro n hn
    have := congrArg (fun z : BitVec 32 => z.getLsbD ((n + 11) % 32)) h
    simp only [BitVec.getLsbD_rotateLeft] at this
    by_cases hc : n < 21
    · have e : (n + 11) % 32 = n + 11 := by omega
      simpa [e, show ¬ (n + 11 < 11) by omega, show n + 11 < 32 by omega] using this
    · have e : (n + 11) % 32 = n - 21 := by omega
      simpa [e, show n - 21 < 11 by omega, show 21 + (n - 21) = n by omega] using this
  refine ⟨fun v => ⟨_, SboxR3412_eq v⟩, ?_, ?_⟩
  · intro u v r hu hv
    rw [SboxR3412_eq] at hu hv
    have h := rot _ _ ((Exec.ok.inj hu).trans (Exec.ok.inj hv).symm)
    apply nibble_ext
    intro i
    apply pi_injective i
    rw [← nibble_t Spec.Magma.pi, ← nibble_t Spec.Magma.pi, h]
  · intro r
    have hq : ∀ i, ∃ x, Spec.Magma.pi i x = nibble (r.rotateLeft 21) i :=
      fun i => pi_surjective i _
    obtain ⟨q, hq⟩ : ∃ q : Fin 8 → BitVec 4, ∀ i,
        Spec.Magma.pi i (q i) = nibble (r.rotateLeft 21) i :=
      ⟨fun i => (hq i).choose, fun i => (hq i).choose_spec⟩
    refine ⟨t (fun i _ => q i) 0, ?_⟩
    rw [SboxR3412_eq]
    have e : t Spec.Magma.pi (t (fun i _ => q i) 0) = r.rotateLeft 21 := by
      apply nibble_ext
      intro i
      rw [nibble_t, nibble_t, hq]
    rw [e]
    congr 1
    apply BitVec.eq_of_getLsbD_eq; intro n hn
    simp only [BitVec.getLsbD_rotateLeft]
    by_cases hc : n < 11
    · simp [hc, hn, show 21 + n < 32 by omega, show ¬ (21 + n < 21) by omega]
    · simp [hc, hn, show n - 11 < 21 by omega, show 11 + (n - 11) = n by omega]

/-! ### C06 -/

/-- C06. The packed 64-byte S-box computes the same word function as the eight unpacked nibble
tables. -/
theorem C06_packed_equals_nibble (uz : List Byte) (h : uz.length = 64) (v : BitVec 32) :
    SboxByte uz v = SboxNibble (unpacked uz) v := by
  rw [SboxByte_eq (by omega)]
  symm
  apply SboxNibble_eq
  intro i x
  have hx : x.toNat < 16 := x.isLt
  simp only [unpacked, List.getElem?_map, List.getElem?_range hx, Option.map_some, packedRows]
  congr 1
  generalize uz.getD (4 * x.toNat + i.val / 2) 0 = b
  have hb : b.toNat < 256 := b.isLt
  split
  · simp [BitVec.extractLsb'_toNat]
  · simp [BitVec.extractLsb'_toNat, Nat.shiftRight_eq_div_pow]; omega

example := C06_packed_equals_nibble (List.replicate 64 0x6c) (by decide) 0x12345678

/-- C06. Neither of them fails. -/
theorem C06_packed_total (uz : List Byte) (h : uz.length = 64) (v : BitVec 32) :
    ∃ r, SboxByte uz v = .ok r := ⟨_, SboxByte_eq (by omega) v⟩

example : (List.replicate 64 (0x6c : Byte)).length = 64 := by decide

end Goost.Props
