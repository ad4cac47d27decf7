import Verif.Lemmas.KuzKey
import Verif.Lemmas.KuzCache
import Verif.Lemmas.Gf
/-
Properties C37 – C42 and C61: the cipher Kuznyechik and its keys.

`m.unalignedLoad` says that the processor allows 64-bit loads at any address. `BlkR` makes such
loads, so that nothing can be computed without (C61).
-/
namespace Goost.Props
open Goost.Kuz Spec

/-! ### C37 -/

/-- C37. With a key of 64 hexadecimal digits `BlkEncrypted` computes the cipher of the standard, for
every block that has a value. -/
theorem C37_conforms (m : Machine) (hm : m.unalignedLoad = true) (s : List Char) (hs : IsHex s)
    (hl : s.length = 64) (b : Blk) (v : W64 × W64) (hb : b.value m = .ok v) :
    ∃ key r, Key.ofString s = .ok key ∧ (BlkEncrypted b key).value m = .ok r ∧
      join64 r = Spec.Kuz.enc (BitVec.ofNat 256 (hexNat s)) (join64 v) := by
  obtain ⟨key, e1, r, e2, e3⟩ := ofString_value hm hs (by omega) 0 (b := b) ⟨v, hb, rfl⟩
  rw [key_of_halves hl] at e3
  exact ⟨key, r, e1, e2, e3⟩

/-- C37, with a key made from any two blocks (for example defined by the user). -/
theorem C37_conforms_any_key_data (m : Machine) (hm : m.unalignedLoad = true) (high low : Blk)
    (h l : W64 × W64) (hh : high.value m = .ok h) (hl : low.value m = .ok l) (b : Blk)
    (v : W64 × W64) (hb : b.value m = .ok v) :
    ∃ r, (BlkEncrypted b (Key.ofBlocks high low)).value m = .ok r ∧
      join64 r = Spec.Kuz.enc (join64 h ++ join64 l) (join64 v) :=
  encrypt_value hm ⟨h, hh, rfl⟩ ⟨l, hl, rfl⟩ 0 ⟨v, hb, rfl⟩

example := C37_conforms_any_key_data .x86 rfl (.raw 1 2) (.raw 3 4) _ _ rfl rfl (.raw 5 6) _ rfl

/-- C37. A block or a first half of the key whose evaluation throws makes the encryption throw the
same. -/
theorem C37_exceptions_pass (m : Machine) (b : Blk) (high low : Blk) (e : Exn)
    (h : b.value m = .throw e ∨ ((∃ v, b.value m = .ok v) ∧ high.value m = .throw e)) :
    (BlkEncrypted b (Key.ofBlocks high low)).value m = .throw e := by
  refine encrypt_bad (step_bad ?_ (by simp)) (by simp)
  rcases h with h | ⟨⟨v, hv⟩, h⟩
  · exact xored_bad_left h (by simp)
  · exact xored_bad hv h (by simp)

example (m : Machine) := C37_exceptions_pass m (.raw 5 6) (.str (List.replicate 32 'z')) (.raw 3 4) _ (.inr ⟨⟨_, rfl⟩, rfl⟩)

/-- C37. So does a second half of the key whose evaluation throws. -/
theorem C37_second_half_exception (m : Machine) (hm : m.unalignedLoad = true) (b high low : Blk)
    (v h : W64 × W64) (e : Exn) (hb : b.value m = .ok v) (hh : high.value m = .ok h)
    (hl : low.value m = .throw e) :
    (BlkEncrypted b (Key.ofBlocks high low)).value m = .throw e := by
  obtain ⟨r, hr, _⟩ := HasValue.lsx hm (b := b) (k := .cached 1 high) ⟨v, hb, rfl⟩ ⟨h, hh, rfl⟩
  exact encrypt_bad2 (key := Key.ofBlocks high low) hr hl (by simp)

example : (Blk.str (List.replicate 32 'z')).value .x86 = .throw .invalidArgument ∧
    (Blk.raw 1 2).value .x86 = .ok (1, 2) := by decide

/-- The key of the standard's example. -/
def kuzKeyText : List Char :=
  "8899aabbccddeeff0011223344556677fedcba98765432100123456789abcdef".toList

example : IsHex kuzKeyText ∧ kuzKeyText.length = 64 ∧ Machine.x86.unalignedLoad = true ∧
    (Blk.raw 0xffeeddccbbaa9988 0x1122334455667700).value .x86 =
      .ok (0xffeeddccbbaa9988, 0x1122334455667700) := by decide

/-! ### C38 -/

/-- C38. The block can be computed back from its encryption, by the inverse cipher of the standard. -/
theorem C38_decryptable (m : Machine) (hm : m.unalignedLoad = true) (high low : Blk)
    (h l : W64 × W64) (hh : high.value m = .ok h) (hl : low.value m = .ok l) (b : Blk)
    (v : W64 × W64) (hb : b.value m = .ok v) :
    ∃ r, (BlkEncrypted b (Key.ofBlocks high low)).value m = .ok r ∧
      Spec.Kuz.dec (join64 h ++ join64 l) (join64 r) = join64 v := by
  obtain ⟨r, e1, e2⟩ := C37_conforms_any_key_data m hm high low h l hh hl b v hb
  exact ⟨r, e1, by rw [e2]; exact decWith_encWith _ _⟩

example := C38_decryptable .x86 rfl (.raw 1 2) (.raw 3 4) _ _ rfl rfl (.raw 5 6) _ rfl

/-- C38. Distinct blocks have distinct encryptions under one key. -/
theorem C38_injective (m : Machine) (hm : m.unalignedLoad = true) (high low : Blk)
    (h l : W64 × W64) (hh : high.value m = .ok h) (hl : low.value m = .ok l) (a b : Blk)
    (v w : W64 × W64) (ha : a.value m = .ok v) (hb : b.value m = .ok w)
    (e : (BlkEncrypted a (Key.ofBlocks high low)).value m =
      (BlkEncrypted b (Key.ofBlocks high low)).value m) : v = w := by
  obtain ⟨r, e1, e2⟩ := C38_decryptable m hm high low h l hh hl a v ha
  obtain ⟨r', e1', e2'⟩ := C38_decryptable m hm high low h l hh hl b w hb
  rw [e1, e1'] at e
  have := Exec.ok.inj e
  subst this
  exact join64_inj (e2.symm.trans e2')

example (a b : BitVec 64) := C38_injective .x86 rfl (.raw 1 2) (.raw 3 4) _ _ rfl rfl (.raw a b) (.str "0".toList) _ _ rfl rfl

/-- C38. Every 128-bit value is the encryption of exactly one. -/
theorem C38_bijective (m : Machine) (hm : m.unalignedLoad = true) (high low : Blk)
    (h l : W64 × W64) (hh : high.value m = .ok h) (hl : low.value m = .ok l) (c : W64 × W64) :
    ∃ p : W64 × W64, (BlkEncrypted (BlkRaw.ofPair p) (Key.ofBlocks high low)).value m = .ok c ∧
      ∀ q : W64 × W64, (BlkEncrypted (BlkRaw.ofPair q) (Key.ofBlocks high low)).value m = .ok c →
        q = p := by
  have hsplit : ∀ x : BitVec 128, ∃ p : W64 × W64, join64 p = x := by
    intro x
    refine ⟨(x.extractLsb' 0 64, x.extractLsb' 64 64), ?_⟩
    unfold join64
    apply BitVec.eq_of_getLsbD_eq
    intro i hi
    rw [BitVec.getLsbD_append]
    by_cases h : i < 64
    · simp [h]
    · simp [h, show i - 64 < 64 by omega, show 64 + (i - 64) = i by omega]
  obtain ⟨p, hp⟩ := hsplit (Spec.Kuz.dec (join64 h ++ join64 l) (join64 c))
  have key : (BlkEncrypted (BlkRaw.ofPair p) (Key.ofBlocks high low)).value m = .ok c := by
    obtain ⟨r, e1, e2⟩ := C37_conforms_any_key_data m hm high low h l hh hl (BlkRaw.ofPair p) p rfl
    rw [hp] at e2
    rw [e1, join64_inj (e2.trans (encWith_decWith _ _))]
  exact ⟨p, key, fun q hq =>
    C38_injective m hm high low h l hh hl _ _ q p rfl rfl (hq.trans key.symm)⟩

example : (Blk.raw 5 6).value .x86 = .ok (5, 6) ∧
    (Blk.str kuzKeyText.reverse).value .x86 ≠ (Blk.raw 5 6).value .x86 := by decide

/-! ### C39 -/

/-- C39. The product of bytes in `BlkR` is the product of the polynomials modulo
x⁸ + x⁷ + x⁶ + x + 1 over GF(2), bytes being polynomials by their bits. -/
theorem C39_gmul_is_field_multiplication (a b : BitVec 8) :
    Gf.poly (gmul a b) = (Gf.poly a * Gf.poly b) %ₘ Gf.modulus := poly_gmul a b

/-- C39. Different bytes are different polynomials, their sum is the exclusive or, and the
coefficient of `xⁿ` is bit `n`, so that the theorem above determines `gmul`. -/
theorem C39_bytes_are_polynomials (a b : BitVec 8) :
    (Gf.poly a = Gf.poly b → a = b) ∧ Gf.poly (a ^^^ b) = Gf.poly a + Gf.poly b ∧
      ∀ n, (Gf.poly a).coeff n = if a.getLsbD n then 1 else 0 :=
  ⟨poly_injective, poly_xor a b, poly_coeff a⟩

/-- C39. The computable product that the specification of the cipher uses is the same. -/
theorem C39_gmul_is_spec_product (a b : BitVec 8) : gmul a b = Spec.Kuz.gfMul a b :=
  gmul_eq_gfMul a b

/-- C39. It is a field: every byte but 0 has an inverse. -/
theorem C39_inverse (a : BitVec 8) (h : a ≠ 0) : ∃ b, gmul a b = 1 := by
  rcases gmul_inverse a with h' | h'
  · exact absurd h' h
  · exact ⟨_, h'⟩

example : gmul 0x94 0x20 = 0xa8 ∧ gmul 2 0x80 = 0xc3 := by decide

/-! ### C40 -/

/-- C40. `BlkS` is the substitution of the standard and is invertible. -/
theorem C40_S (m : Machine) (b : Blk) (v : W64 × W64) (hb : b.value m = .ok v) :
    ∃ r, (Blk.blkS b).value m = .ok r ∧ join64 r = Spec.Kuz.S (join64 v) ∧
      Spec.Kuz.Sinv (join64 r) = join64 v := by
  obtain ⟨r, e1, e2⟩ := HasValue.blkS (m := m) (b := b) ⟨v, hb, rfl⟩
  exact ⟨r, e1, e2, by rw [e2, Sinv_S]⟩

example (m : Machine) := C40_S m (.raw 5 6) _ rfl

/-- C40. `BlkR` is the linear step of the standard and is invertible. -/
theorem C40_R (m : Machine) (hm : m.unalignedLoad = true) (b : Blk) (v : W64 × W64)
    (hb : b.value m = .ok v) :
    ∃ r, (Blk.blkR b).value m = .ok r ∧ join64 r = Spec.Kuz.R (join64 v) ∧
      Spec.Kuz.Rinv (join64 r) = join64 v := by
  obtain ⟨r, e1, e2⟩ := HasValue.blkR hm (b := b) ⟨v, hb, rfl⟩
  exact ⟨r, e1, e2, by rw [e2, Rinv_R]⟩

example := C40_R .x86 rfl (.raw 5 6) _ rfl

/-- C40. `BlkL` is the linear transformation of the standard and is invertible. -/
theorem C40_L (m : Machine) (hm : m.unalignedLoad = true) (b : Blk) (v : W64 × W64)
    (hb : b.value m = .ok v) :
    ∃ r, (BlkL b).value m = .ok r ∧ join64 r = Spec.Kuz.L (join64 v) ∧
      Spec.Kuz.Linv (join64 r) = join64 v := by
  obtain ⟨r, e1, e2⟩ := HasValue.blkL hm (b := b) ⟨v, hb, rfl⟩
  exact ⟨r, e1, e2, by rw [e2, Linv_L]⟩

example := C40_L .x86 rfl (.raw 5 6) _ rfl

/-- C40. `BlkR` and `BlkL` commute with the exclusive or of blocks. -/
theorem C40_linear (m : Machine) (hm : m.unalignedLoad = true) (a b : Blk) (v w : W64 × W64)
    (ha : a.value m = .ok v) (hb : b.value m = .ok w) :
    (Blk.blkR (.xored a b)).value m = (Blk.xored (.blkR a) (.blkR b)).value m ∧
      (BlkL (.xored a b)).value m = (Blk.xored (BlkL a) (BlkL b)).value m := by
  have A : HasValue m a (join64 v) := ⟨v, ha, rfl⟩
  have B : HasValue m b (join64 w) := ⟨w, hb, rfl⟩
  have go : ∀ {p q : Blk} {x y : Spec.Kuz.Block}, HasValue m p x → HasValue m q y → x = y →
      p.value m = q.value m := by
    rintro p q x y ⟨r, e1, e2⟩ ⟨r', e1', e2'⟩ rfl
    rw [e1, e1', join64_inj (e2.trans e2'.symm)]
  exact ⟨go ((A.xored B).blkR hm) ((A.blkR hm).xored (B.blkR hm)) (R_xor _ _),
    go ((A.xored B).blkL hm) ((A.blkL hm).xored (B.blkL hm)) (L_xor _ _)⟩

/-- The example of the standard for `R` (GOST R 34.12-2015, A.1.2). -/
example : (Blk.blkR (.raw 0x0000000000000100 0x0000000000000000)).value .x86 =
    .ok (0x0000000000000001, 0x9400000000000000) := by decide +kernel

/-! ### C41 -/

/-- C41. Any system of blocks and caches, any history of evaluations: every evaluation returns what it
would return if no cache were loaded. -/
theorem C41_caches_unobservable (m : Machine) (own : Nat → Blk) (hist : List Blk)
    (ho : ∀ b ∈ hist, Owned own b) :
    (runCalls (fun (b : Blk) c => b.valueS m c) hist noneLoaded).1 =
      hist.map fun b => (b.valueS m noneLoaded).1 := by
  rw [history_eq hist ho (consistent_none m own)]
  apply List.map_congr_left
  intro b hb
  exact (valueS_eq b (ho b hb) (consistent_none m own)).1.symm

example (m : Machine) := C41_caches_unobservable m (fun _ => .raw 1 2)
  [.cached 3 (.raw 1 2), .xored (.cached 3 (.raw 1 2)) (.cached 4 (.raw 1 2))] (by simp [Owned])

/-- C41 for a key: any history of encryptions, of blocks without caches of their own, with one key.
Every one returns what it would return with a fresh key. -/
theorem C41_key_history (m : Machine) (high low : Blk) (hh : Plain high) (hl : Plain low)
    (blocks : List Blk) (hb : ∀ b ∈ blocks, Plain b) :
    (runCalls (fun b c => (BlkEncrypted b (Key.ofBlocks high low)).valueS m c) blocks
      noneLoaded).1 =
      blocks.map fun b => ((BlkEncrypted b (Key.ofBlocks high low)).valueS m noneLoaded).1 := by
  have h := C41_caches_unobservable m (keyOwn (Key.ofBlocks high low) 0 fun _ => high)
    (blocks.map fun b => BlkEncrypted b (Key.ofBlocks high low)) (by
      intro b hb'
      obtain ⟨p, hp, rfl⟩ := List.mem_map.1 hb'
      exact Owned.encrypted 0 hh.owned hl.owned (hb p hp).owned)
  rw [List.map_map] at h
  refine Eq.trans ?_ h
  exact congrArg Prod.fst (runCalls_map (fun (b : Blk) c => b.valueS m c)
    (fun b => BlkEncrypted b (Key.ofBlocks high low)) blocks noneLoaded)

example (m : Machine) := C41_key_history m (.raw 1 2) (.raw 3 4) trivial trivial [.raw 5 6, .raw 7 8, .str "z".toList]
  (by simp [Plain])

/-- C41. What the model of the rest of the library uses for the value of a block is what an evaluation
with caches returns. -/
theorem C41_value_is_cached_value (m : Machine) (own : Nat → Blk) (b : Blk) (ho : Owned own b) :
    (b.valueS m noneLoaded).1 = b.value m := (valueS_eq b ho (consistent_none m own)).1

example (m : Machine) := C41_value_is_cached_value m (fun _ => .raw 1 2) (.xored (.cached 3 (.raw 1 2)) (.cached 3 (.raw 1 2)))
  (by simp [Owned])

/-- C41. Over any wrapped block (with hidden state, so that its answers may change from call to call)
and for any history of `value()` calls of one `BlkCached`, the results and the state of the wrapped
block are those of the ideal memo: it is asked until the first success and never after. -/
theorem C41_blkcached_is_memo {Ω : Type} (block : Ω → Exec (W64 × W64) × Ω) (o : Ω)
    (hist : List Unit) :
    let real := runCalls (fun _ s => BlkCached.value block s.1 s.2) hist ({}, o)
    let ideal := runCalls (fun _ s => memo block s) hist (none, o)
    real.1 = ideal.1 ∧ real.2.2 = ideal.2.2 := BlkCached_history block hist none {} o rfl

/-- A wrapped block that throws at the first call and then counts. -/
example : runCalls (fun _ s => BlkCached.value
      (fun (o : Nat) => (if o = 0 then .throw (.user 1) else .ok (BitVec.ofNat 64 o, 7), o + 1))
      s.1 s.2) [(), (), ()] ({}, 0) =
    ([.throw (.user 1), .ok (1, 7), .ok (1, 7)], ⟨true, (1, 7)⟩, 2) := by decide

/-- A cache shared by two blocks: the second evaluation finds it loaded. -/
example : Owned (fun _ => .raw 1 2) (.xored (.cached 3 (.raw 1 2)) (.cached 3 (.raw 1 2))) ∧
    Plain (.blkS (.str kuzKeyText)) := by
  simp [Owned, Plain]

/-! ### C42 -/

/-- C42 is false of the code: every text of at least 32 hexadecimal digits is accepted, whatever its
length. Digits missing on the right are taken as zeros on the left of the second half, digits after
the 64th are ignored. -/
theorem C42_any_length_accepted (m : Machine) (hm : m.unalignedLoad = true) (s : List Char)
    (hs : IsHex s) (hl : 32 ≤ s.length) (b : Blk) (v : W64 × W64) (hb : b.value m = .ok v) :
    ∃ key r, Key.ofString s = .ok key ∧ (BlkEncrypted b key).value m = .ok r ∧
      join64 r = Spec.Kuz.enc (BitVec.ofNat 128 (hexNat (s.take 32)) ++
        BitVec.ofNat 128 (hexNat ((s.drop 32).take 32))) (join64 v) := by
  obtain ⟨key, e1, r, e2, e3⟩ := ofString_value hm hs hl 0 (b := b) ⟨v, hb, rfl⟩
  exact ⟨key, r, e1, e2, e3⟩

example := C42_any_length_accepted .x86 rfl (kuzKeyText.take 40) (by decide) (by decide) (.raw 5 6) _ rfl

/-- C42 is false of the code, witness: 32 digits are a key, the same as with 32 zeros after them. -/
theorem C42_half_key_accepted (m : Machine) (hm : m.unalignedLoad = true) (s : List Char)
    (hs : IsHex s) (hl : s.length = 32) (b : Blk) (v : W64 × W64) (hb : b.value m = .ok v) :
    ∃ key key' r, Key.ofString s = .ok key ∧ Key.ofString (s ++ List.replicate 32 '0') = .ok key' ∧
      (BlkEncrypted b key).value m = .ok r ∧ (BlkEncrypted b key').value m = .ok r := by
  have h0 : IsHex (s ++ List.replicate 32 '0') := by
    intro c hc
    rcases List.mem_append.1 hc with h | h
    · exact hs c h
    · rw [(List.mem_replicate.1 h).2]; rfl
  obtain ⟨key, r, e1, e2, e3⟩ := C42_any_length_accepted m hm s hs (by omega) b v hb
  obtain ⟨key', r', e1', e2', e3'⟩ :=
    C42_any_length_accepted m hm (s ++ List.replicate 32 '0') h0 (by simp) b v hb
  have t1 : (s ++ List.replicate 32 '0').take 32 = s := by
    rw [List.take_append_of_le_length (by omega), List.take_of_length_le (by omega)]
  have t2 : ((s ++ List.replicate 32 '0').drop 32).take 32 = List.replicate 32 '0' := by
    rw [show 32 = s.length by omega, List.drop_left]; simp [hl]
  have t3 : s.take 32 = s := List.take_of_length_le (by omega)
  have t4 : s.drop 32 = [] := List.drop_of_length_le (by omega)
  rw [t1, t2] at e3'
  rw [t3, t4] at e3
  have : hexNat (List.replicate 32 '0') = hexNat (([] : List Char).take 32) := by decide
  rw [this] at e3'
  refine ⟨key, key', r, e1, e1', e2, ?_⟩
  rw [e2', join64_inj (e3'.trans e3.symm)]

example := C42_half_key_accepted .x86 rfl (kuzKeyText.take 32) (by decide) (by decide) (.raw 5 6) _ rfl

/-- C42 is false of the code, witness: in each quarter of the key text everything from the first
character on that is not a digit is ignored, so that this text is the key 1 … 1. -/
theorem C42_garbage_accepted (m : Machine) (hm : m.unalignedLoad = true) (b : Blk) (v : W64 × W64)
    (hb : b.value m = .ok v) :
    ∃ key r, Key.ofString (List.replicate 4 "1, not a number!".toList).flatten = .ok key ∧
      (BlkEncrypted b key).value m = .ok r ∧
      join64 r = Spec.Kuz.enc (BitVec.ofNat 256 (2 ^ 192 + 2 ^ 128 + 2 ^ 64 + 1)) (join64 v) := by
  refine ⟨Key.ofBlocks (.str "1, not a number!1, not a number!".toList)
    (.str "1, not a number!1, not a number!".toList), ?_⟩
  have hh : (Blk.str "1, not a number!1, not a number!".toList).value m = .ok (1, 1) := by
    simp only [Blk.value]
    decide
  obtain ⟨r, e1, e2⟩ := C37_conforms_any_key_data m hm _ _ (1, 1) (1, 1) hh hh b v hb
  exact ⟨r, by rfl, e1, by rw [e2]; congr 1⟩

example := C42_garbage_accepted .x86 rfl (.raw 5 6) _ rfl

/-- What is true of C42: a text shorter than 32 characters is rejected when the key is constructed,
and no other. -/
theorem C42_short_text_rejected_partial (s : List Char) :
    (s.length < 32 → Key.ofString s = .throw .outOfRange) ∧
      (32 ≤ s.length → ∃ key, Key.ofString s = .ok key) := by
  constructor
  · intro h
    simp [Key.ofString, KeyDataString.high, KeyDataString.low, substr, show ¬ 32 ≤ s.length by omega]
  · intro h
    refine ⟨Key.ofBlocks (.str (s.take 32)) (.str ((s.drop 32).take 32)), ?_⟩
    simp [Key.ofString, KeyDataString.high, KeyDataString.low, substr, h]

/-- What is true of C42: if one of the four quarters of a text of 64 characters begins with a character
that is not a digit, a sign or white space, then every use of the key throws. Missing: other
malformed texts, see `C42_garbage_accepted`, and other lengths, see `C42_any_length_accepted`. -/
theorem C42_unreadable_quarter_rejected_partial (m : Machine) (hm : m.unalignedLoad = true)
    (s : List Char) (hl : s.length = 64) (i : Nat) (hi : i < 4) (c : Char)
    (hc : s[16 * i]? = some c) (h1 : hexDigit c = none) (h2 : isSpaceC c = false)
    (h3 : c ≠ '+') (h4 : c ≠ '-') (b : Blk) (v : W64 × W64) (hb : b.value m = .ok v) :
    ∃ key e, Key.ofString s = .ok key ∧ (BlkEncrypted b key).value m = .throw e := by
  refine ⟨Key.ofBlocks (.str (s.take 32)) (.str ((s.drop 32).take 32)), ?_⟩
  have hk : Key.ofString s = .ok (Key.ofBlocks (.str (s.take 32)) (.str ((s.drop 32).take 32))) := by
    simp [Key.ofString, KeyDataString.high, KeyDataString.low, substr, hl]
  have hlow : (s.drop 32).take 32 = s.drop 32 := List.take_of_length_le (by simp; omega)
  have high_reads : (∃ x, (Blk.str (s.take 32)).value m = .ok x) ∨
      ∃ e, (Blk.str (s.take 32)).value m = .throw e := by
    rw [str_value_long m (by simp; omega)]
    rcases stoull16_throw ((s.take 32).drop 16) with ⟨x, e⟩ | ⟨x, e⟩
    · rcases stoull16_throw ((s.take 32).take 16) with ⟨y, e'⟩ | ⟨y, e'⟩
      · rw [e, e']; exact Or.inl ⟨_, rfl⟩
      · rw [e, e']; exact Or.inr ⟨_, rfl⟩
    · rw [e]; exact Or.inr ⟨_, rfl⟩
  rcases high_reads with ⟨x, hx⟩ | ⟨e, he⟩
  · have hlow_bad : ∃ e, (Blk.str ((s.drop 32).take 32)).value m = .throw e := by
      by_cases h : i < 2
      · obtain ⟨e, he⟩ := str_reject m (s := s.take 32) (by simp; omega) i h c
          (by rw [List.getElem?_take_of_lt (by omega)]; exact hc) h1 h2 h3 h4
        rw [hx] at he; cases he
      · rw [hlow]
        exact str_reject m (s := s.drop 32) (by simp; omega) (i - 2) (by omega) c
          (by rw [List.getElem?_drop, show 32 + 16 * (i - 2) = 16 * i by omega]; exact hc)
          h1 h2 h3 h4
    obtain ⟨e, he⟩ := hlow_bad
    have hstep : ∃ r, (Key.encryptStep b (Key.ofBlocks (.str (s.take 32))
        (.str ((s.drop 32).take 32))).k1).value m = .ok r := by
      obtain ⟨r, e1, _⟩ := HasValue.lsx hm (b := b) (k := .cached 1 (.str (s.take 32)))
        ⟨v, hb, rfl⟩ ⟨x, hx, rfl⟩
      exact ⟨r, e1⟩
    obtain ⟨r, hr⟩ := hstep
    exact ⟨e, hk, encrypt_bad2 hr he (by simp)⟩
  · exact ⟨e, hk, C37_exceptions_pass m b _ _ e (Or.inr ⟨⟨v, hb⟩, he⟩)⟩

example : IsHex (kuzKeyText.take 40) ∧ (kuzKeyText.take 40).length = 40 ∧
    ((List.replicate 4 "xyz0000000000000".toList).flatten).length = 64 ∧
    hexDigit 'x' = none ∧ isSpaceC 'x' = false := by decide

/-! ### C61 -/

/-- C61 is false of the code: on a machine that does not allow loads at unaligned addresses (as the
language does not) every encryption is undefined. -/
theorem C61_misaligned_load (m : Machine) (hm : m.unalignedLoad = false) (b high low : Blk)
    (v h : W64 × W64) (hb : b.value m = .ok v) (hh : high.value m = .ok h) :
    (BlkEncrypted b (Key.ofBlocks high low)).value m = .ub .misaligned := by
  refine encrypt_bad ?_ (by simp)
  obtain ⟨w, hw, _⟩ := HasValue.blkS (HasValue.xored (m := m) (a := b)
    (b := .cached 1 high) ⟨v, hb, rfl⟩ ⟨h, hh, rfl⟩)
  exact blkL_misaligned hm hw

example := C61_misaligned_load .iso rfl (.raw 5 6) (.raw 1 2) (.raw 3 4) _ _ rfl rfl

/-- What is true of C61: on machines that allow such loads an encryption is not undefined if the
evaluation of the block and of the two halves of the key is not. Missing: other machines, see
`C61_misaligned_load`. -/
theorem C61_no_undefined_behaviour_partial (m : Machine) (hm : m.unalignedLoad = true)
    (b high low : Blk) (hb : ∀ u, b.value m ≠ .ub u) (hh : ∀ u, high.value m ≠ .ub u)
    (hl : ∀ u, low.value m ≠ .ub u) (u : UB) :
    (BlkEncrypted b (Key.ofBlocks high low)).value m ≠ .ub u :=
  NoUb.encrypted hm hh hl 0 hb u

example := C61_no_undefined_behaviour_partial .x86 rfl (.raw 5 6) (.raw 1 2) (.str (List.replicate 32 'z'))
  (fun _ => nofun) (fun _ => nofun) (by
    intro u h
    have : (Blk.str (List.replicate 32 'z')).value .x86 = .throw .invalidArgument := by decide
    rw [this] at h
    cases h)

/-- What is true of C61: with a key from any text at all, encrypting any readable or unreadable
hexadecimal text is not undefined on machines that allow such loads. -/
theorem C61_texts_partial (m : Machine) (hm : m.unalignedLoad = true) (key_text block_text : List Char)
    (u : UB) :
    (Key.ofString key_text >>= fun key => (BlkEncrypted (.str block_text) key).value m) ≠ .ub u := by
  rcases Nat.lt_or_ge key_text.length 32 with h | h
  · rw [(C42_short_text_rejected_partial key_text).1 h]; simp
  · have hk : Key.ofString key_text = .ok (Key.ofBlocks (.str (key_text.take 32))
        (.str ((key_text.drop 32).take 32))) := by
      simp [Key.ofString, KeyDataString.high, KeyDataString.low, substr, h]
    rw [hk, Exec.ok_bind]
    exact NoUb.encrypted hm (NoUb.str m _) (NoUb.str m _) 0 (NoUb.str m _) u

example : Machine.iso.unalignedLoad = false ∧ Machine.x86.unalignedLoad = true := by decide

/-- The key of the standard's example and a block. -/
example := C37_conforms .x86 rfl kuzKeyText (by decide) (by decide) (.raw 5 6) _ rfl

end Goost.Props
