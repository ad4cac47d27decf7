import Verif.Lemmas.Imit
import Verif.Props.Ecb
import Verif.Props.Cfb
/-
Properties C29 – C36, C60: message authentication codes of gost89 and magma.

`fuel` bounds the number of iterations of the loop of `Imit::value` in the model; every theorem holds
for every sufficiently large bound.
-/
namespace Goost.Props
open Goost.Magma Spec Spec.Magma Spec.Modes
variable {W σ τ : Type}

/-! ### C29 -/

/-- C29. The value of `DataImit` is the MAC of GOST 28147-89: the 16-round transformation chained over
the blocks of the zero-padded message, from zero. -/
theorem C29_gost89_mac (m : Machine) (key : Key) (f : Fin 8 → BitVec 32 → BitVec 32)
    (h : Computes key f) (d : List Byte) :
    Gost89.DataImit.value m d (some key) =
      .ok (bytesOf64 (chain (macStep f) 0 (blocks64 (zeroPadded d)))) := by
  rw [DataImit_value_eq h, DataImit_pad_eq]

example (m : Machine) := C29_gost89_mac m _ _ sampleKey_computes (sampleData.take 19)

/-- C29 with a native key of eight words and a table of 64 packed bytes, as GOST 28147-89 has it. -/
theorem C29_native_key (m : Machine) (k : List (BitVec 32)) (hk : k.length = 8)
    (uz : List Byte) (hu : uz.length = 64) (d : List Byte) :
    Gost89.DataImit.value m d (some (LazyKey.ofNative k (SboxTwisted (SboxByte uz)))) =
      .ok (bytesOf64 (chain (macStep fun i => g (packedRows uz) (k.getD i.val 0)) 0
        (blocks64 (zeroPadded d)))) := by
  have h := LazyKey_ofNative_computes (kd := k) (by omega) (packed_total (uz := uz) (by omega))
  have e : (fun (i : Fin 8) (v : W32) => (t (packedRows uz) (v + k[i.val]'(by omega))).rotateLeft 11) =
      fun (i : Fin 8) => g (packedRows uz) (k.getD i.val 0) := by
    funext i v
    have : i.val < k.length := by omega
    simp [g, List.getD_eq_getElem?_getD, this]
  rw [← e]
  exact C29_gost89_mac m _ _ h d

example (m : Machine) := C29_native_key m [1, 2, 3, 4, 5, 6, 7, 8] rfl (List.replicate 64 0x6c) (by decide) sampleData

/-- The padded message consists of whole blocks, at least two, and is the message followed by
zeros. -/
theorem C29_padding (d : List Byte) :
    (zeroPadded d).length % 8 = 0 ∧ 16 ≤ (zeroPadded d).length ∧
      (zeroPadded d).take d.length = d ∧ ∀ x ∈ (zeroPadded d).drop d.length, x = 0 := by
  refine ⟨?_, ?_, ?_, ?_⟩
  · simp only [zeroPadded, List.length_append, List.length_replicate]; omega
  · simp only [zeroPadded, List.length_append, List.length_replicate]; omega
  · exact List.take_left' rfl
  · rw [zeroPadded, List.drop_left' rfl]
    exact fun x hx => List.eq_of_mem_replicate hx

example : Usable sampleGostKey := sampleGostKey_usable
example : zeroPadded [1, 2, 3] = [1, 2, 3, 0, 0, 0, 0, 0, 0, 0, 0, 0, 0, 0, 0, 0] := by decide

/-! ### C30 -/

/-- C30. Messages of whole blocks, at least two, that differ in exactly one block have different
values. -/
theorem C30_one_block_changes_mac (m : Machine) (key : Key) (h : Usable key)
    (before after : List Byte) (x y : List Byte) (hb : before.length % 8 = 0)
    (ha : after.length % 8 = 0) (hx : x.length = 8) (hy : y.length = 8)
    (h16 : 8 ≤ before.length + after.length) (hne : x ≠ y) :
    Gost89.DataImit.value m (before ++ x ++ after) (some key) ≠
      Gost89.DataImit.value m (before ++ y ++ after) (some key) := by
  obtain ⟨f, hf⟩ := h.computes
  intro e
  have hz : ∀ z : List Byte, z.length = 8 → blocks64 (zeroPadded (before ++ z ++ after)) =
      blocks64 before ++ block64 z :: blocks64 after := by
    intro z hz
    rw [zeroPadded_whole _ (by simp only [List.length_append]; omega)
        (by simp only [List.length_append]; omega), List.append_assoc,
      blocks64_append_whole hb, blocks64_append_whole (by omega), blocks64_eight hz]
    rfl
  rw [C29_gost89_mac m key f hf, C29_gost89_mac m key f hf, hz x hx, hz y hy] at e
  have e := bytesOf64_inj (Exec.ok.inj e)
  have := chain_change (fun _ _ => macStep_injective f) 0 _ _ e
  exact hne (block64_inj hx hy this)

example : let x : List Byte := sampleData.take 8; let y : List Byte := sampleData.drop 16
    x.length = 8 ∧ y.length = 8 ∧ x ≠ y ∧ 8 ≤ sampleData.length := by decide

/-! ### C31 -/

/-- C31. Zero bytes appended up to the padded length do not change the value. -/
theorem C31_zero_padding (m : Machine) (key : Key) (h : Usable key) (d : List Byte) (n : Nat)
    (hn : d.length + n ≤ 8 * max 2 ((d.length + 7) / 8)) :
    Gost89.DataImit.value m (d ++ List.replicate n 0) (some key) =
      Gost89.DataImit.value m d (some key) := by
  obtain ⟨f, hf⟩ := h.computes
  rw [C29_gost89_mac m key f hf, C29_gost89_mac m key f hf, zeroPadded_zeros d n hn]

example (m : Machine) := C31_zero_padding m _ sampleKey_computes.usable (sampleData.take 19) 5 (by decide)

/-- C31. A zero byte appended to a message that is not a whole number of blocks never changes the
value. -/
theorem C31_zero_byte (m : Machine) (key : Key) (h : Usable key) (d : List Byte)
    (hd : d.length % 8 ≠ 0) :
    Gost89.DataImit.value m (d ++ [0]) (some key) = Gost89.DataImit.value m d (some key) :=
  C31_zero_padding m key h d 1 (by omega)

example (m : Machine) := C31_zero_byte m _ sampleKey_computes.usable (sampleData.take 19) (by decide)

/-- C31, the bound is exact: a zero byte appended to a message of whole blocks, at least two, gives
the chain one more step. -/
theorem C31_zero_byte_after_whole (m : Machine) (key : Key) (f : Fin 8 → BitVec 32 → BitVec 32)
    (h : Computes key f) (d : List Byte) (hd : d.length % 8 = 0) (h16 : 16 ≤ d.length) :
    Gost89.DataImit.value m (d ++ [0]) (some key) =
      .ok (bytesOf64 (macStep f (chain (macStep f) 0 (blocks64 d)))) := by
  have e : zeroPadded (d ++ [0]) = d ++ List.replicate 8 0 := by
    have : 8 * max 2 (((d ++ [(0 : Byte)]).length + 7) / 8) - (d ++ [(0 : Byte)]).length = 7 := by
      simp only [List.length_append, List.length_cons, List.length_nil]; omega
    rw [zeroPadded, this, List.append_assoc]; rfl
  rw [C29_gost89_mac m key f h, e, blocks64_append_whole hd, blocks64_eight (a := List.replicate 8 0) rfl,
    chain_append]
  have : block64 (List.replicate 8 0) = 0 := by decide
  rw [this, chain_cons]; simp

example : ([1, 2, 3] : List Byte).length % 8 ≠ 0 := by decide
example : (sampleData.take 16).length % 8 = 0 ∧ 16 ≤ (sampleData.take 16).length := by decide

/-! ### C32 -/

/-- C32. On a processor that takes shift counts modulo 32 (x86), `Imit` over any source of a non-empty
message of whole blocks `p ‖ last` returns the MAC of GOST R 34.13-2015 with the block cipher of the
key. (On the abstract machine of ISO C++ the computation is undefined: C33.) -/
theorem C32_omac (key : Key) (f : Fin 8 → BitVec 32 → BitVec 32) (h : Computes key f)
    (rd : σ → Nat → Io W (List Byte × σ)) (s : σ) (w : W) (p : List (BitVec 64)) (last : BitVec 64)
    (hs : SuppliesBlocks rd s w (unblocks64 (p ++ [last]))) (fuel : Nat) (hf : p.length < fuel) :
    ∃ v w', Imit.value .x86 rd fuel s (some key) w = (.ok v, w') ∧
      join32 v = omac (encF f) (macK1 (encF f) 0x1b) p last := by
  have e : unblocks64 (p ++ [last]) = unblocks64 p ++ bytesOf64 last := by simp [unblocks64]
  rw [e] at hs
  obtain ⟨v, w', e, hv⟩ := Imit_value_x86 h rd s w p (bytesOf64 last) (bytesOf64_ne last) (by simp)
    hs fuel hf
  refine ⟨v, w', e, ?_⟩
  rw [hv, block64_bytesOf64, if_pos (by simp)]

example := C32_omac _ _ sampleKey_computes (memRead (W := Unit)) (unblocks64 ([1, 2] ++ [3])) () [1, 2] 3
  (memRead_supplies _ ()).blocks 3 (by decide)

/-- C32 with a key of 64 hexadecimal digits: the block cipher is that of GOST R 34.12-2015. -/
theorem C32_conforms (k : List Char) (hk : IsHex k) (hl : k.length = 64)
    (rd : σ → Nat → Io W (List Byte × σ)) (s : σ) (w : W) (p : List (BitVec 64)) (last : BitVec 64)
    (hs : SuppliesBlocks rd s w (unblocks64 (p ++ [last]))) (fuel : Nat) (hf : p.length < fuel) :
    let E := Spec.Magma.enc (BitVec.ofNat 256 (hexNat k))
    ∃ v w', Imit.value .x86 rd fuel s (some (LazyKey.ofString k)) w = (.ok v, w') ∧
      join32 v = omac E (macK1 E 0x1b) p last :=
  C32_omac _ _ (LazyKey_ofString_computes hk hl) rd s w p last hs fuel hf

example : SuppliesBlocks (memRead (W := Unit)) (unblocks64 ([1, 2, 3] ++ [4])) ()
    (unblocks64 ([1, 2, 3] ++ [4])) := (memRead_supplies _ ()).blocks

/-! ### C33 -/

/-- C33 is false of the code, for every key and every message: on the abstract machine of ISO C++ the
computation always ends in an out-of-range shift. -/
theorem C33_always_undefined (key : Key) (h : Usable key) (rd : σ → Nat → Io W (List Byte × σ))
    (s : σ) (w : W) (d : List Byte) (h0 : d ≠ []) (hs : SuppliesBlocks rd s w d) (fuel : Nat)
    (hf : d.length ≤ 8 * fuel) :
    ∃ w', Imit.value .iso rd fuel s (some key) w = (.ub .badShift, w') := by
  obtain ⟨f, hc⟩ := h.computes
  obtain ⟨p, tail, rfl, ht, ht8, -, -⟩ := split_message h0
  have : 0 < tail.length := List.length_pos_iff.2 ht
  simp only [List.length_append, unblocks64_length] at hf
  exact Imit_value_iso hc rd s w p tail ht ht8 hs fuel (by omega)

example := C33_always_undefined _ sampleKey_computes.usable (memRead (W := Unit)) sampleData () sampleData (by decide)
  (memRead_supplies _ ()).blocks 9 (by decide)

/-- C33, the empty message: the computation reads the first byte of an empty vector, on every
machine. -/
theorem C33_empty_message_undefined (m : Machine) (key : Option Key)
    (rd : σ → Nat → Io W (List Byte × σ)) (s : σ) (w : W) (hs : SuppliesBlocks rd s w [])
    (fuel : Nat) (hf : 0 < fuel) :
    ∃ w', Imit.value m rd fuel s key w = (.ub .oobRead, w') := by
  obtain ⟨R, h0, hR⟩ := hs
  obtain ⟨s1, w1, e1, -⟩ := hR s w _ h0
  obtain ⟨k, rfl⟩ : ∃ k, fuel = k + 1 := ⟨fuel - 1, by omega⟩
  refine ⟨w1, ?_⟩
  unfold Imit.value Imit.build
  rw [bind_assoc, Io.bind_run_ok e1]
  rfl

example (m : Machine) := C33_empty_message_undefined m (some (LazyKey.ofString sampleKeyText)) (memRead (W := Unit)) [] ()
  (memRead_supplies _ ()).blocks 9 (by decide)

/-- C33, the part that holds: on a processor that takes shift counts modulo 32 the computation
succeeds for every usable key and every non-empty message, whole blocks or not. -/
theorem C33_defined_on_x86_partial (key : Key) (h : Usable key)
    (rd : σ → Nat → Io W (List Byte × σ)) (s : σ) (w : W) (d : List Byte) (h0 : d ≠ [])
    (hs : SuppliesBlocks rd s w d) (fuel : Nat) (hf : d.length ≤ 8 * fuel) :
    ∃ v w', Imit.value .x86 rd fuel s (some key) w = (.ok v, w') := by
  obtain ⟨f, hc⟩ := h.computes
  obtain ⟨p, tail, rfl, ht, ht8, -, -⟩ := split_message h0
  have : 0 < tail.length := List.length_pos_iff.2 ht
  simp only [List.length_append, unblocks64_length] at hf
  obtain ⟨v, w', e, -⟩ := Imit_value_x86 hc rd s w p tail ht ht8 hs fuel (by omega)
  exact ⟨v, w', e⟩

example : SuppliesBlocks (memRead (W := Unit)) sampleData () sampleData :=
  (memRead_supplies _ ()).blocks

/-! ### C34 -/

/-- What the code does with a message that ends in a partial block of 1 … 7 bytes: the block is
filled up with zeros and masked with K₂. -/
theorem C34_partial_block_zero_padded (key : Key) (f : Fin 8 → BitVec 32 → BitVec 32)
    (h : Computes key f) (rd : σ → Nat → Io W (List Byte × σ)) (s : σ) (w : W)
    (p : List (BitVec 64)) (tail : List Byte) (ht : tail ≠ []) (ht8 : tail.length < 8)
    (hs : SuppliesBlocks rd s w (unblocks64 p ++ tail)) (fuel : Nat) (hf : p.length < fuel) :
    ∃ v w', Imit.value .x86 rd fuel s (some key) w = (.ok v, w') ∧
      join32 v = omac (encF f) (macK2 (encF f) 0x1b) p
        (block64 (tail ++ List.replicate (8 - tail.length) 0)) := by
  obtain ⟨v, w', e, hv⟩ := Imit_value_x86 h rd s w p tail ht (by omega) hs fuel hf
  refine ⟨v, w', e, ?_⟩
  rw [hv, block64_zeros, if_neg (by omega)]

example := C34_partial_block_zero_padded _ _ sampleKey_computes (memRead (W := Unit)) (unblocks64 [1, 2] ++ [3, 4, 5]) () [1, 2]
  [3, 4, 5] (by decide) (by decide) (memRead_supplies _ ()).blocks 3 (by decide)

/-- C34 is false of the code: a zero byte appended to a message ending in a partial block of 1 … 6
bytes never changes the MAC, whatever the key. -/
theorem C34_zero_byte_same_mac (key : Key) (h : Usable key) {W' σ' : Type}
    (rd : σ → Nat → Io W (List Byte × σ)) (s : σ) (w : W)
    (rd' : σ' → Nat → Io W' (List Byte × σ')) (s' : σ') (w' : W') (d : List Byte)
    (h1 : 1 ≤ d.length % 8) (h6 : d.length % 8 ≤ 6)
    (hs : SuppliesBlocks rd s w d) (hs' : SuppliesBlocks rd' s' w' (d ++ [0])) (fuel : Nat)
    (hf : d.length ≤ 8 * fuel) :
    ∃ v, (Imit.value .x86 rd fuel s (some key) w).1 = .ok v ∧
      (Imit.value .x86 rd' fuel s' (some key) w').1 = .ok v := by
  obtain ⟨f, hc⟩ := h.computes
  obtain ⟨p, tail, rfl, ht, ht8, -, -⟩ := split_message (d := d) (by rintro rfl; simp at h1)
  simp only [List.length_append, unblocks64_length] at h1 h6 hf
  have hl : tail.length < 7 := by omega
  obtain ⟨v, u, e, hv⟩ := Imit_value_x86 hc rd s w p tail ht (by omega) hs fuel (by omega)
  rw [List.append_assoc] at hs'
  obtain ⟨v', u', e', hv'⟩ := Imit_value_x86 hc rd' s' w' p (tail ++ [0]) (by simp)
    (by simp; omega) hs' fuel (by omega)
  have hb : block64 (tail ++ [0]) = block64 tail := block64_zeros tail 1
  rw [if_neg (by omega)] at hv
  rw [if_neg (by simp; omega), hb, ← hv] at hv'
  obtain rfl := join32_inj hv'
  exact ⟨v', by rw [e], by rw [e']⟩

/-- C34, the part that holds: messages of the same number of whole blocks followed by partial blocks of
the same length, that differ only in the partial block, have different MACs. -/
theorem C34_same_length_partial (key : Key) (h : Usable key) {W' σ' : Type}
    (rd : σ → Nat → Io W (List Byte × σ)) (s : σ) (w : W)
    (rd' : σ' → Nat → Io W' (List Byte × σ')) (s' : σ') (w' : W') (p : List (BitVec 64))
    (a b : List Byte) (ha : a ≠ []) (ha8 : a.length < 8) (hl : a.length = b.length) (hne : a ≠ b)
    (hs : SuppliesBlocks rd s w (unblocks64 p ++ a))
    (hs' : SuppliesBlocks rd' s' w' (unblocks64 p ++ b)) (fuel : Nat) (hf : p.length < fuel) :
    ∃ v v', (Imit.value .x86 rd fuel s (some key) w).1 = .ok v ∧
      (Imit.value .x86 rd' fuel s' (some key) w').1 = .ok v' ∧ v ≠ v' := by
  obtain ⟨f, hc⟩ := h.computes
  have hb : b ≠ [] := by
    rintro rfl
    exact ha (List.length_eq_zero_iff.1 hl)
  obtain ⟨v, u, e, hv⟩ := C34_partial_block_zero_padded key f hc rd s w p a ha ha8 hs fuel hf
  obtain ⟨v', u', e', hv'⟩ := C34_partial_block_zero_padded key f hc rd' s' w' p b hb (by omega) hs'
    fuel hf
  refine ⟨v, v', by rw [e], by rw [e'], ?_⟩
  rintro rfl
  rw [hv] at hv'
  have := omac_change (fun _ _ => encF_injective f) _ (l := p) (l' := []) rfl rfl hv'
  have := block64_inj (by simp; omega) (by simp; omega) this
  rw [hl] at this
  exact hne (List.append_cancel_right this)

example := C34_same_length_partial _ sampleKey_computes.usable (memRead (W := Unit)) (unblocks64 [1, 2] ++ [3, 4, 5]) ()
  (memRead (W := Unit)) (unblocks64 [1, 2] ++ [3, 4, 6]) () [1, 2] [3, 4, 5] [3, 4, 6] (by decide) (by decide) rfl (by decide)
  (memRead_supplies _ ()).blocks (memRead_supplies _ ()).blocks 3 (by decide)

/-- C34, the part that holds, exactly: messages with the same whole blocks, followed by partial blocks of
any two lengths from 1 to 7, have equal MACs exactly if the partial blocks are equal after both have been
filled up with zero bytes. -/
theorem C34_equal_macs_partial (key : Key) (h : Usable key) {W' σ' : Type}
    (rd : σ → Nat → Io W (List Byte × σ)) (s : σ) (w : W)
    (rd' : σ' → Nat → Io W' (List Byte × σ')) (s' : σ') (w' : W') (p : List (BitVec 64))
    (a b : List Byte) (ha : a ≠ []) (ha8 : a.length < 8) (hb : b ≠ []) (hb8 : b.length < 8)
    (hs : SuppliesBlocks rd s w (unblocks64 p ++ a))
    (hs' : SuppliesBlocks rd' s' w' (unblocks64 p ++ b)) (fuel : Nat) (hf : p.length < fuel) :
    ∃ v v', (Imit.value .x86 rd fuel s (some key) w).1 = .ok v ∧
      (Imit.value .x86 rd' fuel s' (some key) w').1 = .ok v' ∧
      (v = v' ↔ a ++ List.replicate (8 - a.length) 0 = b ++ List.replicate (8 - b.length) 0) := by
  obtain ⟨f, hc⟩ := h.computes
  obtain ⟨v, u, e, hv⟩ := C34_partial_block_zero_padded key f hc rd s w p a ha ha8 hs fuel hf
  obtain ⟨v', u', e', hv'⟩ := C34_partial_block_zero_padded key f hc rd' s' w' p b hb hb8 hs' fuel hf
  refine ⟨v, v', by rw [e], by rw [e'], ?_, fun he => join32_inj (by rw [hv, hv', he])⟩
  rintro rfl
  rw [hv] at hv'
  have := omac_change (fun _ _ => encF_injective f) _ (l := p) (l' := []) rfl rfl hv'
  exact block64_inj (by simp; omega) (by simp; omega) this

example : (sampleData.take 19).length % 8 = 3 := by decide
example : ∃ v, (Imit.value .x86 (memRead (W := Unit)) 9 (sampleData.take 19)
      (some (LazyKey.ofString sampleKeyText)) ()).1 = .ok v ∧
    (Imit.value .x86 (memRead (W := Unit)) 9 (sampleData.take 19 ++ [0])
      (some (LazyKey.ofString sampleKeyText)) ()).1 = .ok v :=
  C34_zero_byte_same_mac _ sampleKey_computes.usable _ _ _ _ _ _ _ (by decide) (by decide)
    (memRead_supplies _ ()).blocks (memRead_supplies _ ()).blocks 9 (by decide)

/-! ### C35 -/

/-- C35, on a processor that takes shift counts modulo 32: messages of the same number of whole blocks
that differ in exactly one block have different values. -/
theorem C35_one_block_changes_mac (key : Key) (h : Usable key) {W' σ' : Type}
    (rd : σ → Nat → Io W (List Byte × σ)) (s : σ) (w : W)
    (rd' : σ' → Nat → Io W' (List Byte × σ')) (s' : σ') (w' : W')
    (before after : List (BitVec 64)) (x y : BitVec 64) (hne : x ≠ y)
    (hs : SuppliesBlocks rd s w (unblocks64 (before ++ x :: after)))
    (hs' : SuppliesBlocks rd' s' w' (unblocks64 (before ++ y :: after))) (fuel : Nat)
    (hf : before.length + after.length < fuel) :
    ∃ v v', (Imit.value .x86 rd fuel s (some key) w).1 = .ok v ∧
      (Imit.value .x86 rd' fuel s' (some key) w').1 = .ok v' ∧ v ≠ v' := by
  obtain ⟨f, hc⟩ := h.computes
  have split : ∀ z : BitVec 64, ∃ p last, before ++ z :: after = p ++ [last] ∧
      p.length = before.length + after.length := by
    intro z
    rcases List.eq_nil_or_concat (before ++ z :: after) with h | ⟨p, last, h⟩
    · simp at h
    · rw [List.concat_eq_append] at h
      refine ⟨p, last, h, ?_⟩
      have := congrArg List.length h
      simp at this
      omega
  obtain ⟨p, last, hp, hpl⟩ := split x
  obtain ⟨q, last', hq, hql⟩ := split y
  rw [hp] at hs
  rw [hq] at hs'
  obtain ⟨v, u, e, hv⟩ := C32_omac key f hc rd s w p last hs fuel (by omega)
  obtain ⟨v', u', e', hv'⟩ := C32_omac key f hc rd' s' w' q last' hs' fuel (by omega)
  refine ⟨v, v', by rw [e], by rw [e'], ?_⟩
  rintro rfl
  rw [hv] at hv'
  exact hne (omac_change (fun _ _ => encF_injective f) _ hp.symm hq.symm hv')

example : ∃ v v', (Imit.value .x86 (memRead (W := Unit)) 9 (unblocks64 ([1, 2] ++ 3 :: [4]))
      (some (LazyKey.ofString sampleKeyText)) ()).1 = .ok v ∧
    (Imit.value .x86 (memRead (W := Unit)) 9 (unblocks64 ([1, 2] ++ 5 :: [4]))
      (some (LazyKey.ofString sampleKeyText)) ()).1 = .ok v' ∧ v ≠ v' :=
  C35_one_block_changes_mac _ sampleKey_computes.usable _ _ _ _ _ _ [1, 2] [4] 3 5
    (by decide) (memRead_supplies _ ()).blocks (memRead_supplies _ ()).blocks 9 (by decide)

/-! ### C36 -/

/-- C36 is false of the code: the block that is evaluated last is nested at least six levels deep for
every block of the message. -/
theorem C36_depth_grows (key : Key) (h : Usable key) (rd : σ → Nat → Io W (List Byte × σ))
    (s : σ) (w : W) (d : List Byte) (h0 : d ≠ []) (hs : SuppliesBlocks rd s w d) (fuel : Nat)
    (hf : d.length ≤ 8 * fuel) :
    ∃ b w', Imit.build rd fuel s (some key) w = (.ok b, w') ∧ 6 * ((d.length + 7) / 8) ≤ b.depth := by
  obtain ⟨f, hc⟩ := h.computes
  obtain ⟨p, tail, rfl, ht, ht8, -, -⟩ := split_message h0
  have : 0 < tail.length := List.length_pos_iff.2 ht
  simp only [List.length_append, unblocks64_length] at hf ⊢
  obtain ⟨block, v, w', e, -, -, hd⟩ := Imit_build_eq hc .x86 rd s w p tail ht ht8 hs fuel (by omega)
  refine ⟨_, w', e, ?_⟩
  simp only [BlkEncrypted, Blk.depth]
  omega

example := C36_depth_grows _ sampleKey_computes.usable (memRead (W := Unit)) sampleData () sampleData (by decide)
  (memRead_supplies _ ()).blocks 9 (by decide)

/-- C36, the part that holds: the depth is linear in the length of the message. -/
theorem C36_linear_depth_partial (key : Key) (h : Usable key) (rd : σ → Nat → Io W (List Byte × σ))
    (s : σ) (w : W) (d : List Byte) (h0 : d ≠ []) (hs : SuppliesBlocks rd s w d) (fuel : Nat)
    (hf : d.length ≤ 8 * fuel) :
    ∃ b w', Imit.build rd fuel s (some key) w = (.ok b, w') ∧
      b.depth ≤ 6 * ((d.length + 7) / 8) + 14 := by
  obtain ⟨f, hc⟩ := h.computes
  obtain ⟨p, tail, rfl, ht, ht8, -, -⟩ := split_message h0
  have : 0 < tail.length := List.length_pos_iff.2 ht
  simp only [List.length_append, unblocks64_length] at hf ⊢
  obtain ⟨block, v, w', e, -, -, hd⟩ := Imit_build_eq hc .x86 rd s w p tail ht ht8 hs fuel (by omega)
  refine ⟨_, w', e, ?_⟩
  have hk : (BlkImitFinalKey (some key) tail.length).depth ≤ 8 := by
    unfold BlkImitFinalKey
    split <;> simp [BlkEncrypted, Blk.depth, BlkRaw.zero, BlkRaw.ofU64]
  simp only [BlkEncrypted, Blk.depth]
  omega

example := C36_linear_depth_partial _ sampleKey_computes.usable (memRead (W := Unit)) sampleData () sampleData (by decide)
  (memRead_supplies _ ()).blocks 9 (by decide)

/-- C36, so no bound on the depth holds for all messages. -/
theorem C36_no_bound (key : Key) (h : Usable key) (bound : Nat) :
    ∃ (d : List Byte) (b : Blk), Imit.build (memRead (W := Unit)) (d.length + 1) d (some key) () =
      (.ok b, ()) ∧ bound < b.depth := by
  let d : List Byte := List.replicate (8 * bound + 8) 0
  have hl : d.length = 8 * bound + 8 := by simp [d]
  obtain ⟨b, ⟨⟩, e, hb⟩ := C36_depth_grows key h (memRead (W := Unit)) d () d
    (by intro e; rw [e] at hl; simp at hl) (memRead_supplies _ ()).blocks (d.length + 1) (by omega)
  exact ⟨d, b, e, by omega⟩

example : Usable (LazyKey.ofString sampleKeyText) := sampleKey_computes.usable

/-! ### C60 -/

/-- C60, the part that holds: on a processor that takes shift counts modulo 32, shifts by 1 … 31 are
right. -/
theorem C60_shift_partial (b : Blk) (v : BitVec 32 × BitVec 32) (hb : b.value .x86 = .ok v) (n : Nat)
    (h1 : 1 ≤ n) (h31 : n ≤ 31) :
    ∃ r, (Blk.shifted b n).value .x86 = .ok r ∧ join32 r = join32 v <<< n := by
  obtain ⟨r, hr, hj⟩ := shiftValue_x86 v n h1 h31
  exact ⟨r, by simp only [Blk.value, hb, Exec.ok_bind, hr], hj⟩

example := C60_shift_partial (.raw 0x12345678 0x9abcdef0) _ rfl 31 (by decide) (by decide)

/-- C60 is false of the code: on the abstract machine of ISO C++ every shift is undefined. -/
theorem C60_always_undefined (b : Blk) (v : BitVec 32 × BitVec 32) (hb : b.value .iso = .ok v)
    (n : Int) : (Blk.shifted b n).value .iso = .ub .badShift := by
  simp only [Blk.value, hb, Exec.ok_bind, shiftValue_iso]

example := C60_always_undefined (.raw 0x12345678 0x9abcdef0) _ rfl 1

/-- C60, shift by zero is wrong on a processor that takes shift counts modulo 32, for every block
whose low half has a bit that the high half lacks. -/
theorem C60_shift_by_zero_wrong (b : Blk) (v : BitVec 32 × BitVec 32) (hb : b.value .x86 = .ok v)
    (hv : v.2 ||| v.1 ≠ v.2) :
    ∃ r, (Blk.shifted b 0).value .x86 = .ok r ∧ join32 r ≠ join32 v := by
  refine ⟨(v.1, v.2 ||| v.1), ?_, ?_⟩
  · simp only [Blk.value, hb, Exec.ok_bind]
    simp [Magma.shiftValue, Machine.shl32, Machine.shr32, Machine.x86]
  · intro e
    exact hv (congrArg Prod.snd (join32_inj e))

example := C60_shift_by_zero_wrong (.raw 0x12345678 0x9abcdef0) _ rfl (by decide)

/-- C60, shift by 32 is wrong on a processor that takes shift counts modulo 32: the low half is kept
and added to the high half. -/
theorem C60_shift_by_32_wrong (b : Blk) (v : BitVec 32 × BitVec 32) (hb : b.value .x86 = .ok v)
    (hv : v.1 ≠ 0) :
    ∃ r, (Blk.shifted b 32).value .x86 = .ok r ∧ join32 r ≠ join32 v <<< 32 := by
  refine ⟨(v.1, v.2 ||| v.1), ?_, ?_⟩
  · simp only [Blk.value, hb, Exec.ok_bind]
    simp [Magma.shiftValue, Machine.shl32, Machine.shr32, Machine.x86]
  · intro e
    have : (join32 (v.1, v.2 ||| v.1)).extractLsb' 0 32 = (join32 v <<< 32).extractLsb' 0 32 := by
      rw [e]
    rw [join32, extract_append_low] at this
    apply hv
    rw [this]
    apply BitVec.eq_of_getLsbD_eq
    intro i hi
    simp [BitVec.getLsbD_shiftLeft, hi]

example : (Blk.raw 0x12345678 0x9abcdef0).value .x86 = .ok (0x12345678, 0x9abcdef0) := rfl
example : (0x9abcdef0#32 ||| 0x12345678 ≠ 0x9abcdef0) ∧ (0x12345678#32 ≠ 0) := by decide

/-- C60, what the code does for every count, also a negative one, on a processor that takes shift
counts modulo 32: it shifts the block by the remainder of the count modulo 32; only when the remainder
is zero it adds the low half to the high half. -/
theorem C60_every_count (b : Blk) (v : BitVec 32 × BitVec 32) (hb : b.value .x86 = .ok v) (n : Int) :
    (n % 32 = 0 → (Blk.shifted b n).value .x86 = .ok (v.1, v.2 ||| v.1)) ∧
    (n % 32 ≠ 0 →
      ∃ r, (Blk.shifted b n).value .x86 = .ok r ∧ join32 r = join32 v <<< (n % 32).toNat) := by
  constructor
  · intro h
    simp only [Blk.value, hb, Exec.ok_bind]
    rw [shiftValue_x86_mod, h]
    simp [Magma.shiftValue, Machine.shl32, Machine.shr32, Machine.x86]
  · intro h
    obtain ⟨r, hr, hj⟩ := shiftValue_x86 v (n % 32).toNat (by omega) (by omega)
    refine ⟨r, ?_, hj⟩
    simp only [Blk.value, hb, Exec.ok_bind]
    rw [shiftValue_x86_mod, ← hr]
    congr 1
    omega

example := (C60_every_count (.raw 0x12345678 0x9abcdef0) _ rfl 64).1 (by decide)
example := (C60_every_count (.raw 0x12345678 0x9abcdef0) _ rfl (-5)).2 (by decide)

/-- C60, shifts by 33 … 63 are wrong on such a processor for every block from which a shift by 32 less
leaves anything. -/
theorem C60_shift_over_32_wrong (b : Blk) (v : BitVec 32 × BitVec 32) (hb : b.value .x86 = .ok v)
    (n : Nat) (h33 : 33 ≤ n) (h63 : n ≤ 63) (hv : join32 v <<< (n - 32) ≠ 0) :
    ∃ r, (Blk.shifted b n).value .x86 = .ok r ∧ join32 r ≠ join32 v <<< n := by
  obtain ⟨r, hr, hj⟩ := (C60_every_count b v hb n).2 (by omega)
  refine ⟨r, hr, ?_⟩
  have hn : ((n : Int) % 32).toNat = n - 32 := by omega
  rw [hj, hn]
  intro e
  apply hv
  have e2 : join32 v <<< n = (join32 v <<< (n - 32)) <<< 32 := by
    rw [← BitVec.shiftLeft_add, Nat.sub_add_cancel (by omega)]
  rw [e2] at e
  have low : ∀ i, i < 32 → (join32 v <<< (n - 32)).getLsbD i = false := by
    intro i hi
    rw [e, BitVec.getLsbD_shiftLeft]
    simp [hi]
  apply BitVec.eq_of_getLsbD_eq
  intro i hi
  by_cases h : i < 32
  · rw [low i h]; simp
  · rw [e, BitVec.getLsbD_shiftLeft, low (i - 32) (by omega)]
    simp

example := C60_shift_over_32_wrong (.raw 0x12345678 0x9abcdef0) _ rfl 40 (by decide) (by decide)
  (by decide)

end Goost.Props
