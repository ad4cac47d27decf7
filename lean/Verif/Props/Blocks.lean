import Verif.Lemmas.Blocks
import Verif.Spec.Modes
/-
Properties C43 and C52 – C55: blocks made of text, raw words, sums, shifts and increments.
-/
namespace Goost.Props
open Spec

/-! ### C43 -/

/-- C43. `BlkIncremented` adds one modulo 2^128. -/
theorem C43_increment (m : Machine) (b : Kuz.Blk) (v : W64 × W64) (h : b.value m = .ok v) :
    ∃ r, (Kuz.Blk.incremented b).value m = .ok r ∧ join64 r = join64 v + 1 :=
  ⟨Kuz.incValue v, by simp [Kuz.Blk.value, h], Kuz.incValue_eq v⟩

example (m : Machine) := C43_increment m (.raw 0xffffffffffffffff 5) _ rfl

/-- C43. `n` increments add `n`. -/
theorem C43_increment_many (m : Machine) (b : Kuz.Blk) (v : W64 × W64) (h : b.value m = .ok v)
    (n : Nat) :
    ∃ r, (Nat.repeat Kuz.Blk.incremented n b).value m = .ok r ∧
      join64 r = join64 v + BitVec.ofNat 128 n := by
  induction n with
  | zero => exact ⟨v, h, by simp⟩
  | succ n ih =>
    obtain ⟨r, h1, h2⟩ := ih
    obtain ⟨r', h3, h4⟩ := C43_increment m _ r h1
    refine ⟨r', h3, ?_⟩
    rw [h4, h2, BitVec.add_assoc, BitVec.ofNat_add]
    rfl

example (m : Machine) := C43_increment_many m (.raw 0xffffffffffffffff 5) _ rfl 1000

/-- C43. The values reached by different numbers of increments below 2^128 are different. -/
theorem C43_no_repetition (m : Machine) (b : Kuz.Blk) (v : W64 × W64) (h : b.value m = .ok v)
    (i j : Nat) (hi : i < 2 ^ 128) (hj : j < 2 ^ 128)
    (heq : (Nat.repeat Kuz.Blk.incremented i b).value m =
      (Nat.repeat Kuz.Blk.incremented j b).value m) : i = j := by
  obtain ⟨r, h1, h2⟩ := C43_increment_many m b v h i
  obtain ⟨r', h3, h4⟩ := C43_increment_many m b v h j
  rw [h1, h3] at heq
  rw [Exec.ok.inj heq, h4] at h2
  have := congrArg BitVec.toNat (BitVec.add_right_inj (join64 v) |>.mp h2)
  rw [BitVec.toNat_ofNat, BitVec.toNat_ofNat, Nat.mod_eq_of_lt hi, Nat.mod_eq_of_lt hj] at this
  exact this.symm

example : (Kuz.Blk.incremented (.raw (BitVec.allOnes 64) 5)).value .iso = .ok (0, 6) := by decide

/-! ### C52 -/

/-- C52 for the counts for which it is true. Missing: 0 and 64 … 127, see
`C52_other_shifts_undefined`. -/
theorem C52_shift_partial (m : Machine) (b : Kuz.Blk) (v : W64 × W64) (h : b.value m = .ok v)
    (n : Nat) (h1 : 1 ≤ n) (h2 : n ≤ 63) :
    ∃ r, (Kuz.Blk.shifted b n).value m = .ok r ∧ join64 r = join64 v <<< n := by
  obtain ⟨r, h3, h4⟩ := Kuz.shiftValue_eq v n h1 h2
  exact ⟨r, by simp [Kuz.Blk.value, h, h3], h4⟩

example (m : Machine) := C52_shift_partial m (.raw 0xffffffffffffffff 5) _ rfl 63 (by decide) (by decide)

/-- C52 is false of the code: every other count is undefined behaviour, in particular 0 and
64 … 127, for which the 128-bit shift makes sense. -/
theorem C52_other_shifts_undefined (m : Machine) (b : Kuz.Blk) (v : W64 × W64)
    (h : b.value m = .ok v) (n : Int) (hn : n < 1 ∨ 63 < n) :
    (Kuz.Blk.shifted b n).value m = .ub .badShift := by
  simp only [Kuz.Blk.value, h, Exec.ok_bind, Kuz.shiftValue, shl64, shr64]
  by_cases h0 : 0 ≤ n ∧ n < 64
  · simp only [h0, and_self, if_true, Exec.ok_bind]
    rw [if_neg (by omega)]
    rfl
  · rw [if_neg h0]
    rfl

example : (Kuz.Blk.shifted (.raw 3 0) 0).value .x86 = .ub .badShift ∧
    (Kuz.Blk.shifted (.raw 0x8000000000000001 5) 1).value .iso = .ok (2, 11) := by decide

/-! ### C53 -/

/-- C53, Magma: `BlkString` of at most 16 hexadecimal digits is the number they write (shorter text
is extended by zeros on the left). -/
theorem C53_magma_text_value (m : Machine) (s : List Char) (h : IsHex s) (hl : s.length ≤ 16) :
    ∃ v, (Magma.Blk.str s).value m = .ok v ∧ join32 v = BitVec.ofNat 64 (hexNat s) :=
  Magma.str_value m h hl

example (m : Machine) := C53_magma_text_value m "fedcba9876543210".toList (by decide) (by decide)

/-- C53, Magma: `BlkString` of the 16-digit text of a block is that block. -/
theorem C53_magma_text_round_trip (m : Machine) (v : W32 × W32) :
    (Magma.Blk.str (hexText 16 (join32 v).toNat)).value m = .ok v := by
  obtain ⟨u, h1, h2⟩ := Magma.str_value m (hexText_isHex 16 (join32 v).toNat)
    (by rw [hexText_length]; omega)
  have e : (join32 v).toNat % 16 ^ 16 = (join32 v).toNat := Nat.mod_eq_of_lt (join32 v).isLt
  rw [hexNat_hexText, e, BitVec.ofNat_toNat, BitVec.setWidth_eq] at h2
  rw [h1, join32_inj h2]

/-- C53, Kuznyechik: `BlkString` of at most 32 hexadecimal digits is the number they write. -/
theorem C53_kuznyechik_text_value (m : Machine) (s : List Char) (h : IsHex s)
    (hl : s.length ≤ 32) :
    ∃ v, (Kuz.Blk.str s).value m = .ok v ∧ join64 v = BitVec.ofNat 128 (hexNat s) :=
  Kuz.str_value m h hl

example (m : Machine) := C53_kuznyechik_text_value m "1122334455667700ffeeddccbbaa9988".toList (by decide) (by decide)

/-- C53, Kuznyechik: `BlkString` of the 32-digit text of a block is that block. -/
theorem C53_kuznyechik_text_round_trip (m : Machine) (v : W64 × W64) :
    (Kuz.Blk.str (hexText 32 (join64 v).toNat)).value m = .ok v := by
  obtain ⟨u, h1, h2⟩ := Kuz.str_value m (hexText_isHex 32 (join64 v).toNat)
    (by rw [hexText_length]; omega)
  have e : (join64 v).toNat % 16 ^ 32 = (join64 v).toNat := Nat.mod_eq_of_lt (join64 v).isLt
  rw [hexNat_hexText, e, BitVec.ofNat_toNat, BitVec.setWidth_eq] at h2
  rw [h1, join64_inj h2]

example : IsHex "fedcba9876543210".toList ∧ hexNat "fedcba9876543210".toList = 0xfedcba9876543210 ∧
    hexText 16 0xfedcba9876543210 = "fedcba9876543210".toList := by decide
example : (Magma.Blk.str "12ab".toList).value .iso = .ok (0x12ab, 0) := by decide

/-! ### C54 -/

/-- C54, Magma: the block made from a 64-bit number has that value. -/
theorem C54_magma_from_number (m : Machine) (x : BitVec 64) :
    ∃ v, (Magma.BlkRaw.ofU64 x).value m = .ok v ∧ join32 v = x := by
  rw [ofU64_eq]
  exact ⟨_, rfl, join32_surj x⟩

/-- C54, Magma: from two words, as two arguments or as a pair. -/
theorem C54_magma_from_words (m : Machine) (low high : BitVec 32) :
    (Magma.Blk.raw low high).value m = .ok (low, high) ∧
      (Magma.BlkRaw.ofPair (low, high)).value m = .ok (low, high) := ⟨rfl, rfl⟩

/-- C54, Magma: the copy of another block has its value, and cannot be made if that value cannot be
computed. -/
theorem C54_magma_from_block (m : Machine) (b : Magma.Blk) :
    (Magma.BlkRaw.ofBlock m b >>= fun r => r.value m) = b.value m := by
  cases h : b.value m <;> simp [Magma.BlkRaw.ofBlock, h, Magma.BlkRaw.ofPair, Magma.Blk.value]

/-- C54, Magma: from at least 8 bytes, through a pointer or a vector: the first 8 bytes,
little-endian. -/
theorem C54_magma_from_bytes (m : Machine) (l u : List Byte) (h : l.length = 8) :
    ∃ b v, Magma.BlkRaw.ofBytes (l ++ u) = .ok b ∧ b.value m = .ok v ∧ join32 v = block64 l := by
  refine ⟨.raw _ _, _, ?_, rfl, join32_surj (block64 l)⟩
  rw [← ofBytes_eq h]
  obtain ⟨b0, b1, b2, b3, b4, b5, b6, b7, rfl⟩ := exists_of_length_eight h
  rfl

example (m : Machine) := C54_magma_from_bytes m [1, 2, 3, 4, 5, 6, 7, 8] [9] rfl

/-- C54, Magma: a buffer shorter than 8 bytes is read out of bounds. -/
theorem C54_magma_short_buffer (l : List Byte) (h : l.length < 8) :
    Magma.BlkRaw.ofBytes l = .ub .oobRead := by
  match l, h with
  | [], _ => rfl
  | [_], _ => rfl
  | [_, _], _ => rfl
  | [_, _, _], _ => rfl
  | [_, _, _, _], _ => rfl
  | [_, _, _, _, _], _ => rfl
  | [_, _, _, _, _, _], _ => rfl
  | [_, _, _, _, _, _, _], _ => rfl

example := C54_magma_short_buffer [1, 2, 3, 4, 5, 6, 7] (by decide)

/-- C54, Kuznyechik: from a 64-bit number (the low half), from two words, from a pair, from another
block, from memory. -/
theorem C54_kuznyechik (m : Machine) (low high : BitVec 64) (b : Kuz.Blk) (pre post : List W64) :
    (Kuz.Blk.raw low high).value m = .ok (low, high) ∧
    (Kuz.BlkRaw.ofPair (low, high)).value m = .ok (low, high) ∧
    (Kuz.BlkRaw.ofU64 low).value m = .ok (low, 0) ∧
    (Kuz.BlkRaw.ofBlock m b >>= fun r => r.value m) = b.value m ∧
    (Kuz.BlkRaw.ofWords (pre ++ low :: high :: post) pre.length >>= fun r => r.value m) =
      .ok (low, high) := by
  refine ⟨rfl, rfl, rfl, ?_, ?_⟩
  · cases h : b.value m <;> simp [Kuz.BlkRaw.ofBlock, h, Kuz.BlkRaw.ofPair, Kuz.Blk.value]
  · simp [Kuz.BlkRaw.ofWords, vget, Kuz.Blk.value]

/-- C54, Kuznyechik: fewer than two words of memory left are read out of bounds. -/
theorem C54_kuznyechik_short_buffer (data : List W64) (i : Nat) (h : data.length < i + 2) :
    Kuz.BlkRaw.ofWords data i = .ub .oobRead := by
  have h1 : vget data (i + 1) = .ub .oobRead := by
    unfold vget; rw [List.getElem?_eq_none (by omega)]
  unfold Kuz.BlkRaw.ofWords
  rw [h1]
  by_cases h0 : i < data.length
  · have : vget data i = .ok data[i] := by simp [vget, h0]
    rw [this]; rfl
  · have : vget data i = .ub .oobRead := by
      unfold vget; rw [List.getElem?_eq_none (by omega)]
    rw [this]; rfl

example : ([5, 6, 7] : List W64).length < 2 + 2 ∧
    Kuz.BlkRaw.ofWords [5, 6, 7] 1 = .ok (.raw 6 7) := ⟨by decide, rfl⟩
example : Magma.BlkRaw.ofBytes [1, 2, 3, 4, 5, 6, 7, 8, 9] = .ok (.raw 0x04030201 0x08070605) := rfl

/-! ### C55 -/

/-- C55, Magma: the value of `BlkXored(a, b, rest…)` is the sum of the values of all operands. -/
theorem C55_magma_xor_all (m : Machine) (a b : Magma.Blk) (rest : List Magma.Blk)
    (vs : List (W32 × W32)) (h : (a :: b :: rest).map (Magma.Blk.value m) = vs.map Exec.ok) :
    ∃ r, (Magma.BlkXored.many a b rest).value m = .ok r ∧
      join32 r = (vs.map join32).foldl (· ^^^ ·) 0 := by
  match vs, h with
  | [_], h => simp at h
  | va :: vb :: vs, h =>
    simp only [List.map_cons, List.cons.injEq] at h
    obtain ⟨r, h1, h2⟩ := Magma.many_value m rest a b va vb vs h.1 h.2.1 h.2.2
    exact ⟨r, h1, by simpa using h2⟩

example (m : Machine) := C55_magma_xor_all m (.raw 1 2) (.raw 3 4) [.raw 5 6] [(1, 2), (3, 4), (5, 6)] rfl

/-- C55, Magma: the order of the operands does not matter. -/
theorem C55_magma_xor_order (m : Machine) (a b a' b' : Magma.Blk) (rest rest' : List Magma.Blk)
    (vs : List (W32 × W32)) (h : (a :: b :: rest).map (Magma.Blk.value m) = vs.map Exec.ok)
    (hp : (a :: b :: rest).Perm (a' :: b' :: rest')) :
    (Magma.BlkXored.many a b rest).value m = (Magma.BlkXored.many a' b' rest').value m := by
  have hp' := hp.map (Magma.Blk.value m)
  rw [h] at hp'
  obtain ⟨us, hu1, hu2⟩ : ∃ us : List (W32 × W32),
      (a' :: b' :: rest').map (Magma.Blk.value m) = us.map Exec.ok ∧ vs.Perm us := by
    refine ⟨((a' :: b' :: rest').map (Magma.Blk.value m)).map
      (fun x => match x with | .ok v => v | _ => (0, 0)), ?_, ?_⟩
    · rw [List.map_map]
      conv => lhs; rw [← List.map_id ((a' :: b' :: rest').map (Magma.Blk.value m))]
      apply List.map_congr_left
      intro x hx
      obtain ⟨v, _, rfl⟩ := List.mem_map.mp ((List.Perm.mem_iff hp').mpr hx)
      rfl
    · have := hp'.map (fun x : Exec (W32 × W32) => match x with | .ok v => v | _ => (0, 0))
      rw [List.map_map] at this
      have e : (fun x : Exec (W32 × W32) => match x with | .ok v => v | _ => (0, 0)) ∘ Exec.ok = id :=
        rfl
      rwa [e, List.map_id] at this
  obtain ⟨r, h1, h2⟩ := C55_magma_xor_all m a b rest vs h
  obtain ⟨r', h3, h4⟩ := C55_magma_xor_all m a' b' rest' us hu1
  rw [h1, h3]
  congr 1
  exact join32_inj (by rw [h2, h4, xor_perm (hu2.map join32)])

example (m : Machine) := C55_magma_xor_order m (.raw 1 2) (.raw 3 4) (.raw 5 6) (.raw 3 4) [.raw 5 6] [.raw 1 2]
  [(1, 2), (3, 4), (5, 6)] rfl (List.reverse_perm [Magma.Blk.raw 1 2, .raw 3 4, .raw 5 6]).symm

/-- C55, Magma: adding the same block twice changes nothing. -/
theorem C55_magma_xor_twice (m : Machine) (a b : Magma.Blk) (va vb : W32 × W32)
    (ha : a.value m = .ok va) (hb : b.value m = .ok vb) :
    (Magma.BlkXored.many a b [b]).value m = a.value m := by
  simp [Magma.BlkXored.many, Magma.Blk.value, ha, hb, BitVec.xor_assoc]

example (m : Machine) := C55_magma_xor_twice m (.raw 1 2) (.raw 3 4) _ _ rfl rfl

/-- C55, Kuznyechik: the value of `BlkXored(a, b, rest…)` is the sum of the values of all
operands. -/
theorem C55_kuznyechik_xor_all (m : Machine) (a b : Kuz.Blk) (rest : List Kuz.Blk)
    (vs : List (W64 × W64)) (h : (a :: b :: rest).map (Kuz.Blk.value m) = vs.map Exec.ok) :
    ∃ r, (Kuz.BlkXored.many a b rest).value m = .ok r ∧
      join64 r = (vs.map join64).foldl (· ^^^ ·) 0 := by
  match vs, h with
  | [_], h => simp at h
  | va :: vb :: vs, h =>
    simp only [List.map_cons, List.cons.injEq] at h
    obtain ⟨r, h1, h2⟩ := Kuz.many_value m rest a b va vb vs h.1 h.2.1 h.2.2
    exact ⟨r, h1, by simpa using h2⟩

example (m : Machine) := C55_kuznyechik_xor_all m (.raw 1 2) (.raw 3 4) [.raw 5 6] [(1, 2), (3, 4), (5, 6)] rfl

/-- C55, Kuznyechik: the order of the operands does not matter. -/
theorem C55_kuznyechik_xor_order (m : Machine) (a b a' b' : Kuz.Blk) (rest rest' : List Kuz.Blk)
    (vs : List (W64 × W64)) (h : (a :: b :: rest).map (Kuz.Blk.value m) = vs.map Exec.ok)
    (hp : (a :: b :: rest).Perm (a' :: b' :: rest')) :
    (Kuz.BlkXored.many a b rest).value m = (Kuz.BlkXored.many a' b' rest').value m := by
  have hp' := hp.map (Kuz.Blk.value m)
  rw [h] at hp'
  obtain ⟨us, hu1, hu2⟩ : ∃ us : List (W64 × W64),
      (a' :: b' :: rest').map (Kuz.Blk.value m) = us.map Exec.ok ∧ vs.Perm us := by
    refine ⟨((a' :: b' :: rest').map (Kuz.Blk.value m)).map
      (fun x => match x with | .ok v => v | _ => (0, 0)), ?_, ?_⟩
    · rw [List.map_map]
      conv => lhs; rw [← List.map_id ((a' :: b' :: rest').map (Kuz.Blk.value m))]
      apply List.map_congr_left
      intro x hx
      obtain ⟨v, _, rfl⟩ := List.mem_map.mp ((List.Perm.mem_iff hp').mpr hx)
      rfl
    · have := hp'.map (fun x : Exec (W64 × W64) => match x with | .ok v => v | _ => (0, 0))
      rw [List.map_map] at this
      have e : (fun x : Exec (W64 × W64) => match x with | .ok v => v | _ => (0, 0)) ∘ Exec.ok = id :=
        rfl
      rwa [e, List.map_id] at this
  obtain ⟨r, h1, h2⟩ := C55_kuznyechik_xor_all m a b rest vs h
  obtain ⟨r', h3, h4⟩ := C55_kuznyechik_xor_all m a' b' rest' us hu1
  rw [h1, h3]
  congr 1
  exact join64_inj (by rw [h2, h4, xor_perm (hu2.map join64)])

example (m : Machine) := C55_kuznyechik_xor_order m (.raw 1 2) (.raw 3 4) (.raw 5 6) (.raw 3 4) [.raw 5 6] [.raw 1 2]
  [(1, 2), (3, 4), (5, 6)] rfl (List.reverse_perm [Kuz.Blk.raw 1 2, .raw 3 4, .raw 5 6]).symm

/-- C55, Kuznyechik: adding the same block twice changes nothing. -/
theorem C55_kuznyechik_xor_twice (m : Machine) (a b : Kuz.Blk) (va vb : W64 × W64)
    (ha : a.value m = .ok va) (hb : b.value m = .ok vb) :
    (Kuz.BlkXored.many a b [b]).value m = a.value m := by
  simp [Kuz.BlkXored.many, Kuz.Blk.value, ha, hb, BitVec.xor_assoc]

/-- Four operands. -/
example : [Magma.Blk.raw 1 2, .str "ff".toList, .swapped (.raw 3 4), .raw 5 6].map
    (Magma.Blk.value .iso) = [(1, 2), (0xff, 0), (4, 3), (5, 6)].map Exec.ok := by decide

end Goost.Props
