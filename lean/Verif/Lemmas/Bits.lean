import Verif.Model.MagmaModes
import Verif.Spec.Bytes
import Verif.Spec.Magma
/-
Helper lemmas on words, bytes and blocks.
-/
namespace Goost
open Spec

theorem extract_append_high {n k : Nat} (a : BitVec n) (b : BitVec k) :
    (a ++ b).extractLsb' k n = a := by
  apply BitVec.eq_of_getLsbD_eq
  intro i hi
  simp [BitVec.getLsbD_append, hi]

theorem extract_append_low {n k : Nat} (a : BitVec n) (b : BitVec k) :
    (a ++ b).extractLsb' 0 k = b := by
  apply BitVec.eq_of_getLsbD_eq
  intro i hi
  simp [BitVec.getLsbD_append, hi]

theorem append_extract {n k : Nat} (x : BitVec (n + k)) :
    x.extractLsb' k n ++ x.extractLsb' 0 k = x := by
  apply BitVec.eq_of_getLsbD_eq
  intro i hi
  simp only [BitVec.getLsbD_append, BitVec.getLsbD_extractLsb']
  split
  · simp_all
  · have h : i - k < n := by omega
    have h' : k + (i - k) = i := by omega
    simp [h, h']

theorem append_inj {n k : Nat} {a a' : BitVec n} {b b' : BitVec k} (h : a ++ b = a' ++ b') :
    a = a' ∧ b = b' :=
  ⟨by rw [← extract_append_high a b, h, extract_append_high],
   by rw [← extract_append_low a b, h, extract_append_low]⟩

theorem xor_append {n k : Nat} (a a' : BitVec n) (b b' : BitVec k) :
    (a ++ b) ^^^ (a' ++ b') = (a ^^^ a') ++ (b ^^^ b') := by
  apply BitVec.eq_of_getLsbD_eq
  intro i hi
  simp only [BitVec.getLsbD_append, BitVec.getLsbD_xor]
  split <;> simp_all

theorem join32_inj {u v : W32 × W32} (h : join32 u = join32 v) : u = v := by
  obtain ⟨h1, h2⟩ := append_inj h
  exact Prod.ext h2 h1

theorem join64_inj {u v : W64 × W64} (h : join64 u = join64 v) : u = v := by
  obtain ⟨h1, h2⟩ := append_inj h
  exact Prod.ext h2 h1

theorem join32_surj (x : W64) : join32 (x.extractLsb' 0 32, x.extractLsb' 32 32) = x :=
  append_extract (n := 32) (k := 32) x

theorem join64_surj (x : BitVec 128) : join64 (x.extractLsb' 0 64, x.extractLsb' 64 64) = x :=
  append_extract (n := 64) (k := 64) x

theorem join32_xor (u v : W32 × W32) :
    join32 (u.1 ^^^ v.1, u.2 ^^^ v.2) = join32 u ^^^ join32 v := (xor_append _ _ _ _).symm

theorem join64_xor (u v : W64 × W64) :
    join64 (u.1 ^^^ v.1, u.2 ^^^ v.2) = join64 u ^^^ join64 v := (xor_append _ _ _ _).symm

@[simp] theorem halves_join32 (v : W32 × W32) : Spec.Magma.halves (join32 v) = (v.2, v.1) := by
  simp only [Spec.Magma.halves, join32]
  rw [extract_append_low, extract_append_high]

/-- Eight bytes as a number, lowest first. -/
def of8 (b0 b1 b2 b3 b4 b5 b6 b7 : Byte) : W64 :=
  b7 ++ b6 ++ b5 ++ b4 ++ b3 ++ b2 ++ b1 ++ b0

theorem toNat_append {n k : Nat} (a : BitVec n) (b : BitVec k) :
    (a ++ b).toNat = a.toNat * 2 ^ k + b.toNat := by
  rw [BitVec.toNat_append, Nat.shiftLeft_eq, ← Nat.shiftLeft_eq,
    Nat.shiftLeft_add_eq_or_of_lt b.isLt]

theorem of8_toNat (b0 b1 b2 b3 b4 b5 b6 b7 : Byte) :
    (of8 b0 b1 b2 b3 b4 b5 b6 b7).toNat = natOfBytes [b0, b1, b2, b3, b4, b5, b6, b7] := by
  unfold of8
  simp only [toNat_append, natOfBytes]
  generalize b0.toNat = c0; generalize b1.toNat = c1; generalize b2.toNat = c2
  generalize b3.toNat = c3; generalize b4.toNat = c4; generalize b5.toNat = c5
  generalize b6.toNat = c6; generalize b7.toNat = c7
  omega

theorem block64_eq_of8 (b0 b1 b2 b3 b4 b5 b6 b7 : Byte) :
    block64 [b0, b1, b2, b3, b4, b5, b6, b7] = of8 b0 b1 b2 b3 b4 b5 b6 b7 := by
  unfold block64
  rw [← of8_toNat, BitVec.ofNat_toNat, BitVec.setWidth_eq]

theorem bytes64_of8 (b0 b1 b2 b3 b4 b5 b6 b7 : Byte) :
    bytes64 (of8 b0 b1 b2 b3 b4 b5 b6 b7) = [b0, b1, b2, b3, b4, b5, b6, b7] := by
  simp only [bytes64, of8, List.cons.injEq, and_true]
  refine ⟨?_, ?_, ?_, ?_, ?_, ?_, ?_, ?_⟩ <;>
    (apply BitVec.eq_of_getLsbD_eq; intro i hi
     simp only [BitVec.getLsbD_extractLsb', BitVec.getLsbD_append, hi, decide_true, Bool.true_and]
     repeat' split
     all_goals first | omega | (congr 1; omega))

theorem of8_bytes (x : W64) :
    of8 (x.extractLsb' 0 8) (x.extractLsb' 8 8) (x.extractLsb' 16 8) (x.extractLsb' 24 8)
      (x.extractLsb' 32 8) (x.extractLsb' 40 8) (x.extractLsb' 48 8) (x.extractLsb' 56 8) = x := by
  apply BitVec.eq_of_getLsbD_eq
  intro i hi
  simp only [of8, BitVec.getLsbD_extractLsb', BitVec.getLsbD_append]
  repeat' split
  all_goals
    rw [decide_eq_true (by omega), Bool.true_and]; congr 1; omega

theorem bytes64_eq_spec (x : W64) : bytes64 x = bytesOf64 x := by
  simp only [bytes64, bytesOf64, List.range, List.range.loop, List.map_cons, List.map_nil,
    List.cons.injEq, and_true]
  refine ⟨?_, ?_, ?_, ?_, ?_, ?_, ?_, ?_⟩ <;>
    (apply BitVec.eq_of_toNat_eq
     simp [BitVec.extractLsb'_toNat, Nat.shiftRight_eq_div_pow])

@[simp] theorem bytes64_length (x : W64) : (bytes64 x).length = 8 := rfl
@[simp] theorem bytesOf64_length (x : W64) : (bytesOf64 x).length = 8 := by
  simp [bytesOf64]

theorem exists_of_length_eight {l : List Byte} (h : l.length = 8) :
    ∃ b0 b1 b2 b3 b4 b5 b6 b7, l = [b0, b1, b2, b3, b4, b5, b6, b7] := by
  match l, h with
  | [b0, b1, b2, b3, b4, b5, b6, b7], _ => exact ⟨b0, b1, b2, b3, b4, b5, b6, b7, rfl⟩

theorem bytesOf64_block64 {l : List Byte} (h : l.length = 8) : bytesOf64 (block64 l) = l := by
  obtain ⟨b0, b1, b2, b3, b4, b5, b6, b7, rfl⟩ := exists_of_length_eight h
  rw [block64_eq_of8, ← bytes64_eq_spec, bytes64_of8]

theorem block64_bytesOf64 (x : W64) : block64 (bytesOf64 x) = x := by
  rw [← bytes64_eq_spec, bytes64, block64_eq_of8, of8_bytes]

theorem load64_eq {l : List Byte} (h : l.length = 8) : load64 l 0 = .ok (block64 l) := by
  obtain ⟨b0, b1, b2, b3, b4, b5, b6, b7, rfl⟩ := exists_of_length_eight h
  rw [block64_eq_of8]; rfl

/-- A pair of words as bytes. -/
theorem bytes32_pair (v : W32 × W32) : bytes32 v.1 ++ bytes32 v.2 = bytesOf64 (join32 v) := by
  rw [← bytes64_eq_spec]
  simp only [bytes32, bytes64, List.cons_append, List.nil_append, List.cons.injEq, and_true]
  refine ⟨?_, ?_, ?_, ?_, ?_, ?_, ?_, ?_⟩ <;>
    (apply BitVec.eq_of_getLsbD_eq; intro i hi
     simp only [join32, BitVec.getLsbD_extractLsb', BitVec.getLsbD_append, hi, decide_true,
       Bool.true_and]
     split
     all_goals first | omega | rfl | (congr 1; omega))

theorem ofU64_eq (x : W64) :
    Magma.BlkRaw.ofU64 x = .raw (x.extractLsb' 0 32) (x.extractLsb' 32 32) := by
  simp only [Magma.BlkRaw.ofU64, Magma.Blk.raw.injEq]
  constructor <;>
    (apply BitVec.eq_of_getLsbD_eq; intro i hi
     simp [BitVec.getLsbD_ushiftRight, hi])

theorem ofBytes_eq {l : List Byte} (h : l.length = 8) :
    Magma.BlkRaw.ofBytes l =
      .ok (.raw ((block64 l).extractLsb' 0 32) ((block64 l).extractLsb' 32 32)) := by
  obtain ⟨b0, b1, b2, b3, b4, b5, b6, b7, rfl⟩ := exists_of_length_eight h
  rw [block64_eq_of8]
  have h1 : (of8 b0 b1 b2 b3 b4 b5 b6 b7).extractLsb' 0 32 = b3 ++ b2 ++ b1 ++ b0 := by
    apply BitVec.eq_of_getLsbD_eq; intro i hi
    simp only [of8, BitVec.getLsbD_extractLsb', BitVec.getLsbD_append, hi, decide_true,
       Bool.true_and, Nat.zero_add]
    repeat' split
    all_goals first | omega | rfl
  have h2 : (of8 b0 b1 b2 b3 b4 b5 b6 b7).extractLsb' 32 32 = b7 ++ b6 ++ b5 ++ b4 := by
    apply BitVec.eq_of_getLsbD_eq; intro i hi
    simp only [of8, BitVec.getLsbD_extractLsb', BitVec.getLsbD_append, hi, decide_true,
       Bool.true_and]
    repeat' split
    all_goals first | omega | (congr 1; omega)
  rw [h1, h2]
  rfl

/-- `(x >> 8 i)` truncated to a byte. -/
theorem shift_byte (x : W32) (i : Nat) : (x >>> (i * 8)).setWidth 8 = x.extractLsb' (8 * i) 8 := by
  apply BitVec.eq_of_getLsbD_eq; intro j hj
  have h : i * 8 = 8 * i := Nat.mul_comm _ _
  simp [BitVec.getLsbD_ushiftRight, hj, h]

theorem xorWords_eq {p : List Byte} (h : p.length = 8) (e : W32 × W32) :
    Magma.xorWords p e.1 e.2 = .ok (bytesOf64 (block64 p ^^^ join32 e)) := by
  obtain ⟨b0, b1, b2, b3, b4, b5, b6, b7, rfl⟩ := exists_of_length_eight h
  have : bytesOf64 (block64 [b0, b1, b2, b3, b4, b5, b6, b7] ^^^ join32 e) =
      List.zipWith (· ^^^ ·) [b0, b1, b2, b3, b4, b5, b6, b7] (bytes32 e.1 ++ bytes32 e.2) := by
    rw [bytes32_pair, ← bytes64_eq_spec, ← bytes64_eq_spec, block64_eq_of8]
    conv => rhs; rw [← bytes64_of8 b0 b1 b2 b3 b4 b5 b6 b7]
    simp only [bytes64, List.zipWith, List.cons.injEq, and_true]
    refine ⟨?_, ?_, ?_, ?_, ?_, ?_, ?_, ?_⟩ <;>
      (apply BitVec.eq_of_getLsbD_eq; intro i hi
       simp [hi])
  rw [this]
  simp only [Magma.xorWords, shift_byte]
  rfl

theorem condXorWords_eq {p : List Byte} (h : p.length = 8) (x y : W32) :
    Magma.condXorWords p x y = Magma.xorWords p x y := by
  obtain ⟨b0, b1, b2, b3, b4, b5, b6, b7, rfl⟩ := exists_of_length_eight h
  rfl

end Goost
