/-
Specification: bytes, little-endian blocks, hexadecimal text. Nothing here refers to the model.
-/
namespace Spec

/-- The number whose little-endian digits in base 256 are `l`. -/
def natOfBytes : List (BitVec 8) → Nat
  | [] => 0
  | b :: l => b.toNat + 256 * natOfBytes l

/-- The 64-bit block whose bytes in memory, lowest address first, are `l` (little-endian). -/
def block64 (l : List (BitVec 8)) : BitVec 64 := BitVec.ofNat 64 (natOfBytes l)

/-- The eight bytes of a 64-bit block in memory, lowest address first (little-endian). -/
def bytesOf64 (x : BitVec 64) : List (BitVec 8) :=
  (List.range 8).map fun i => BitVec.ofNat 8 (x.toNat / 256 ^ i)

/-- The complete 8-byte pieces of a byte string, in order. A shorter rest is left out. -/
def chunks8 : List (BitVec 8) → List (List (BitVec 8))
  | b0 :: b1 :: b2 :: b3 :: b4 :: b5 :: b6 :: b7 :: rest =>
    [b0, b1, b2, b3, b4, b5, b6, b7] :: chunks8 rest
  | _ => []

/-- The 64-bit blocks of a byte string. -/
def blocks64 (l : List (BitVec 8)) : List (BitVec 64) := (chunks8 l).map block64

/-- The byte string of a list of 64-bit blocks. -/
def unblocks64 (l : List (BitVec 64)) : List (BitVec 8) := (l.map bytesOf64).flatten

/-- The 64-bit block given by a pair of words as the API returns it: `first` is the less significant
half. -/
def join32 (v : BitVec 32 × BitVec 32) : BitVec 64 := v.2 ++ v.1

/-- The 128-bit block given by a pair of words as the API returns it: `first` is the less
significant half. -/
def join64 (v : BitVec 64 × BitVec 64) : BitVec 128 := v.2 ++ v.1

/-- The value of a hexadecimal digit. -/
def hexDigit : Char → Option Nat
  | '0' => some 0 | '1' => some 1 | '2' => some 2 | '3' => some 3
  | '4' => some 4 | '5' => some 5 | '6' => some 6 | '7' => some 7
  | '8' => some 8 | '9' => some 9
  | 'a' => some 10 | 'b' => some 11 | 'c' => some 12
  | 'd' => some 13 | 'e' => some 14 | 'f' => some 15
  | 'A' => some 10 | 'B' => some 11 | 'C' => some 12
  | 'D' => some 13 | 'E' => some 14 | 'F' => some 15
  | _ => none

/-- A text consisting of hexadecimal digits only. -/
def IsHex (s : List Char) : Prop := ∀ c ∈ s, (hexDigit c).isSome

instance (s : List Char) : Decidable (IsHex s) := by unfold IsHex; infer_instance

/-- The number written by a text of hexadecimal digits, most significant digit first. -/
def hexNat (s : List Char) : Nat := s.foldl (fun n c => 16 * n + (hexDigit c).getD 0) 0

/-- The hexadecimal digit of a number below 16. -/
def hexChar (d : Nat) : Char := "0123456789abcdef".toList.getD d '0'

/-- The hexadecimal text of a number with exactly `w` digits, most significant digit first. -/
def hexText : Nat → Nat → List Char
  | 0, _ => []
  | w + 1, n => hexText w (n / 16) ++ [hexChar (n % 16)]

/-- The message as the MAC of GOST 28147-89 takes it in this library: followed by zero bytes up to a
whole number of 8-byte blocks, and at least two of them. -/
def zeroPadded (d : List (BitVec 8)) : List (BitVec 8) :=
  d ++ List.replicate (8 * max 2 ((d.length + 7) / 8) - d.length) 0

end Spec
