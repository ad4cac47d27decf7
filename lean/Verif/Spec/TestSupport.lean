import Verif.Spec.Bytes
/-
Specification for the helpers of the tests: words written as hexadecimal text, bytes as text.
-/
namespace Spec

/-- The digits of a text; everything else is left out. -/
def hexDigitsOf (s : List Char) : List Char := s.filter fun c => (hexDigit c).isSome

/-- The 64-bit words written by digits: the numbers of 16 digits each, one after the other. Fewer than 16
digits at the end are left out. -/
def wordsOf (digits : List Char) : List (BitVec 64) :=
  (List.range (digits.length / 16)).map fun i => BitVec.ofNat 64 (hexNat ((digits.drop (16 * i)).take 16))

/-- The 64-bit words written in a text, as in the examples of the standards. -/
def hexWords (s : List Char) : List (BitVec 64) := wordsOf (hexDigitsOf s)

/-- Bytes as text, two digits each. -/
def bytesText (d : List (BitVec 8)) : List Char := d.flatMap fun b => hexText 2 b.toNat

/-- A text without regard to case. -/
def upper (s : List Char) : List Char := s.map Char.toUpper

end Spec
