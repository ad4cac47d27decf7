import Verif.Spec.Bytes
/-
Numbers at the beginning of a text, as the C++ library reads them with base 16: white space, a sign,
the prefix `0x`, digits; everything after the digits is ignored.
-/
namespace Spec

/-- White space of the "C" locale. -/
def IsBlank (c : Char) : Prop := c ∈ [' ', '\t', '\n', '\x0b', '\x0c', '\r']

/-- A sign, which may be missing, and whether it negates. -/
inductive Sign : List Char → Bool → Prop
  | none : Sign [] false
  | plus : Sign ['+'] false
  | minus : Sign ['-'] true

/-- The text begins with a number whose digits are `ds`, after white space, a sign and the prefix `0x`,
all of which may be missing. The digits go on as long as possible, and where `0x` can be the prefix of
digits, it is. -/
def Reads (s : List Char) (neg : Bool) (ds : List Char) : Prop :=
  ∃ sp sg pre rest, s = sp ++ (sg ++ (pre ++ (ds ++ rest))) ∧ (∀ c ∈ sp, IsBlank c) ∧ Sign sg neg ∧
    ds ≠ [] ∧ IsHex ds ∧ (∀ c ∈ rest.head?, hexDigit c = none) ∧
    (pre = ['0', 'x'] ∨ pre = ['0', 'X'] ∨
      pre = [] ∧ ¬ ∃ x y r, ds ++ rest = '0' :: x :: y :: r ∧ (x = 'x' ∨ x = 'X') ∧
        (hexDigit y).isSome)

/-- The number of `w` bits that the digits denote with the sign. -/
def signedNumber (w : Nat) (neg : Bool) (ds : List Char) : BitVec w :=
  if neg then -(BitVec.ofNat w (hexNat ds)) else BitVec.ofNat w (hexNat ds)

/-- The characters `n * i` to `n * i + n - 1` of a text. -/
def field (n : Nat) (s : List Char) (i : Nat) : List Char := (s.drop (n * i)).take n

/-- What eight characters of a key text of magma, not all blank, stand for: the number they begin with, or
zero if they do not begin with one. -/
def WordOfText (s : List Char) (k : BitVec 32) : Prop :=
  (∃ neg ds, Reads s neg ds ∧ k = signedNumber 32 neg ds) ∨ (¬ ∃ neg ds, Reads s neg ds) ∧ k = 0

/-- The text with as many zeros before it as are missing to `n` characters. -/
def zeroFilled (n : Nat) (s : List Char) : List Char := List.replicate (n - s.length) '0' ++ s

end Spec
