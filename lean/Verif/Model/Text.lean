import Verif.Model.Exec
/-
Text to number conversions of the C++ library used by the code: `std::stoull(s, &pos, 16)` and
`istringstream >> hex >> uint32_t`.  Strings are lists of characters; the "C" locale is assumed.
-/
namespace Goost

/-- `std::isspace` in the "C" locale. Used by `stoull` and `>>` in goost/magma/BlkString.cpp:23,
goost/magma/KeyDataString.cpp:29. -/
def isSpaceC (c : Char) : Bool :=
  c == ' ' || c == '\t' || c == '\n' || c == '\x0b' || c == '\x0c' || c == '\r'

/-- Value of a hexadecimal digit, `none` if `c` is not one (`std::isxdigit`). Used by `stoull` and `>>` in
goost/magma/BlkString.cpp:23, goost/magma/KeyDataString.cpp:29. -/
def hexDigit? (c : Char) : Option Nat :=
  if '0' ≤ c ∧ c ≤ '9' then some (c.toNat - '0'.toNat)
  else if 'a' ≤ c ∧ c ≤ 'f' then some (c.toNat - 'a'.toNat + 10)
  else if 'A' ≤ c ∧ c ≤ 'F' then some (c.toNat - 'A'.toNat + 10)
  else none

/-- Accumulates hexadecimal digits up to the first other character. A part of `stoull` and `>>` in
goost/magma/BlkString.cpp:23, goost/magma/KeyDataString.cpp:29. -/
def readDigits (acc : Nat) : List Char → Nat
  | [] => acc
  | c :: cs =>
    match hexDigit? c with
    | some d => readDigits (acc * 16 + d) cs
    | none => acc

/-- Digits with optional `0x` prefix; `none` if there is no digit. In `0x` without a
following digit the `0` is the number. A part of `stoull` and `>>` in goost/magma/BlkString.cpp:23,
goost/magma/KeyDataString.cpp:29. -/
def readNumber : List Char → Option Nat
  | [] => none
  | c :: cs =>
    match hexDigit? c with
    | none => none
    | some _ =>
      match c, cs with
      | '0', x :: y :: ys =>
        if (x == 'x' || x == 'X') && (hexDigit? y).isSome then some (readDigits 0 (y :: ys))
        else some (readDigits 0 (c :: cs))
      | _, _ => some (readDigits 0 (c :: cs))

/-- Optional sign, then a number: whether it is negated and its magnitude. A part of `stoull` and `>>` in
goost/magma/BlkString.cpp:23, goost/magma/KeyDataString.cpp:29. -/
def readSigned : List Char → Option (Bool × Nat)
  | '-' :: cs => (readNumber cs).map (true, ·)
  | '+' :: cs => (readNumber cs).map (false, ·)
  | cs => (readNumber cs).map (false, ·)

/-- `std::stoull(s, &pos, 16)`: skips white space, accepts a sign and `0x`, stops at the first
character that is not a digit, throws `invalid_argument` if there is no digit and
`out_of_range` if the number does not fit. Used in goost/magma/BlkString.cpp:23,
goost/kuznyechik/BlkString.cpp:23. -/
def stoull16 (s : List Char) : Exec W64 :=
  match readSigned (s.dropWhile isSpaceC) with
  | none => .throw .invalidArgument
  | some (neg, n) =>
    if n < 2 ^ 64 then .ok (if neg then -(BitVec.ofNat 64 n) else BitVec.ofNat 64 n)
    else .throw .outOfRange

/-- `uint32_t value; istringstream in(s); in >> hex >> value; return value;`.
If only white space is left nothing is stored and an uninitialised variable is returned; if
no number can be read 0 is stored; if it is too large the maximum is stored.
goost/magma/KeyDataString.cpp:27-30. -/
def istreamHex32 (s : List Char) : Exec W32 :=
  match s.dropWhile isSpaceC with
  | [] => .ub .uninit
  | cs =>
    match readSigned cs with
    | none => .ok 0
    | some (neg, n) =>
      if n < 2 ^ 32 then .ok (if neg then -(BitVec.ofNat 32 n) else BitVec.ofNat 32 n)
      else .ok (BitVec.allOnes 32)

/-- `std::string(s, pos, n)`: throws `out_of_range` if `pos` is past the end. Used in
goost/magma/KeyDataString.cpp:28, goost/magma/BlkString.cpp:23, goost/kuznyechik/KeyDataString.cpp:20, 25. -/
def substr (s : List Char) (pos n : Nat) : Exec (List Char) :=
  if pos ≤ s.length then .ok ((s.drop pos).take n) else .throw .outOfRange

end Goost
