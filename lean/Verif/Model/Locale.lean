import Verif.Model.Kuznyechik
import Verif.Model.MagmaBlock
/-
The conversions of texts once more, under any locale. Model/Text is about the "C" locale; theorem C120_classic relates
the two. `istringstream` takes the global locale of the time when it is made; `stoull` calls `strtoull`, which asks the
locale of `setlocale` what white space is.
-/
namespace Goost

/-- What the conversions ask of a locale: `ctype<char>::is(space, c)` or `isspace(c)`, and `thousands_sep()`,
`decimal_point()` and `grouping()` of `numpunct<char>` (C++ library; goost/magma/KeyDataString.cpp:28-29). Simplification:
`ctype<char>::widen` changes no character. -/
structure Locale where
  space : Char → Bool
  separator : Char
  point : Char
  grouping : List Nat

namespace Locale

/-- The "C" locale, which Model/Text assumes (C++ library; goost/magma/KeyDataString.cpp:28-29). -/
def classic : Locale := ⟨isSpaceC, ',', '.', []⟩

/-- The characters that `>>` accumulates before it converts them (C++ library, `num_get`, stage 2;
goost/magma/KeyDataString.cpp:29): the separators of thousands are skipped if the locale groups digits, a decimal point ends
the number. Where they stand is checked afterwards, but that only sets `failbit`, which the code does not look at. The
first character that does not belong to a number ends it too: that is left to `readSigned`. -/
def accumulated (l : Locale) : List Char → List Char
  | [] => []
  | c :: cs =>
    if c = l.separator ∧ l.grouping ≠ [] then accumulated l cs
    else if c = l.point then []
    else c :: accumulated l cs

/-- `uint32_t value; istringstream in(s); in >> hex >> value; return value;` (goost/magma/KeyDataString.cpp:27-30). -/
def istreamHex32 (l : Locale) (s : List Char) : Exec W32 :=
  match s.dropWhile l.space with
  | [] => .ub .uninit
  | cs =>
    match readSigned (l.accumulated cs) with
    | none => .ok 0
    | some (neg, n) =>
      if n < 2 ^ 32 then .ok (if neg then -(BitVec.ofNat 32 n) else BitVec.ofNat 32 n)
      else .ok (BitVec.allOnes 32)

/-- `std::stoull(s, &pos, 16)` (goost/magma/BlkString.cpp:23, goost/kuznyechik/BlkString.cpp:23). -/
def stoull16 (l : Locale) (s : List Char) : Exec W64 :=
  match readSigned (s.dropWhile l.space) with
  | none => .throw .invalidArgument
  | some (neg, n) =>
    if n < 2 ^ 64 then .ok (if neg then -(BitVec.ofNat 64 n) else BitVec.ofNat 64 n)
    else .throw .outOfRange

/-- `magma::KeyDataString::key` (goost/magma/KeyDataString.cpp:13-31). -/
def keyDataString (l : Locale) (key_data : List Char) : Magma.KeyData := fun index =>
  if key_data.length ≠ 64 then .throw (.runtimeError "Wrong key size")
  else if index < 0 ∨ index > 7 then .throw (.runtimeError "Wrong key index")
  else do
    let s ← substr key_data (index.toNat * 8) 8
    l.istreamHex32 s

/-- `magma::BlkString::value` (goost/magma/BlkString.cpp:16-24). -/
def magmaBlock (l : Locale) (txt : List Char) : Exec (W32 × W32) := do
  let v := Magma.padZeros 16 txt
  let s1 ← substr v 8 8
  let first ← l.stoull16 s1
  let s0 ← substr v 0 8
  let second ← l.stoull16 s0
  return (first.setWidth 32, second.setWidth 32)

/-- `kuznyechik::BlkString::value` (goost/kuznyechik/BlkString.cpp:16-24). -/
def kuznyechikBlock (l : Locale) (txt : List Char) : Exec (W64 × W64) := do
  let v := Kuz.padZeros 32 txt
  let s1 ← substr v 16 16
  let first ← l.stoull16 s1
  let s0 ← substr v 0 16
  let second ← l.stoull16 s0
  return (first, second)

/-- `Key(string)` (goost/kuznyechik/Key.cpp:18-21), when the first half of the text is converted under the locale `l1` and
the second under `l2`: that happens when the key is first used. The blocks of the halves are
goost/kuznyechik/KeyDataString.cpp:18-26. -/
def kuznyechikKey (l1 l2 : Locale) (key_data : List Char) : Exec Kuz.Key := do
  let high ← substr key_data 0 32
  let low ← substr key_data 32 32
  return Kuz.Key.ofBlocks (.user (l1.kuznyechikBlock high)) (.user (l2.kuznyechikBlock low))

end Locale
end Goost
