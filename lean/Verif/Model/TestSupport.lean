import Verif.Model.MagmaKey
import Verif.Model.MagmaModes
import Verif.Model.Text
import Verif.Model.KuzStream
/-
/repo/test: the sources, sinks, containers and comparisons that the unit tests are made of. They are the
only implementations of `Source`, `Sink` and `Container` in the repository.
-/
namespace Goost.TestSupport
open Goost

variable {W σ τ : Type}

/-- `std::isxdigit` in the "C" locale. (For a negative `char` it is undefined; texts are ASCII here.) Used
in test/Hex64Source.cpp:24, test/HexMatch.cpp:29. -/
def isxdigit (c : Char) : Bool := (hexDigit? c).isSome

/-! ### Hex64Source -/

/-- The inner loop of `Hex64Source::read` (test/Hex64Source.cpp:27-33):
`for (int i = 7; i >= 0; i--) res.push_back(byte(stoul(string(&hex[i * 2], 2), 0, 16)))`. `stoul` and
`stoull` are the same on the target (64-bit `unsigned long`). The argument is `i + 1`. -/
def Hex64Source.pushWord (hex : List Char) : Nat → List Byte → Exec (List Byte)
  | 0, res => .ok res
  | i + 1, res => do
    let a ← vget hex (i * 2)
    let b ← vget hex (i * 2 + 1)
    let x ← stoull16 [a, b]
    Hex64Source.pushWord hex i (res ++ [x.setWidth 8])

/-- The loop of `Hex64Source::read` (test/Hex64Source.cpp:22-37). The last argument is the text from
position `p` on. -/
def Hex64Source.loop (size : Nat) (res : List Byte) (hex : List Char) :
    List Char → Exec (List Byte × List Char)
  | [] => .ok (res, [])
  | c :: cs =>
    if res.length < size then
      if isxdigit c then
        let hex := hex ++ [c]
        if hex.length = 16 then do
          let res ← Hex64Source.pushWord hex 8 res
          Hex64Source.loop size res [] cs
        else Hex64Source.loop size res hex cs
      else Hex64Source.loop size res hex cs
    else .ok (res, c :: cs)

/-- `Hex64Source::read` (test/Hex64Source.cpp:17-39); the object is its text. -/
def Hex64Source.read (str : List Char) (size : Nat) : Io W (List Byte × List Char) :=
  Io.lift (Hex64Source.loop size [] [] str)

/-! ### Text of bytes -/

/-- `out << hex << setw(2) << setfill('0') << to_integer<unsigned>(b)` (test/SourceText.cpp:32,
test/TestSink.cpp:39). -/
def putHex (b : Byte) : List Char :=
  let d := Nat.toDigits 16 b.toNat
  List.replicate (2 - d.length) '0' ++ d

/-- `numeric_limits<size_t>::max()`. Used in test/SourceText.cpp:27, test/TestSinkText.cpp:24. -/
def sizeMax : Nat := 2 ^ 64 - 1

/-- The loop of `SourceText::asString` (test/SourceText.cpp:24-34), with a step budget. -/
def SourceText.loop (rd : σ → Nat → Io W (List Byte × σ)) : Nat → σ → List Char → Io W (List Char)
  | 0, _, _ => Io.lift .diverge
  | fuel + 1, s, out => do
    let (bytes, s) ← rd s sizeMax
    if bytes = [] then pure out
    else SourceText.loop rd fuel s (out ++ bytes.flatMap putHex)

/-- `SourceText::asString` (test/SourceText.cpp:21-36). -/
def SourceText.asString (rd : σ → Nat → Io W (List Byte × σ)) (fuel : Nat) (s : σ) : Io W (List Char) :=
  SourceText.loop rd fuel s []

/-! ### TestSink -/

/-- `TestSink::write` (test/TestSink.cpp:23-28); the object is its data. -/
def TestSink.write (data d : List Byte) : Io W (List Byte) := pure (data ++ d)

/-- `TestSink::finalize` (test/TestSink.cpp:30-33). -/
def TestSink.finalize (data : List Byte) : Io W (List Byte) := pure data

/-- `TestSink::asHexString` (test/TestSink.cpp:35-42). -/
def TestSink.asHexString (data : List Byte) : List Char := data.flatMap putHex

/-- `TestSinkText::asString` (test/TestSinkText.cpp:22-27) for a sink whose `write` and `finalize` are
given, `finalize` returning a `TestSink` (which is what the cast is for). -/
def TestSinkText.asString (write : τ → List Byte → Io W τ) (finalize : τ → Io W (List Byte))
    (rd : σ → Nat → Io W (List Byte × σ)) (sink : τ) (data : σ) : Io W (List Char) := do
  let (bytes, _) ← rd data sizeMax
  let t ← write sink bytes
  let out ← finalize t
  pure (TestSink.asHexString out)

/-! ### Comparisons -/

/-- `equal(text.begin(), text.end(), origin.begin(), [](a, b) { return toupper(a) == toupper(b); })`
(test/HexMatch.cpp:35-42, test/SourceMatch.cpp:29-36). The second range has no end: a step past it is
undefined. -/
def equalUpper : List Char → List Char → Exec Bool
  | [], _ => .ok true
  | _ :: _, [] => .ub .oobRead
  | a :: text, b :: origin => if a.toUpper = b.toUpper then equalUpper text origin else .ok false

/-- `HexMatch::match` (test/HexMatch.cpp:21-46), the condition of the result; `origin` is the text that
is checked. -/
def HexMatch.accepts (hex origin : List Char) : Exec Bool := equalUpper (hex.filter isxdigit) origin

/-- `SourceMatch::match` (test/SourceMatch.cpp:21-40), the condition of the result. -/
def SourceMatch.accepts (rd : σ → Nat → Io W (List Byte × σ)) (fuel : Nat) (s : σ)
    (origin : List Char) : Io W Bool := do
  let text ← SourceText.asString rd fuel s
  Io.lift (equalUpper text origin)

/-! ### HexContainer -/

/-- `in >> c` for a `char`: skips white space; at the end of the input nothing is stored. Used in
test/magma/HexContainer.cpp:29. -/
def getChar (s : List Char) : Option Char × List Char :=
  match s.dropWhile isSpaceC with
  | [] => (none, [])
  | c :: cs => (some c, cs)

/-- The loop of `HexContainer::key` (test/magma/HexContainer.cpp:27-31) for the `n` remaining bytes. A
character that is not stored is an uninitialised variable. -/
def HexContainer.keyLoop : Nat → List Char → Exec (List Byte)
  | 0, _ => .ok []
  | n + 1, s =>
    match getChar s with
    | (some a, s) =>
      match getChar s with
      | (some b, s) => do
        let x ← stoull16 [a, b]
        let rest ← HexContainer.keyLoop n s
        return x.setWidth 8 :: rest
      | (none, _) => .ub .uninit
    | (none, _) => .ub .uninit

/-- `HexContainer::key` (test/magma/HexContainer.cpp:19-33). -/
def HexContainer.key (hex : List Char) : Exec (List Byte) :=
  if hex.length ≠ 64 then .throw (.runtimeError "Wrong key size")
  else HexContainer.keyLoop 32 hex

/-- `HexContainer::sbox` (test/magma/HexContainer.cpp:40-55). -/
def HexContainer.sbox : List Byte := [
  0x6C, 0xCB, 0x57, 0x18, 0x84, 0x83, 0xDF, 0x7E,
  0x26, 0x25, 0xF5, 0xE2, 0x32, 0x18, 0x6A, 0xD5,
  0x9A, 0xD2, 0x98, 0x06, 0xA5, 0x4F, 0x21, 0x59,
  0x5B, 0xFA, 0xC6, 0x81, 0xC9, 0x6D, 0xAD, 0x3C,
  0x1E, 0x7E, 0xB0, 0x4F, 0xE8, 0x01, 0x79, 0xF4,
  0x4D, 0xA7, 0x83, 0xAB, 0x77, 0x54, 0x1E, 0x60,
  0xB0, 0x3C, 0x4B, 0x9D, 0xD3, 0xE9, 0x34, 0xCA,
  0x0F, 0x96, 0xE2, 0xB3, 0xF1, 0xB0, 0x0C, 0x27]

/-- The key that `ECBSource(source, HexContainer(hex))` uses: `key()` and `sbox()` of the container, and
`ECBSource::makeKey` (goost/magma/ECBSource.cpp:59-74). -/
def HexContainer.makeKey (hex : List Char) : Exec Magma.Key := do
  let k ← HexContainer.key hex
  Magma.ECBSource.makeKey ⟨k, HexContainer.sbox⟩

/-! ### ReprBlock -/

/-- `os << hex << setfill('0') << setw(w) << n` for a number. Used in test/magma/ReprBlock.cpp:24,
test/kuznyechik/ReprBlock.cpp:24. -/
def putPadded (w n : Nat) : List Char :=
  let d := Nat.toDigits 16 n
  List.replicate (w - d.length) '0' ++ d

/-- `magma::ReprBlock::asString` (test/magma/ReprBlock.cpp:20-26) for the value of the block. -/
def magmaRepr (v : W32 × W32) : List Char := putPadded 8 v.2.toNat ++ putPadded 8 v.1.toNat

/-- `kuznyechik::ReprBlock::asString` (test/kuznyechik/ReprBlock.cpp:20-26) for the value of the
block. -/
def kuzRepr (v : W64 × W64) : List Char := putPadded 16 v.2.toNat ++ putPadded 16 v.1.toNat

/-- `magma::TestBlockEqual(a, b)` (test/magma/TestBlockEqual.cpp:15-30): the texts are compared with
`EqualMatch`, which is `==` of strings. -/
def magmaBlockEqual (m : Machine) (a b : Magma.Blk) : Exec Bool := do
  let tb ← b.value m
  let ta ← a.value m
  return magmaRepr ta == magmaRepr tb

/-- `kuznyechik::TestBlockEqual(a, b)` (test/kuznyechik/TestBlockEqual.cpp:17-32). -/
def kuzBlockEqual (m : Machine) (a b : Kuz.Blk) : Exec Bool := do
  let tb ← b.value m
  let ta ← a.value m
  return kuzRepr ta == kuzRepr tb

/-- `magma::TestBlockEqual(a, string)` (test/magma/TestBlockEqual.cpp:27-30). -/
def magmaBlockShows (m : Machine) (a : Magma.Blk) (b : List Char) : Exec Bool := do
  let v ← a.value m
  return magmaRepr v == b

/-- `kuznyechik::TestBlockEqual(a, string)` (test/kuznyechik/TestBlockEqual.cpp:29-32). -/
def kuzBlockShows (m : Machine) (a : Kuz.Blk) (b : List Char) : Exec Bool := do
  let v ← a.value m
  return kuzRepr v == b

/-! ### Other texts and objects of the tests -/

/-- `htonl` on a little-endian machine. Used in test/magma/ReprKeyData.cpp:25. -/
def htonl (x : W32) : W32 :=
  x.extractLsb' 0 8 ++ x.extractLsb' 8 8 ++ x.extractLsb' 16 8 ++ x.extractLsb' 24 8

/-- The loop of `ReprKeyData::asString` (test/magma/ReprKeyData.cpp:24-26) for the `n` remaining words
from number `i` on. -/
def keyDataLoop (kd : Magma.KeyData) : Nat → Int → Exec (List Char)
  | 0, _ => .ok []
  | n + 1, i => do
    let k ← kd i
    let rest ← keyDataLoop kd n (i + 1)
    return putPadded 8 (htonl k).toNat ++ rest

/-- `ReprKeyData::asString` (test/magma/ReprKeyData.cpp:21-29). -/
def keyDataRepr (kd : Magma.KeyData) : Exec (List Char) := keyDataLoop kd 8 0

/-- `ReprTransformed::asString` (test/magma/ReprTransformed.cpp:20-26). -/
def transformedRepr (sbox : Magma.Sbox) (value : W32) : Exec (List Char) := do
  let r ← sbox value
  return putPadded 8 r.toNat

/-- `EncryptionBaseText::asString` (test/magma/EncryptionBaseTest.cpp:25-34). -/
def encryptionBaseRepr (key : Magma.Key) (block : W64) : Exec (List Char) := do
  let r ← Magma.EncryptionBase.transform key block
  return putPadded 16 r.toNat

/-- `TestSbox` (test/gost89/TestSbox.cpp:14-37); the same table is in
test/magma/BlkEncryptedTest.cpp:33-45. -/
def TestSbox : Magma.Sbox := Magma.SboxTwisted (Magma.SboxByte [
  0xc4, 0xed, 0x83, 0xc9, 0x92, 0x98, 0xfe, 0x6b,
  0xff, 0xbe, 0x65, 0x5c, 0xe5, 0x2c, 0xb9, 0x20,
  0x89, 0x57, 0x16, 0xb3, 0x11, 0xf3, 0x98, 0x06,
  0x30, 0x79, 0xc0, 0x97, 0xa8, 0x1a, 0x5d, 0xd5,
  0x2e, 0x01, 0xda, 0x34, 0x73, 0xd5, 0x3b, 0xe8,
  0x4b, 0xc2, 0x77, 0x7e, 0xdc, 0x64, 0xac, 0xaf,
  0x6d, 0xa6, 0x02, 0xf1, 0x07, 0x4f, 0xe1, 0x4a,
  0xba, 0x30, 0x2f, 0x12, 0x56, 0x8b, 0x44, 0x8d])

/-- The loop of `BlkOfStream::value` (test/kuznyechik/StCTREncryptedTest.cpp:31-33) for the `n`
remaining steps. -/
def BlkOfStream.loop {ι : Type} (it : Kuz.IterImpl ι) : Nat → Option ι → Exec (Option ι)
  | 0, p => .ok p
  | n + 1, p => do
    let q ← Kuz.deref p it.next
    BlkOfStream.loop it n q

/-- `BlkOfStream::value` (test/kuznyechik/StCTREncryptedTest.cpp:28-35), given the outcome of `iter()`
of the stream. -/
def BlkOfStream.value {ι : Type} (it : Kuz.IterImpl ι) (streamIter : Exec (Option ι)) (n : Nat) :
    Exec (W64 × W64) := do
  let p ← streamIter
  let p ← BlkOfStream.loop it n p
  Kuz.deref p it.value

/-- `BlkKeyDataHigh::value` (test/kuznyechik/BlkKeyData.cpp:17-20) over a `KeyDataString`. -/
def BlkKeyDataHigh.value (m : Machine) (key_data : List Char) : Exec (W64 × W64) := do
  let b ← Kuz.KeyDataString.high key_data
  b.value m

/-- `BlkKeyDataLow::value` (test/kuznyechik/BlkKeyData.cpp:27-30) over a `KeyDataString`. -/
def BlkKeyDataLow.value (m : Machine) (key_data : List Char) : Exec (W64 × W64) := do
  let b ← Kuz.KeyDataString.low key_data
  b.value m

end Goost.TestSupport
