/-
Specification: the block ciphers of GOST R 34.12-2015 with 64-bit blocks ("Magma", also RFC 8891)
and of GOST 28147-89, written from the standards. Nothing here refers to the model.
-/
namespace Spec.Magma

/-- The substitution rows π₀ … π₇ of the standard (GOST R 34.12-2015, 5.1.1; RFC 8891, 4.1). -/
def pi (i : Fin 8) (x : BitVec 4) : BitVec 4 :=
  let row : List Nat := match i with
    | 0 => [12, 4, 6, 2, 10, 5, 11, 9, 14, 8, 13, 7, 0, 3, 15, 1]
    | 1 => [6, 8, 2, 3, 9, 10, 5, 12, 1, 14, 4, 7, 11, 13, 0, 15]
    | 2 => [11, 3, 5, 8, 2, 15, 10, 13, 14, 1, 7, 4, 12, 9, 6, 0]
    | 3 => [12, 8, 2, 1, 13, 4, 15, 6, 7, 0, 10, 5, 3, 14, 9, 11]
    | 4 => [7, 15, 5, 10, 8, 1, 6, 13, 0, 9, 3, 14, 11, 4, 2, 12]
    | 5 => [5, 13, 15, 6, 9, 2, 12, 10, 11, 7, 8, 1, 4, 3, 14, 0]
    | 6 => [8, 14, 2, 5, 6, 9, 1, 12, 15, 4, 11, 0, 13, 10, 3, 7]
    | 7 => [1, 7, 14, 13, 0, 5, 8, 3, 4, 15, 10, 6, 9, 12, 11, 2]
  BitVec.ofNat 4 (row.getD x.toNat 0)

/-- Substitution of the eight nibbles of a word by eight rows (transformation `t`):
`a = a₇‖…‖a₀ ↦ π₇(a₇)‖…‖π₀(a₀)`. -/
def t (rows : Fin 8 → BitVec 4 → BitVec 4) (a : BitVec 32) : BitVec 32 :=
  rows 7 (a.extractLsb' 28 4) ++ rows 6 (a.extractLsb' 24 4) ++ rows 5 (a.extractLsb' 20 4) ++
  rows 4 (a.extractLsb' 16 4) ++ rows 3 (a.extractLsb' 12 4) ++ rows 2 (a.extractLsb' 8 4) ++
  rows 1 (a.extractLsb' 4 4) ++ rows 0 (a.extractLsb' 0 4)

/-- The rows given by a table of 64 packed bytes: byte `4 x + j` holds the images of the nibble `x`
under row `2 j` (low half) and row `2 j + 1` (high half). -/
def packedRows (uz : List (BitVec 8)) (i : Fin 8) (x : BitVec 4) : BitVec 4 :=
  let b := uz.getD (4 * x.toNat + i.val / 2) 0
  if i.val % 2 = 0 then b.extractLsb' 0 4 else b.extractLsb' 4 4

/-- Nibble `i` of a word. -/
def nibble (v : BitVec 32) (i : Fin 8) : BitVec 4 := v.extractLsb' (4 * i.val) 4

/-- Table `i` of the eight nibble tables packed into 64 bytes: entry `x` is the low (`i` even) or
high (`i` odd) half of byte `4 x + i / 2`. -/
def unpacked (uz : List (BitVec 8)) (i : Fin 8) : List Int :=
  (List.range 16).map fun x =>
    let b : Nat := (uz.getD (4 * x + i.val / 2) 0).toNat
    ((if i.val % 2 = 0 then b % 16 else b / 16 : Nat) : Int)

/-- `g[k](a) = t(a ⊞ k) ⋘ 11`. -/
def g (rows : Fin 8 → BitVec 4 → BitVec 4) (k a : BitVec 32) : BitVec 32 :=
  (t rows (a + k)).rotateLeft 11

/-- One Feistel round with round function `f`: `G(a₁, a₀) = (a₀, f(a₀) ⊕ a₁)`. -/
def G (f : BitVec 32 → BitVec 32) (x : BitVec 32 × BitVec 32) : BitVec 32 × BitVec 32 :=
  (x.2, f x.2 ^^^ x.1)

/-- The last round, without exchange: `G*(a₁, a₀) = (f(a₀) ⊕ a₁)‖a₀`. -/
def Gstar (f : BitVec 32 → BitVec 32) (x : BitVec 32 × BitVec 32) : BitVec 64 :=
  (f x.2 ^^^ x.1) ++ x.2

/-- The rounds `fs` in order, the last of them without exchange. -/
def feistel : List (BitVec 32 → BitVec 32) → BitVec 32 × BitVec 32 → BitVec 64
  | [], x => x.1 ++ x.2
  | [f], x => Gstar f x
  | f :: fs, x => feistel fs (G f x)

/-- The halves of a block: `a = a₁‖a₀`. -/
def halves (a : BitVec 64) : BitVec 32 × BitVec 32 := (a.extractLsb' 32 32, a.extractLsb' 0 32)

/-- Which of the key words K₁ … K₈ (here 0 … 7) the 32 rounds of encryption use: three times
ascending, once descending. -/
def schedule : List (Fin 8) :=
  [0, 1, 2, 3, 4, 5, 6, 7, 0, 1, 2, 3, 4, 5, 6, 7, 0, 1, 2, 3, 4, 5, 6, 7, 7, 6, 5, 4, 3, 2, 1, 0]

/-- Encryption of a block with round functions `f 0 … f 7`. -/
def encF (f : Fin 8 → BitVec 32 → BitVec 32) (a : BitVec 64) : BitVec 64 :=
  feistel (schedule.map f) (halves a)

/-- Decryption: the same rounds in reverse order. -/
def decF (f : Fin 8 → BitVec 32 → BitVec 32) (a : BitVec 64) : BitVec 64 :=
  feistel (schedule.reverse.map f) (halves a)

/-- The word K₁ … K₈ (`i` = 0 … 7) of a 256-bit key: K₁ is the most significant. -/
def keyWord (K : BitVec 256) (i : Fin 8) : BitVec 32 := K.extractLsb' (32 * (7 - i.val)) 32

/-- Encryption by GOST R 34.12-2015 with a 64-bit block. -/
def enc (K : BitVec 256) : BitVec 64 → BitVec 64 := encF fun i => g pi (keyWord K i)

/-- Decryption by GOST R 34.12-2015 with a 64-bit block. -/
def dec (K : BitVec 256) : BitVec 64 → BitVec 64 := decF fun i => g pi (keyWord K i)

/-- The rounds `fs` in order, all with exchange. -/
def rounds (fs : List (BitVec 32 → BitVec 32)) (x : BitVec 32 × BitVec 32) :
    BitVec 32 × BitVec 32 := fs.foldl (fun x f => G f x) x

/-- The 16-round transformation of the MAC mode of GOST 28147-89: the key words in ascending
order twice, all rounds with exchange. -/
def macStep (f : Fin 8 → BitVec 32 → BitVec 32) (a : BitVec 64) : BitVec 64 :=
  let r := rounds ([0, 1, 2, 3, 4, 5, 6, 7, 0, 1, 2, 3, 4, 5, 6, 7].map f) (halves a)
  r.1 ++ r.2

end Spec.Magma
