/-
Specification: the block cipher of GOST R 34.12-2015 with 128-bit blocks ("Kuznyechik", also
RFC 7801), written from the standard. Nothing here refers to the model.
-/
namespace Spec.Kuz

abbrev Byte := BitVec 8
abbrev Block := BitVec 128

/-- The substitution π (GOST R 34.12-2015, 4.1.1). -/
def piTable : List Nat :=
  [0xFC, 0xEE, 0xDD, 0x11, 0xCF, 0x6E, 0x31, 0x16, 0xFB, 0xC4, 0xFA, 0xDA, 0x23, 0xC5, 0x04, 0x4D,
   0xE9, 0x77, 0xF0, 0xDB, 0x93, 0x2E, 0x99, 0xBA, 0x17, 0x36, 0xF1, 0xBB, 0x14, 0xCD, 0x5F, 0xC1,
   0xF9, 0x18, 0x65, 0x5A, 0xE2, 0x5C, 0xEF, 0x21, 0x81, 0x1C, 0x3C, 0x42, 0x8B, 0x01, 0x8E, 0x4F,
   0x05, 0x84, 0x02, 0xAE, 0xE3, 0x6A, 0x8F, 0xA0, 0x06, 0x0B, 0xED, 0x98, 0x7F, 0xD4, 0xD3, 0x1F,
   0xEB, 0x34, 0x2C, 0x51, 0xEA, 0xC8, 0x48, 0xAB, 0xF2, 0x2A, 0x68, 0xA2, 0xFD, 0x3A, 0xCE, 0xCC,
   0xB5, 0x70, 0x0E, 0x56, 0x08, 0x0C, 0x76, 0x12, 0xBF, 0x72, 0x13, 0x47, 0x9C, 0xB7, 0x5D, 0x87,
   0x15, 0xA1, 0x96, 0x29, 0x10, 0x7B, 0x9A, 0xC7, 0xF3, 0x91, 0x78, 0x6F, 0x9D, 0x9E, 0xB2, 0xB1,
   0x32, 0x75, 0x19, 0x3D, 0xFF, 0x35, 0x8A, 0x7E, 0x6D, 0x54, 0xC6, 0x80, 0xC3, 0xBD, 0x0D, 0x57,
   0xDF, 0xF5, 0x24, 0xA9, 0x3E, 0xA8, 0x43, 0xC9, 0xD7, 0x79, 0xD6, 0xF6, 0x7C, 0x22, 0xB9, 0x03,
   0xE0, 0x0F, 0xEC, 0xDE, 0x7A, 0x94, 0xB0, 0xBC, 0xDC, 0xE8, 0x28, 0x50, 0x4E, 0x33, 0x0A, 0x4A,
   0xA7, 0x97, 0x60, 0x73, 0x1E, 0x00, 0x62, 0x44, 0x1A, 0xB8, 0x38, 0x82, 0x64, 0x9F, 0x26, 0x41,
   0xAD, 0x45, 0x46, 0x92, 0x27, 0x5E, 0x55, 0x2F, 0x8C, 0xA3, 0xA5, 0x7D, 0x69, 0xD5, 0x95, 0x3B,
   0x07, 0x58, 0xB3, 0x40, 0x86, 0xAC, 0x1D, 0xF7, 0x30, 0x37, 0x6B, 0xE4, 0x88, 0xD9, 0xE7, 0x89,
   0xE1, 0x1B, 0x83, 0x49, 0x4C, 0x3F, 0xF8, 0xFE, 0x8D, 0x53, 0xAA, 0x90, 0xCA, 0xD8, 0x85, 0x61,
   0x20, 0x71, 0x67, 0xA4, 0x2D, 0x2B, 0x09, 0x5B, 0xCB, 0x9B, 0x25, 0xD0, 0xBE, 0xE5, 0x6C, 0x52,
   0x59, 0xA6, 0x74, 0xD2, 0xE6, 0xF4, 0xB4, 0xC0, 0xD1, 0x66, 0xAF, 0xC2, 0x39, 0x4B, 0x63, 0xB6]

/-- The substitution π on bytes. -/
def pi (x : Byte) : Byte := BitVec.ofNat 8 (piTable.getD x.toNat 0)

/-- The polynomial product over GF(2) of two polynomials of degree below 8 (bits are
coefficients). -/
def polyMul (a b : Byte) : BitVec 16 :=
  (List.range 8).foldl
    (fun p i => if b.getLsbD i then p ^^^ (a.setWidth 16 <<< i) else p) 0

/-- Remainder of a polynomial of degree below 16 modulo `x⁸ + x⁷ + x⁶ + x + 1` (0x1c3): the bits 15
to 8 are cleared one by one. -/
def polyMod (p : BitVec 16) : Byte :=
  ((List.range 8).foldl
    (fun p i => if p.getLsbD (15 - i) then p ^^^ ((0x1c3 : BitVec 16) <<< (7 - i)) else p)
    p).setWidth 8

/-- Multiplication in GF(2)[x] / (x⁸ + x⁷ + x⁶ + x + 1). That this is that field's multiplication is
theorem `C39_gmul_is_field_multiplication`. -/
def gfMul (a b : Byte) : Byte := polyMod (polyMul a b)

/-- Byte `i` of a block `a = a₁₅‖…‖a₀`. -/
def byte (a : Block) (i : Nat) : Byte := a.extractLsb' (8 * i) 8

/-- The block `f 15‖…‖f 0`. -/
def ofBytes (f : Nat → Byte) : Block :=
  f 15 ++ f 14 ++ f 13 ++ f 12 ++ f 11 ++ f 10 ++ f 9 ++ f 8 ++
  f 7 ++ f 6 ++ f 5 ++ f 4 ++ f 3 ++ f 2 ++ f 1 ++ f 0

/-- The linear form `ℓ(a₁₅, …, a₀)` (GOST R 34.12-2015, 4.1.2). -/
def ell (a : Block) : Byte :=
  gfMul 148 (byte a 15) ^^^ gfMul 32 (byte a 14) ^^^ gfMul 133 (byte a 13) ^^^
  gfMul 16 (byte a 12) ^^^ gfMul 194 (byte a 11) ^^^ gfMul 192 (byte a 10) ^^^
  gfMul 1 (byte a 9) ^^^ gfMul 251 (byte a 8) ^^^ gfMul 1 (byte a 7) ^^^
  gfMul 192 (byte a 6) ^^^ gfMul 194 (byte a 5) ^^^ gfMul 16 (byte a 4) ^^^
  gfMul 133 (byte a 3) ^^^ gfMul 32 (byte a 2) ^^^ gfMul 148 (byte a 1) ^^^ gfMul 1 (byte a 0)

/-- `X[k](a) = k ⊕ a`. -/
def X (k a : Block) : Block := k ^^^ a

/-- `S(a₁₅‖…‖a₀) = π(a₁₅)‖…‖π(a₀)`. -/
def S (a : Block) : Block := ofBytes fun i => pi (byte a i)

/-- `R(a₁₅‖…‖a₀) = ℓ(a₁₅, …, a₀)‖a₁₅‖…‖a₁`. -/
def R (a : Block) : Block := ofBytes fun i => if i = 15 then ell a else byte a (i + 1)

/-- `L = R¹⁶`. -/
def L (a : Block) : Block := Nat.repeat R 16 a

/-- `LSX[k]`. -/
def LSX (k a : Block) : Block := L (S (X k a))

/-- The iteration constants `Cᵢ = L(Vec₁₂₈(i))`. -/
def C (i : Nat) : Block := L (BitVec.ofNat 128 i)

/-- `F[k](a₁, a₀) = (LSX[k](a₁) ⊕ a₀, a₁)`. -/
def F (k : Block) (x : Block × Block) : Block × Block := (LSX k x.1 ^^^ x.2, x.1)

/-- The pairs of round keys: `(K₁, K₂)` is the key, and
`(K₂ᵢ₊₁, K₂ᵢ₊₂) = F[C₈₍ᵢ₋₁₎₊₈] … F[C₈₍ᵢ₋₁₎₊₁](K₂ᵢ₋₁, K₂ᵢ)`. `keyPair K i` is
`(K₂ᵢ₊₁, K₂ᵢ₊₂)`. -/
def keyPair (K : BitVec 256) : Nat → Block × Block
  | 0 => (K.extractLsb' 128 128, K.extractLsb' 0 128)
  | i + 1 => (List.range 8).foldl (fun x j => F (C (8 * i + j + 1)) x) (keyPair K i)

/-- The round keys `K₁ … K₁₀`. -/
def roundKeys (K : BitVec 256) : List Block :=
  (List.range 5).flatMap fun i => [(keyPair K i).1, (keyPair K i).2]

/-- `E = X[K₁₀] LSX[K₉] … LSX[K₁]` for ten round keys. -/
def encWith (ks : List Block) (a : Block) : Block :=
  match ks with
  | [] => a
  | [k] => X k a
  | k :: ks => encWith ks (LSX k a)

/-- Encryption by GOST R 34.12-2015 with a 128-bit block. -/
def enc (K : BitVec 256) (a : Block) : Block := encWith (roundKeys K) a

/-- The inverse of π: the place of the byte in the table. -/
def piInv (x : Byte) : Byte := BitVec.ofNat 8 (piTable.findIdx (· == x.toNat))

/-- The inverse of `S`. -/
def Sinv (a : Block) : Block := ofBytes fun i => piInv (byte a i)

/-- `R⁻¹(a₁₅‖…‖a₀) = a₁₄‖…‖a₀‖ℓ(a₁₄, …, a₀, a₁₅)`. -/
def Rinv (a : Block) : Block :=
  ofBytes fun i => if i = 0 then ell (ofBytes fun j => if j = 0 then byte a 15 else byte a (j - 1))
    else byte a (i - 1)

/-- `L⁻¹ = (R⁻¹)¹⁶`. -/
def Linv (a : Block) : Block := Nat.repeat Rinv 16 a

/-- Decryption with ten round keys: `D = X[K₁] S⁻¹ L⁻¹ X[K₂] … S⁻¹ L⁻¹ X[K₁₀]`. -/
def decWith (ks : List Block) (a : Block) : Block :=
  match ks with
  | [] => a
  | [k] => X k a
  | k :: ks => X k (Sinv (Linv (decWith ks a)))

/-- Decryption by GOST R 34.12-2015 with a 128-bit block. -/
def dec (K : BitVec 256) (a : Block) : Block := decWith (roundKeys K) a

end Spec.Kuz
