/-
Specification: modes of operation of GOST R 34.13-2015 and the MAC of GOST 28147-89, for any block
function `E` on `n`-bit blocks. Nothing here refers to the model.
-/
namespace Spec.Modes
variable {n : Nat}

/-- Electronic codebook. -/
def ecb (E : BitVec n → BitVec n) (p : List (BitVec n)) : List (BitVec n) := p.map E

/-- Cipher feedback with full-block feedback, encryption. The register is a queue of blocks, its
most significant block first: `C = P ⊕ E(MSB(R))`, then `C` is shifted in at the other end. -/
def cfbEnc (E : BitVec n → BitVec n) : List (BitVec n) → List (BitVec n) → List (BitVec n)
  | _, [] => []
  | [], _ => []
  | r :: R, p :: ps => (p ^^^ E r) :: cfbEnc E (R ++ [p ^^^ E r]) ps

/-- Cipher feedback with full-block feedback, decryption: `P = C ⊕ E(MSB(R))`, then `C` is shifted
in. -/
def cfbDec (E : BitVec n → BitVec n) : List (BitVec n) → List (BitVec n) → List (BitVec n)
  | _, [] => []
  | [], _ => []
  | r :: R, c :: cs => (c ^^^ E r) :: cfbDec E (R ++ [c]) cs

/-- Multiplication by `x` in the field representation used for the MAC keys: shift left by one bit
and add the constant `B` if the bit shifted out is 1. -/
def double (B : BitVec n) (r : BitVec n) : BitVec n :=
  if r.msb then (r <<< 1) ^^^ B else r <<< 1

/-- The auxiliary key K₁ of the MAC. -/
def macK1 (E : BitVec n → BitVec n) (B : BitVec n) : BitVec n := double B (E 0)

/-- The auxiliary key K₂ of the MAC. -/
def macK2 (E : BitVec n → BitVec n) (B : BitVec n) : BitVec n := double B (macK1 E B)

/-- The chaining value after the blocks `p`, starting from `c`: `Cᵢ = E(Pᵢ ⊕ Cᵢ₋₁)`. -/
def chain (E : BitVec n → BitVec n) (c : BitVec n) (p : List (BitVec n)) : BitVec n :=
  p.foldl (fun c x => E (x ^^^ c)) c

/-- The MAC (OMAC1) of the blocks `p` followed by the last block `last`, masked by `K`:
`E(P_q ⊕ C_{q-1} ⊕ K)`. With `K = macK1` for a complete last block, with `K = macK2` for a padded
one. -/
def omac (E : BitVec n → BitVec n) (K : BitVec n) (p : List (BitVec n)) (last : BitVec n) :
    BitVec n :=
  E (last ^^^ chain E 0 p ^^^ K)

/-- The counter after `i` blocks: `CTR₁ = IV‖0…0`, then one more per block, modulo `2^(k + k)`. -/
def counter {k : Nat} (iv : BitVec k) (i : Nat) : BitVec (k + k) :=
  (iv ++ (0 : BitVec k)) + BitVec.ofNat (k + k) i

/-- Counter mode: block number `i` is `P ⊕ E(CTR)`. -/
def ctr {k : Nat} (E : BitVec (k + k) → BitVec (k + k)) (iv : BitVec k)
    (p : List (BitVec (k + k))) : List (BitVec (k + k)) :=
  p.mapIdx fun i x => x ^^^ E (counter iv i)

end Spec.Modes
