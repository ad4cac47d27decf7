import Verif.Lemmas.Codes
import Verif.Lemmas.Reuse
import Verif.Lemmas.Reads
/-
Authentication codes of messages in front of which a known block and its encryption are put.
-/
namespace Goost
open Spec Spec.Magma Spec.Modes Goost.Magma

/-- A block in front, and its encryption added to the next block, change no code. -/
theorem omac_in_front {n : Nat} (E : BitVec n → BitVec n) (K x a l : BitVec n) (q : List (BitVec n)) :
    omac E K (x :: (a ^^^ E x) :: q) l = omac E K (a :: q) l := by
  have z : ∀ y : BitVec n, y ^^^ 0 = y := fun _ => BitVec.xor_zero
  simp only [omac, chain_cons, z, xor_cancel]

/-- The same if the next block is the last one. -/
theorem omac_in_front_last {n : Nat} (E : BitVec n → BitVec n) (K x l : BitVec n) :
    omac E K [x] (l ^^^ E x) = omac E K [] l := by
  have z : ∀ y : BitVec n, y ^^^ 0 = y := fun _ => BitVec.xor_zero
  simp only [omac, chain_cons, chain_nil, z, xor_cancel]

/-- A message has one code. -/
theorem MagmaCode_unique {key : Key} {d : List Byte} {v v' : W32 × W32} (h : MagmaCode key d v) (h' : MagmaCode key d v') :
    v = v' := by
  have e := h Unit _ memRead d () d.length (memRead_supplies d ()).blocks (by omega)
  rw [h' Unit _ memRead d () d.length (memRead_supplies d ()).blocks (by omega)] at e
  exact (Exec.ok.inj e).symm

/-- A block `x` with known encryption `z` gives, with any message of 8 bytes or more, a longer message with the same
code. -/
theorem MagmaCode_in_front {key : Key} {f} (h : Computes key f) {x z d : List Byte} (hx : x.length = 8) (hz : z.length = 8)
    (e : block64 z = encF f (block64 x)) (hd : 8 ≤ d.length) {v : W32 × W32} (hv : MagmaCode key d v) :
    MagmaCode key (x ++ List.zipWith (· ^^^ ·) (d.take 8) z ++ d.drop 8) v := by
  have hd0 : d ≠ [] := by rintro rfl; simp at hd
  obtain ⟨p, tail, ed, ht, ht8, hp, -⟩ := split_message hd0
  obtain ⟨v1, c1, e1⟩ := MagmaCode_exists h p tail ht ht8
  rw [← ed] at c1
  cases MagmaCode_unique hv c1
  have l8 : (d.take 8).length = 8 := by rw [List.length_take]; omega
  have lz : (List.zipWith (· ^^^ ·) (d.take 8) z).length = 8 := by rw [List.length_zipWith, l8, hz]; rfl
  cases p with
  | nil =>
    have et : d = tail := by simpa [unblocks64] using ed
    subst et
    have h8 : d.length = 8 := by omega
    obtain ⟨v2, c2, e2⟩ := MagmaCode_exists h [block64 x] (List.zipWith (· ^^^ ·) (d.take 8) z)
      (by rintro h0; rw [h0] at lz; simp at lz) (by omega)
    rw [if_pos lz, xorBytes_eq l8 hz, e, List.take_of_length_le (by omega), omac_in_front_last] at e2
    rw [if_pos h8] at e1
    cases join32_inj (e1.trans e2.symm)
    rw [List.drop_eq_nil_of_le (show d.length ≤ 8 by omega), List.append_nil]
    rwa [unblocks64_cons, bytesOf64_block64 hx, show unblocks64 [] = [] from rfl, List.append_nil] at c2
  | cons a q =>
    rw [unblocks64_cons, List.append_assoc] at ed
    have e8 : d.take 8 = bytesOf64 a := by
      rw [ed, List.take_append_of_le_length (by rw [bytesOf64_length]; omega),
        List.take_of_length_le (by rw [bytesOf64_length]; omega)]
    have e8' : d.drop 8 = unblocks64 q ++ tail := by
      rw [ed, List.drop_append_of_le_length (by rw [bytesOf64_length]; omega),
        List.drop_eq_nil_of_le (by rw [bytesOf64_length]; omega), List.nil_append]
    obtain ⟨v2, c2, e2⟩ := MagmaCode_exists h (block64 x :: (a ^^^ block64 z) :: q) tail ht ht8
    rw [e, omac_in_front] at e2
    cases join32_inj (e1.trans e2.symm)
    have ez : List.zipWith (· ^^^ ·) (d.take 8) z = bytesOf64 (a ^^^ block64 z) := by
      rw [← bytesOf64_block64 lz, xorBytes_eq l8 hz, e8, block64_bytesOf64]
    rw [ez, e8', List.append_assoc]
    rwa [unblocks64_cons, unblocks64_cons, bytesOf64_block64 hx, List.append_assoc, List.append_assoc] at c2

/-- Data and ciphertext of cipher feedback show encryptions of blocks. -/
theorem MagmaCode_in_front_cfb {key : Key} {f} (h : Computes key f) (R : List W64) (hR : R ≠ []) (d : List Byte) (n : Nat)
    (hn : 8 * n + 8 ≤ d.length) {message : List Byte} {v : W32 × W32} (hm : 8 ≤ message.length)
    (hv : MagmaCode key message v) :
    MagmaCode key (((unblocks64 R ++ unblocks64 (cfbEnc (encF f) R (blocks64 d))).drop (8 * n)).take 8 ++
      List.zipWith (· ^^^ ·) (message.take 8) (List.zipWith (· ^^^ ·) ((d.drop (8 * n)).take 8)
        (((unblocks64 (cfbEnc (encF f) R (blocks64 d))).drop (8 * n)).take 8)) ++ message.drop 8) v := by
  have len8 : ∀ (l : List Byte) k, 8 * k + 8 ≤ l.length → ((l.drop (8 * k)).take 8).length = 8 := by
    intro l k hk; rw [List.length_take, List.length_drop]; omega
  have len : (unblocks64 (cfbEnc (encF f) R (blocks64 d))).length = 8 * (d.length / 8) := by
    rw [unblocks64_length, cfbEnc_length _ _ _ hR, blocks64_length]
  have la := len8 d n hn
  have lc := len8 (unblocks64 (cfbEnc (encF f) R (blocks64 d))) n (by omega)
  have hlen : 8 * n + 8 ≤ (unblocks64 (R ++ cfbEnc (encF f) R (blocks64 d))).length := by
    rw [unblocks64_append, List.length_append]; omega
  rw [← unblocks64_append]
  refine MagmaCode_in_front h (len8 _ n hlen) (by rw [List.length_zipWith, la, lc]; rfl) ?_ hm hv
  have g := cfbEnc_getElem? (encF f) R (blocks64 d) hR n
  rw [blocks64_getElem d n hn] at g
  have u := blocks64_getElem (unblocks64 (cfbEnc (encF f) R (blocks64 d))) n (by omega)
  rw [blocks64_unblocks64, g] at u
  have r := blocks64_getElem (unblocks64 (R ++ cfbEnc (encF f) R (blocks64 d))) n hlen
  rw [blocks64_unblocks64] at r
  rw [List.getD_eq_getElem?_getD, r] at u
  simp only [Option.map_some, Option.some.injEq, Option.getD_some] at u
  rw [xorBytes_eq la lc, ← u, ← BitVec.xor_assoc, BitVec.xor_self, BitVec.zero_xor]

end Goost
