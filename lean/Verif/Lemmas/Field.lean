import Verif.Model.Kuznyechik
import Verif.Spec.Kuznyechik
/-
Byte arithmetic of Kuznyechik: `gmul` is `Spec.Kuz.gfMul`, and both are bilinear.
-/
namespace Goost
open Spec.Kuz

theorem forall_byte {P : Spec.Kuz.Byte → Prop} (h : ∀ i : Fin 256, P (BitVec.ofNat 8 i.val)) (x : Spec.Kuz.Byte) : P x := by
  have := h ⟨x.toNat, x.isLt⟩
  simpa using this

/-- Multiplication by `x`. -/
def xt (a : Byte) : Byte := (a <<< 1) ^^^ (if a.getLsbD 7 then 0xc3 else 0)

theorem gmul_step_hi (a : Byte) :
    (if a &&& 0x80 = 0x80 then (a <<< 1) ^^^ 0xc3 else a <<< 1) = xt a :=
  forall_byte (P := fun a => (if a &&& 0x80 = 0x80 then (a <<< 1) ^^^ 0xc3 else a <<< 1) = xt a)
    (by decide +kernel) a

theorem gmul_step_lo (b p a : Byte) :
    (if b &&& 1 = 1 then p ^^^ a else p) = p ^^^ (if b.getLsbD 0 then a else 0) := by
  have h : b &&& 1 = 1 ↔ b.getLsbD 0 = true :=
    forall_byte (P := fun b => b &&& 1 = 1 ↔ b.getLsbD 0 = true) (by decide +kernel) b
  by_cases hb : b.getLsbD 0 = true
  · rw [if_pos (h.2 hb), if_pos hb]
  · rw [if_neg (fun e => hb (h.1 e)), if_neg hb]; simp

theorem gmulLoop_succ (n : Nat) (p a b : Byte) :
    Kuz.gmulLoop (n + 1) p a b =
      Kuz.gmulLoop n (p ^^^ (if b.getLsbD 0 then a else 0)) (xt a) (b >>> 1) := by
  rw [← gmul_step_hi, ← gmul_step_lo]; rfl

/-- `gmul` as a sum over the bits of the second factor. -/
theorem gmul_sum (a b : Byte) : Kuz.gmul a b =
    (if b.getLsbD 0 then a else 0) ^^^ (if b.getLsbD 1 then xt a else 0) ^^^
    (if b.getLsbD 2 then xt (xt a) else 0) ^^^ (if b.getLsbD 3 then xt (xt (xt a)) else 0) ^^^
    (if b.getLsbD 4 then xt (xt (xt (xt a))) else 0) ^^^
    (if b.getLsbD 5 then xt (xt (xt (xt (xt a)))) else 0) ^^^
    (if b.getLsbD 6 then xt (xt (xt (xt (xt (xt a))))) else 0) ^^^
    (if b.getLsbD 7 then xt (xt (xt (xt (xt (xt (xt a)))))) else 0) := by
  have e0 : ∀ p a b, Kuz.gmulLoop 0 p a b = p := fun _ _ _ => rfl
  show Kuz.gmulLoop (0 + 1 + 1 + 1 + 1 + 1 + 1 + 1 + 1) 0 a b = _
  simp only [gmulLoop_succ, e0, BitVec.getLsbD_ushiftRight, Nat.add_zero, Nat.reduceAdd,
    BitVec.ofNat_eq_ofNat, BitVec.zero_xor]

theorem xt_xor (a b : Byte) : xt (a ^^^ b) = xt a ^^^ xt b := by
  unfold xt
  rw [BitVec.shiftLeft_xor_distrib, BitVec.getLsbD_xor]
  have h : ∀ (c d : Bool) (x y k : Byte), (x ^^^ y) ^^^ (if (c ^^ d) then k else 0) =
      (x ^^^ (if c then k else 0)) ^^^ (y ^^^ (if d then k else 0)) := by
    intro c d x y k
    have e : x ^^^ k ^^^ (y ^^^ k) = (x ^^^ y) ^^^ (k ^^^ k) := by ac_rfl
    cases c <;> cases d <;> simp only [Bool.xor_false, Bool.xor_true, Bool.not_true, Bool.not_false,
      if_true, BitVec.ofNat_eq_ofNat, BitVec.xor_zero, Bool.false_eq_true, if_false]
    · ac_rfl
    · ac_rfl
    · rw [e, BitVec.xor_self, BitVec.xor_zero]
  exact h _ _ _ _ _

theorem ite_xor (c : Bool) {n : Nat} (a b : BitVec n) :
    (if c then a ^^^ b else 0) = (if c then a else 0) ^^^ (if c then b else 0) := by
  cases c <;> simp

theorem gmul_xor_left (a a' b : Byte) :
    Kuz.gmul (a ^^^ a') b = Kuz.gmul a b ^^^ Kuz.gmul a' b := by
  simp only [gmul_sum, xt_xor, ite_xor]
  ac_rfl

theorem polyMul_sum (a b : Byte) : polyMul a b =
    (if b.getLsbD 0 then a.setWidth 16 <<< 0 else 0) ^^^ (if b.getLsbD 1 then a.setWidth 16 <<< 1 else 0) ^^^
    (if b.getLsbD 2 then a.setWidth 16 <<< 2 else 0) ^^^ (if b.getLsbD 3 then a.setWidth 16 <<< 3 else 0) ^^^
    (if b.getLsbD 4 then a.setWidth 16 <<< 4 else 0) ^^^ (if b.getLsbD 5 then a.setWidth 16 <<< 5 else 0) ^^^
    (if b.getLsbD 6 then a.setWidth 16 <<< 6 else 0) ^^^ (if b.getLsbD 7 then a.setWidth 16 <<< 7 else 0) := by
  have step : ∀ (c : Bool) (p q : BitVec 16),
      (if c then p ^^^ q else p) = p ^^^ (if c then q else 0) := by
    intro c p q; cases c <;> simp
  simp only [polyMul, List.range, List.range.loop, List.foldl_cons, List.foldl_nil, step,
    BitVec.ofNat_eq_ofNat, BitVec.zero_xor]

/-- One step of the reduction. -/
def red (k : Nat) (c p : BitVec 16) : BitVec 16 := if p.getLsbD k then p ^^^ c else p

theorem red_xor (k : Nat) (c p q : BitVec 16) : red k c (p ^^^ q) = red k c p ^^^ red k c q := by
  unfold red
  rw [BitVec.getLsbD_xor]
  cases p.getLsbD k <;> cases q.getLsbD k <;>
    simp only [bne_self_eq_false, Bool.xor_false, Bool.xor_true, Bool.false_eq_true, if_false,
      if_true, Bool.not_false]
  · ac_rfl
  · ac_rfl
  · have : p ^^^ c ^^^ (q ^^^ c) = (p ^^^ q) ^^^ (c ^^^ c) := by ac_rfl
    rw [this, BitVec.xor_self, BitVec.xor_zero]

theorem polyMod_red (p : BitVec 16) : polyMod p =
    (red 8 (0x1c3 <<< 0) (red 9 (0x1c3 <<< 1) (red 10 (0x1c3 <<< 2) (red 11 (0x1c3 <<< 3)
    (red 12 (0x1c3 <<< 4) (red 13 (0x1c3 <<< 5) (red 14 (0x1c3 <<< 6) (red 15 (0x1c3 <<< 7)
      p)))))))).setWidth 8 := rfl

theorem polyMod_xor (p q : BitVec 16) : polyMod (p ^^^ q) = polyMod p ^^^ polyMod q := by
  simp only [polyMod_red, red_xor, BitVec.setWidth_xor]

theorem polyMod_ite (c : Bool) (p : BitVec 16) :
    polyMod (if c then p else 0) = if c then polyMod p else 0 := by
  cases c
  · show polyMod 0 = 0
    decide
  · rfl

theorem polyMod_shift (a : Byte) :
    polyMod (a.setWidth 16 <<< 0) = a ∧ polyMod (a.setWidth 16 <<< 1) = xt a ∧
    polyMod (a.setWidth 16 <<< 2) = xt (xt a) ∧ polyMod (a.setWidth 16 <<< 3) = xt (xt (xt a)) ∧
    polyMod (a.setWidth 16 <<< 4) = xt (xt (xt (xt a))) ∧
    polyMod (a.setWidth 16 <<< 5) = xt (xt (xt (xt (xt a)))) ∧
    polyMod (a.setWidth 16 <<< 6) = xt (xt (xt (xt (xt (xt a))))) ∧
    polyMod (a.setWidth 16 <<< 7) = xt (xt (xt (xt (xt (xt (xt a)))))) :=
  forall_byte (P := fun a => polyMod (a.setWidth 16 <<< 0) = a ∧ polyMod (a.setWidth 16 <<< 1) = xt a ∧
    polyMod (a.setWidth 16 <<< 2) = xt (xt a) ∧ polyMod (a.setWidth 16 <<< 3) = xt (xt (xt a)) ∧
    polyMod (a.setWidth 16 <<< 4) = xt (xt (xt (xt a))) ∧
    polyMod (a.setWidth 16 <<< 5) = xt (xt (xt (xt (xt a)))) ∧
    polyMod (a.setWidth 16 <<< 6) = xt (xt (xt (xt (xt (xt a))))) ∧
    polyMod (a.setWidth 16 <<< 7) = xt (xt (xt (xt (xt (xt (xt a)))))))
    (by decide +kernel) a

theorem gmul_eq_gfMul (a b : Byte) : Kuz.gmul a b = gfMul a b := by
  obtain ⟨h0, h1, h2, h3, h4, h5, h6, h7⟩ := polyMod_shift a
  rw [gmul_sum, gfMul, polyMul_sum]
  simp only [polyMod_xor, polyMod_ite, h0, h1, h2, h3, h4, h5, h6, h7]

theorem gfMul_xor_right (a b b' : Byte) : gfMul a (b ^^^ b') = gfMul a b ^^^ gfMul a b' := by
  have h : ∀ (c d : Bool) (x : Byte), (if (c ^^ d) then x else 0) =
      (if c then x else 0) ^^^ (if d then x else 0) := by
    intro c d x; cases c <;> cases d <;> simp
  simp only [← gmul_eq_gfMul, gmul_sum, BitVec.getLsbD_xor, h]
  ac_rfl

/-- The coefficients of the linear form commute with every byte. -/
theorem gfMul_comm_coeff (x : Byte) :
    gfMul x 1 = gfMul 1 x ∧ gfMul x 148 = gfMul 148 x ∧ gfMul x 32 = gfMul 32 x ∧
    gfMul x 133 = gfMul 133 x ∧ gfMul x 16 = gfMul 16 x ∧ gfMul x 194 = gfMul 194 x ∧
    gfMul x 192 = gfMul 192 x ∧ gfMul x 251 = gfMul 251 x ∧ gfMul 1 x = x :=
  forall_byte (P := fun x => gfMul x 1 = gfMul 1 x ∧ gfMul x 148 = gfMul 148 x ∧
    gfMul x 32 = gfMul 32 x ∧ gfMul x 133 = gfMul 133 x ∧ gfMul x 16 = gfMul 16 x ∧
    gfMul x 194 = gfMul 194 x ∧ gfMul x 192 = gfMul 192 x ∧ gfMul x 251 = gfMul 251 x ∧
    gfMul 1 x = x) (by decide +kernel) x

/-- The inverses of the bytes 1 … 255. -/
def inverses : List Nat :=
  [0, 1, 225, 190, 145, 106, 95, 129, 169, 127, 53, 101, 206, 83, 161, 38, 181, 163, 222, 30, 251,
   118, 211, 49, 103, 208, 200, 148, 177, 35, 19, 223, 187, 244, 176, 29, 111, 108, 15, 160, 156,
   93, 59, 241, 136, 205, 249, 195, 210, 23, 104, 97, 100, 10, 74, 218, 185, 174, 240, 42, 232,
   132, 142, 147, 188, 113, 122, 139, 88, 246, 239, 124, 214, 221, 54, 219, 230, 167, 80, 170, 78,
   171, 207, 13, 252, 158, 153, 114, 68, 247, 135, 165, 157, 41, 128, 6, 105, 51, 234, 237, 52,
   11, 209, 24, 50, 96, 5, 144, 37, 110, 109, 36, 189, 65, 87, 152, 120, 196, 21, 250, 116, 197,
   66, 138, 71, 238, 168, 9, 94, 7, 217, 242, 61, 233, 164, 90, 44, 204, 123, 67, 150, 199, 62,
   146, 107, 4, 143, 63, 27, 201, 140, 198, 115, 86, 178, 183, 40, 92, 85, 253, 39, 14, 180, 17,
   134, 91, 231, 77, 126, 8, 79, 81, 173, 172, 57, 184, 34, 28, 154, 182, 162, 16, 179, 155, 175,
   56, 245, 32, 64, 112, 3, 224, 213, 226, 248, 47, 117, 121, 151, 141, 26, 149, 228, 255, 137,
   45, 12, 82, 25, 102, 48, 22, 227, 192, 72, 220, 243, 130, 55, 75, 215, 73, 18, 31, 191, 2, 193,
   212, 202, 254, 76, 166, 60, 133, 98, 236, 235, 99, 125, 70, 58, 43, 131, 216, 33, 186, 69, 89,
   194, 46, 119, 20, 84, 159, 229, 203]

theorem gmul_inverse (a : BitVec 8) :
    a = 0 ∨ Kuz.gmul a (BitVec.ofNat 8 (inverses.getD a.toNat 0)) = 1 :=
  forall_byte (P := fun a => a = 0 ∨ Kuz.gmul a (BitVec.ofNat 8 (inverses.getD a.toNat 0)) = 1)
    (by decide +kernel) a

end Goost
