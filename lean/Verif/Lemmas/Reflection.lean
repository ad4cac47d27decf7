import Verif.Lemmas.RandomTablesBoth
/-
Helper lemmas for C138: eight rounds forwards and the same eight backwards.
-/
namespace Goost.Reflection
open Goost.Magma Goost.RandomTables Spec Spec.Magma

/-- What `fwd` has done, undone. -/
def undo (f : Fin 8 → W32 → W32) (w : W32 × W32) : W32 × W32 := (bwd f w.swap).swap

theorem undo_fwd (f : Fin 8 → W32 → W32) (v : W32 × W32) : undo f (fwd f v) = v := psi8R_psi8 xor_back f v

theorem fwd_undo (f : Fin 8 → W32 → W32) (w : W32 × W32) : fwd f (undo f w) = w := by
  have h := psi8R_psi8 (x := ((· ^^^ ·) : BitVec 32 → BitVec 32 → BitVec 32)) xor_back (fun i => f i.rev) w.swap
  simp only [psi8R, Fin.rev_rev] at h
  exact Prod.swap_injective h

theorem bwd_fwd (f : Fin 8 → W32 → W32) (v : W32 × W32) : (bwd f (fwd f v)).swap = undo f (fwd f v).swap := by
  rw [undo, Prod.swap_swap]

/-- An exchange of halves, seen through a permutation, leaves as many blocks as they are as there are words. -/
theorem ncard_fixed {F R : W32 × W32 → W32 × W32} (h1 : ∀ v, R (F v) = v) (h2 : ∀ w, F (R w) = w) :
    {v : W32 × W32 | R (F v).swap = v}.ncard = 2 ^ 32 := by
  have e : (Set.univ : Set (BitVec 32)).ncard = 2 ^ 32 := by
    rw [Set.ncard_univ, Nat.card_eq_fintype_card, Goost.Differences.card_bitVec]
  rw [← e]
  symm
  refine Set.ncard_congr (fun a _ => R (a, a)) (fun a _ => ?_) (fun a b _ _ e => ?_) fun v hv => ⟨(F v).1, trivial, ?_⟩
  · show R (F (R (a, a))).swap = R (a, a)
    rw [h2]; rfl
  · have := congrArg F e
    rw [h2, h2] at this
    exact (Prod.mk.inj this).1
  · have hv : R (F v).swap = v := hv
    have hs : (F v).swap = F v := by
      have := congrArg F hv
      rwa [h2] at this
    have : ((F v).1, (F v).1) = F v := Prod.ext rfl (congrArg Prod.fst hs).symm
    rw [this, h1]

theorem bwd_eq_fwd {f : Fin 8 → W32 → W32} (h : ∀ i, f i = f i.rev) (v : W32 × W32) : bwd f v = fwd f v := by
  rw [bwd_eq_psi8, fwd_eq_psi8]
  congr 1
  exact funext fun i => (h i).symm

end Goost.Reflection
