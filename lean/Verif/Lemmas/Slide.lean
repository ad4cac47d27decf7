import Verif.Lemmas.Reflection
import Verif.Lemmas.MagmaDifferences
/-
Helper lemmas for C139: rounds that are all the same.
-/
namespace Goost.Slide
open Goost.Magma Goost.Reflection Spec Spec.Magma

/-- One round, and the halves exchanged. -/
def phi (f : W32 → W32) (v : W32 × W32) : W32 × W32 := (v.2 ^^^ f v.1, v.1)

theorem fwd_eq_phi {f : Fin 8 → W32 → W32} (h : ∀ i, f i = f 0) (v : W32 × W32) :
    fwd f v = phi (f 0) (phi (f 0) (phi (f 0) (phi (f 0) (phi (f 0) (phi (f 0) (phi (f 0) (phi (f 0) v))))))) := by
  simp only [fwd, phi, h 1, h 2, h 3, h 4, h 5, h 6, h 7]

theorem fwd_phi {f : Fin 8 → W32 → W32} (h : ∀ i, f i = f 0) (v : W32 × W32) : fwd f (phi (f 0) v) = phi (f 0) (fwd f v) := by
  rw [fwd_eq_phi h, fwd_eq_phi h]

theorem encP_phi {f : Fin 8 → W32 → W32} (h : ∀ i, f i = f 0) (v : W32 × W32) :
    encP f (phi (f 0) v) = (phi (f 0) (encP f v).swap).swap := by
  have hr : ∀ i, f i = f i.rev := fun i => (h i).trans (h i.rev).symm
  simp only [encP, bwd_eq_fwd hr, fwd_phi h, Prod.swap_swap]

theorem decP_phi {f : Fin 8 → W32 → W32} (h : ∀ i, f i = f 0) (v : W32 × W32) :
    decP f (phi (f 0) v) = (phi (f 0) (decP f v).swap).swap := by
  have hr : ∀ i, f i = f i.rev := fun i => (h i).trans (h i.rev).symm
  simp only [decP, bwd_eq_fwd hr, fwd_phi h, Prod.swap_swap]

theorem g_key_injective {k k' x : BitVec 32} (h : g Spec.Magma.pi k x = g Spec.Magma.pi k' x) : k = k' := by
  by_contra hne
  have hx : x + k ≠ x + k' := fun e => hne (add_left_cancel e)
  refine Goost.Differences.g_injective 0 hx ?_
  have e : ∀ z : BitVec 32, z + 0 = z := fun z => add_zero z
  simp only [g] at h ⊢
  rw [e, e]
  exact h

end Goost.Slide
