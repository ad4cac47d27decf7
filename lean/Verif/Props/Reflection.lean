import Verif.Lemmas.Reflection
import Verif.Props.MagmaCipher
/-
C138: the last sixteen rounds of the 64-bit cipher.
-/
namespace Goost.Props
open Goost.Magma Goost.Reflection Spec Spec.Magma

/-- The eight rounds forwards, the same eight backwards, and the halves exchanged: the last sixteen of the 32 rounds of an encryption. -/
def lastSixteen (key : Key) (b : Blk) : Blk := .swapped (.backwarded (.forwarded b (some key)) (some key))

/-- C138. For every key that answers, the last sixteen rounds undo themselves: done twice, they give back any block, also one whose value
cannot be computed. -/
theorem C138_undo_themselves (m : Machine) {key : Key} (hk : Usable key) (b : Blk) :
    (lastSixteen key (lastSixteen key b)).value m = b.value m := by
  obtain ⟨f, hf⟩ := hk.computes
  cases hb : b.value m with
  | ok v =>
    simp only [lastSixteen, Blk.value, hb, Exec.ok_bind, Exec.pure_eq, forwardRounds_eq hf, backwardRounds_eq hf]
    have : ∀ v : W32 × W32, (v.2, v.1) = v.swap := fun _ => rfl
    rw [this, this, bwd_fwd, bwd_fwd, fwd_undo, Prod.swap_swap, undo_fwd]
  | throw e => simp [lastSixteen, Blk.value, hb]
  | ub u => simp [lastSixteen, Blk.value, hb]
  | diverge => simp [lastSixteen, Blk.value, hb]

example (m : Machine) := C138_undo_themselves m
  (LazyKey_ofString_computes (s := sampleKeyText) (by decide) (by decide)).usable (.raw 1 2)

/-- C138. And exactly 2³² of the 2⁶⁴ blocks come out of them as they were. -/
theorem C138_unchanged (m : Machine) {key : Key} (hk : Usable key) :
    {v : BitVec 32 × BitVec 32 | (lastSixteen key (.raw v.1 v.2)).value m = .ok v}.ncard = 2 ^ 32 := by
  obtain ⟨f, hf⟩ := hk.computes
  rw [← ncard_fixed (undo_fwd f) (fwd_undo f)]
  congr 1
  ext v
  simp only [Set.mem_ofPred_eq, lastSixteen, Blk.value, Exec.ok_bind, Exec.pure_eq, forwardRounds_eq hf, backwardRounds_eq hf]
  rw [← bwd_fwd]
  exact ⟨Exec.ok.inj, fun e => congrArg Exec.ok e⟩

example (m : Machine) := C138_unchanged m (LazyKey_ofString_computes (s := sampleKeyText) (by decide) (by decide)).usable

/-- C138. So, whatever the key, exactly 2³² blocks are encrypted as if there were only the first sixteen rounds. -/
theorem C138_encrypted (m : Machine) {key : Key} (hk : Usable key) :
    {v : BitVec 32 × BitVec 32 | (BlkEncrypted (.raw v.1 v.2) (some key)).value m =
      (Blk.forwarded (.forwarded (.raw v.1 v.2) (some key)) (some key)).value m}.ncard = 2 ^ 32 := by
  obtain ⟨f, hf⟩ := hk.computes
  rw [← ncard_fixed (F := fun v => fwd f (fwd f (fwd f v))) (R := fun w => undo f (undo f (undo f w)))
    (fun v => by simp only [undo_fwd]) (fun w => by simp only [fwd_undo])]
  congr 1
  ext v
  have e1 : (BlkEncrypted (.raw v.1 v.2) (some key)).value m = .ok (encP f v) := BlkEncrypted_value hf m rfl
  have e2 : (Blk.forwarded (.forwarded (.raw v.1 v.2) (some key)) (some key)).value m = .ok (fwd f (fwd f v)) := by
    simp only [Blk.value, Exec.ok_bind, forwardRounds_eq hf]
  simp only [Set.mem_ofPred_eq, e1, e2, encP]
  rw [bwd_fwd]
  constructor
  · intro h
    rw [Exec.ok.inj h, undo_fwd, undo_fwd]
  · intro h
    refine congrArg Exec.ok ?_
    have := congrArg (fun x => fwd f (fwd f x)) h
    simpa only [fwd_undo] using this

example (m : Machine) := C138_encrypted m (LazyKey_ofString_computes (s := sampleKeyText) (by decide) (by decide)).usable

/-- C138. And exactly 2³² are decrypted as if there were only the last sixteen. -/
theorem C138_decrypted (m : Machine) {key : Key} (hk : Usable key) :
    {v : BitVec 32 × BitVec 32 | (BlkDecrypted (.raw v.1 v.2) (some key)).value m =
      (Blk.swapped (.backwarded (.backwarded (.swapped (.raw v.1 v.2)) (some key)) (some key))).value m}.ncard = 2 ^ 32 := by
  obtain ⟨f, hf⟩ := hk.computes
  rw [← ncard_fixed (undo_fwd f) (fwd_undo f)]
  congr 1
  ext v
  have e1 : (BlkDecrypted (.raw v.1 v.2) (some key)).value m = .ok (undo f (undo f (undo f (fwd f v).swap))) := by
    rw [BlkDecrypted_value (v := v) hf m rfl, decP]
    simp only [undo, Prod.swap_swap]
  have e2 : (Blk.swapped (.backwarded (.backwarded (.swapped (.raw v.1 v.2)) (some key)) (some key))).value m =
      .ok (undo f (undo f v)) := by
    simp only [Blk.value, Exec.ok_bind, Exec.pure_eq, backwardRounds_eq hf, undo, Prod.swap_swap]
    rfl
  simp only [Set.mem_ofPred_eq, e1, e2]
  constructor
  · intro h
    have := congrArg (fun x => fwd f (fwd f x)) (Exec.ok.inj h)
    simpa only [fwd_undo] using this
  · intro h
    rw [h]

example (m : Machine) := C138_decrypted m (LazyKey_ofString_computes (s := sampleKeyText) (by decide) (by decide)).usable

/-- C138. If the words of the key read the same backwards (C84), exactly 2³² blocks are their own ciphertexts. -/
theorem C138_own_ciphertexts (m : Machine) {key : Key} (hk : Usable key)
    (hp : ∀ (v : BitVec 32) (i : Fin 8), key.transform v (i.val : Int) = key.transform v ((7 - i.val : Nat) : Int)) :
    {v : BitVec 32 × BitVec 32 | (BlkEncrypted (.raw v.1 v.2) (some key)).value m = .ok v}.ncard = 2 ^ 32 := by
  obtain ⟨f, hf⟩ := hk.computes
  have hr : ∀ i, f i = f i.rev := fun i => funext fun v => by
    have h1 := hf v i
    have h2 := hf v i.rev
    have : i.rev.val = 7 - i.val := by rw [Fin.val_rev]; omega
    rw [this, ← hp, h1] at h2
    exact Exec.ok.inj h2
  rw [← ncard_fixed (F := fun v => fwd f (fwd f v)) (R := fun w => undo f (undo f w)) (fun v => by simp only [undo_fwd])
    (fun w => by simp only [fwd_undo])]
  congr 1
  ext v
  have e1 : (BlkEncrypted (.raw v.1 v.2) (some key)).value m = .ok (encP f v) := BlkEncrypted_value hf m rfl
  have e2 : encP f v = undo f (undo f (fwd f (fwd f v)).swap) := by
    simp only [encP, undo, Prod.swap_swap, bwd_eq_fwd hr]
  simp only [Set.mem_ofPred_eq, e1, e2]
  exact ⟨Exec.ok.inj, fun e => congrArg Exec.ok e⟩

/-- Eight words that read the same backwards, with the substitution of the standard. -/
example (m : Machine) := C138_own_ciphertexts m (key := LazyKey.ofNative [1, 2, 3, 4, 4, 3, 2, 1] SboxR3412)
  (LazyKey_ofNative_computes (by decide) SboxR3412_eq).usable (by
    intro v i
    have : i.val = 0 ∨ i.val = 1 ∨ i.val = 2 ∨ i.val = 3 ∨ i.val = 4 ∨ i.val = 5 ∨ i.val = 6 ∨ i.val = 7 := by omega
    rcases this with h | h | h | h | h | h | h | h <;> rw [h] <;> rfl)

end Goost.Props
