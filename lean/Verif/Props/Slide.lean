import Verif.Lemmas.Slide
import Verif.Props.MagmaCipher
/-
C139: keys of eight equal words.
-/
namespace Goost.Props
open Goost.Magma Goost.Slide Spec Spec.Magma

/-- C139. If all eight words of the key do the same, then one encryption tells of another: a block that is one round ahead of another
block encrypts to a block that is one round ahead, for every key class and substitution. -/
theorem C139_one_round_ahead (m : Machine) {key : Key} (hk : Usable key)
    (he : ∀ (v : BitVec 32) (i : Fin 8), key.transform v (i.val : Int) = key.transform v 0) {a b c d x y : BitVec 32}
    (h : (BlkEncrypted (.raw a b) (some key)).value m = .ok (c, d)) (hx : key.transform a 0 = .ok x)
    (hy : key.transform d 0 = .ok y) :
    (BlkEncrypted (.raw (b ^^^ x) a) (some key)).value m = .ok (d, c ^^^ y) := by
  obtain ⟨f, hf⟩ := hk.computes
  have hr : ∀ i, f i = f 0 := fun i => funext fun v => by
    have h1 := hf v i
    rw [he, hf.c0] at h1
    exact (Exec.ok.inj h1).symm
  rw [hf.c0] at hx hy
  cases hx
  cases hy
  rw [BlkEncrypted_value (v := (a, b)) hf m rfl] at h
  rw [BlkEncrypted_value (v := (b ^^^ f 0 a, a)) hf m rfl]
  have := encP_phi hr (a, b)
  rw [Exec.ok.inj h] at this
  exact congrArg Exec.ok this

/-- The key of eight words 7 with the substitution of the standard. -/
example (m : Machine) (a b c d : BitVec 32) (h : (BlkEncrypted (.raw a b)
    (some (LazyKey.ofNative [7, 7, 7, 7, 7, 7, 7, 7] SboxR3412))).value m = .ok (c, d)) :=
  C139_one_round_ahead m (LazyKey_ofNative_computes (by decide) SboxR3412_eq).usable (by
    intro v i
    have : i.val = 0 ∨ i.val = 1 ∨ i.val = 2 ∨ i.val = 3 ∨ i.val = 4 ∨ i.val = 5 ∨ i.val = 6 ∨ i.val = 7 := by omega
    rcases this with h | h | h | h | h | h | h | h <;> rw [h] <;> rfl) h (SboxR3412_eq _) (SboxR3412_eq _)

/-- C139. The same for decryption. -/
theorem C139_decrypted (m : Machine) {key : Key} (hk : Usable key)
    (he : ∀ (v : BitVec 32) (i : Fin 8), key.transform v (i.val : Int) = key.transform v 0) {a b c d x y : BitVec 32}
    (h : (BlkDecrypted (.raw a b) (some key)).value m = .ok (c, d)) (hx : key.transform a 0 = .ok x)
    (hy : key.transform d 0 = .ok y) :
    (BlkDecrypted (.raw (b ^^^ x) a) (some key)).value m = .ok (d, c ^^^ y) := by
  obtain ⟨f, hf⟩ := hk.computes
  have hr : ∀ i, f i = f 0 := fun i => funext fun v => by
    have h1 := hf v i
    rw [he, hf.c0] at h1
    exact (Exec.ok.inj h1).symm
  rw [hf.c0] at hx hy
  cases hx
  cases hy
  rw [BlkDecrypted_value (v := (a, b)) hf m rfl] at h
  rw [BlkDecrypted_value (v := (b ^^^ f 0 a, a)) hf m rfl]
  have := decP_phi hr (a, b)
  rw [Exec.ok.inj h] at this
  exact congrArg Exec.ok this

example (m : Machine) (a b c d : BitVec 32) (h : (BlkDecrypted (.raw a b)
    (some (LazyKey.ofNative [7, 7, 7, 7, 7, 7, 7, 7] SboxR3412))).value m = .ok (c, d)) :=
  C139_decrypted m (LazyKey_ofNative_computes (by decide) SboxR3412_eq).usable (by
    intro v i
    have : i.val = 0 ∨ i.val = 1 ∨ i.val = 2 ∨ i.val = 3 ∨ i.val = 4 ∨ i.val = 5 ∨ i.val = 6 ∨ i.val = 7 := by omega
    rcases this with h | h | h | h | h | h | h | h <;> rw [h] <;> rfl) h (SboxR3412_eq _) (SboxR3412_eq _)

/-- C139. With the substitution of the standard, two such blocks tell the key: a key of eight equal words is known from what it
makes of one half of one block in the first round, which is the difference of the two blocks. -/
theorem C139_tells_the_key (k k' a : BitVec 32)
    (h : (LazyKey.ofNative (List.replicate 8 k) SboxR3412).transform a 0 =
      (LazyKey.ofNative (List.replicate 8 k') SboxR3412).transform a 0) : k = k' := by
  have e : ∀ k : BitVec 32, (LazyKey.ofNative (List.replicate 8 k) SboxR3412).transform a 0 = .ok (g Spec.Magma.pi k a) := fun k =>
    (LazyKey_ofNative_computes (kd := List.replicate 8 k) (by simp) SboxR3412_eq).c0 a
  rw [e, e] at h
  exact g_key_injective (Exec.ok.inj h)

/-- The hypothesis is met by a key and itself, and only so. -/
example : (LazyKey.ofNative (List.replicate 8 7) SboxR3412).transform 1 0 ≠
    (LazyKey.ofNative (List.replicate 8 8) SboxR3412).transform 1 0 := fun h => absurd (C139_tells_the_key 7 8 1 h) (by decide)

/-- C139. With other keys it is not so: with the words 1 to 8, the block one round ahead of the zero block does not encrypt to the
block one round ahead. -/
theorem C139_needs_equal_words : ∃ (c d x y : BitVec 32),
    let key := LazyKey.ofNative [1, 2, 3, 4, 5, 6, 7, 8] SboxR3412
    (BlkEncrypted (.raw 0 0) (some key)).value .x86 = .ok (c, d) ∧ key.transform 0 0 = .ok x ∧ key.transform d 0 = .ok y ∧
    (BlkEncrypted (.raw (0 ^^^ x) 0) (some key)).value .x86 ≠ .ok (d, c ^^^ y) := by
  have hc := LazyKey_ofNative_computes (kd := [1, 2, 3, 4, 5, 6, 7, 8]) (by decide) SboxR3412_eq
  refine ⟨_, _, _, _, BlkEncrypted_value (v := (0, 0)) hc .x86 rfl, hc.c0 0, hc.c0 _, ?_⟩
  rw [BlkEncrypted_value (v := (0 ^^^ _, 0)) hc .x86 rfl]
  intro h
  exact absurd (Exec.ok.inj h) (by decide +kernel)

end Goost.Props
