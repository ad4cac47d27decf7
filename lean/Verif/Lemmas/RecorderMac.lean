import Verif.Lemmas.Recorder
import Verif.Lemmas.KuzStream
/-
The unavoidable nesting of the blocks of the modes.
-/
namespace Goost
open Kuz Spec Spec.Kuz

variable {ι : Type}

theorem transform_spine (b : Blk) (n : Nat) : (BlkL.transform b n).spine = b.spine + n := by
  induction n generalizing b with
  | zero => rfl
  | succ n ih =>
    rw [BlkL.transform, ih]
    simp only [Blk.spine]
    omega

theorem step_spine (b k : Blk) : (Key.encryptStep b k).spine = b.spine + 18 := by
  simp only [Key.encryptStep, BlkL, transform_spine, Blk.spine]

theorem encrypted_spine (b : Blk) (key : Key) : (BlkEncrypted b key).spine = b.spine + 163 := by
  simp only [BlkEncrypted, Key.encrypt, Blk.spine, step_spine]

theorem Imit_loop_spine {key : Key} {it : IterImpl ι} {n : Nat} (p : List (W64 × W64)) (v : W64 × W64) {i : ι}
    (hs : Shows it n i (p ++ [v])) (fuel : Nat) (hf : p.length < fuel) (block : Blk) :
    ∃ block' j, Imit.loop it key fuel (some i) block = .ok (block', some j) ∧
      it.value j = .ok v ∧ it.size j = .ok n ∧ block'.spine = block.spine + 164 * p.length := by
  induction p generalizing i fuel block with
  | nil =>
    match fuel, hf with
    | fuel + 1, _ =>
      obtain ⟨h1, h2, h3⟩ := hs
      refine ⟨block, i, ?_, h1, h3, by simp⟩
      simp [Imit.loop, deref, h2]
  | cons x p ih =>
    match fuel, hf with
    | fuel + 1, hf =>
      obtain ⟨h1, h2, i', h4, h5⟩ : it.value i = .ok x ∧ it.last i = .ok false ∧
          ∃ j, it.next i = .ok (some j) ∧ Shows it n j (p ++ [v]) := by
        cases p with
        | nil => exact ⟨hs.1, hs.2.1, hs.2.2.2⟩
        | cons y p => exact ⟨hs.1, hs.2.1, hs.2.2.2⟩
      obtain ⟨block', j, e1, e3, e4, e5⟩ := ih h5 fuel (by simp at hf; omega)
        (BlkEncrypted (.xored block (BlkRaw.ofPair x)) key)
      refine ⟨block', j, ?_, e3, e4, ?_⟩
      · simp only [Imit.loop, deref, h2, h1, h4, Exec.ok_bind, Bool.not_false, if_true]
        exact e1
      · rw [e5, encrypted_spine, List.length_cons]
        simp only [Blk.spine]
        omega

theorem Imit_build_spine {key : Key} {it : IterImpl ι} {n : Nat} (p : List (W64 × W64)) (v : W64 × W64) {i : ι}
    (hs : Shows it n i (p ++ [v])) (fuel : Nat) (hf : p.length < fuel) :
    ∃ b, Imit.build it (.ok (some i)) fuel key = .ok b ∧ b.spine = 164 * (p.length + 1) + 2 := by
  obtain ⟨block, j, e1, e3, e4, e5⟩ := Imit_loop_spine (key := key) p v hs fuel hf BlkRaw.zero
  have h0 : BlkRaw.zero.spine = 1 := rfl
  by_cases hn : n = 16
  · refine ⟨BlkEncrypted (.xored (.xored block (BlkRaw.ofPair v)) (.xoredIfHighBit
      (BlkEncrypted BlkRaw.zero key) (BlkRaw.ofU64 0x87))) key, ?_, ?_⟩
    · simp only [Imit.build, Exec.ok_bind, e1, deref, e3, e4]
      rw [if_pos hn]
      rfl
    · rw [encrypted_spine]
      simp only [Blk.spine]
      omega
  · refine ⟨BlkEncrypted (.xored (.xored block (BlkRaw.ofPair v)) (.xoredIfHighBit (.xoredIfHighBit
      (BlkEncrypted BlkRaw.zero key) (BlkRaw.ofU64 0x87)) (BlkRaw.ofU64 0x87))) key, ?_, ?_⟩
    · simp only [Imit.build, Exec.ok_bind, e1, deref, e3, e4]
      rw [if_neg hn]
      rfl
    · rw [encrypted_spine]
      simp only [Blk.spine]
      omega

theorem repeat_incremented_spine (b : Blk) (n : Nat) : (Nat.repeat Blk.incremented n b).spine = n + b.spine := by
  induction n with
  | zero => simp [Nat.repeat]
  | succ n ih => simp only [Nat.repeat, Blk.spine, ih]; omega

end Goost
