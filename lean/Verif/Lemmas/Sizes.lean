import Verif.Model.Sizes
import Verif.Spec.KuzStreams
import Verif.Lemmas.KuzStream
/-
Positions as `size_t` and as numbers.
-/
namespace Goost.Kuz
open Spec

variable {w : Nat} {data : List W64}

/-- The same iterator, with its position as a `size_t` and as a number. -/
def At (data : List W64) (i : BitVec w × (W64 × W64)) (j : ItMemory) : Prop :=
  i.1.toNat = j.offset ∧ i.2 = j.data ∧ j.offset / 8 < data.length

/-- The same outcome. -/
def AtOut (data : List W64) : Exec (Option (BitVec w × (W64 × W64))) → Exec (Option ItMemory) → Prop
  | .ok none, .ok none => True
  | .ok (some i), .ok (some j) => At data i j
  | .ub a, .ub b => a = b
  | _, _ => False

theorem nextIterAt_out (hw : 5 ≤ w) (offset : BitVec w) :
    AtOut data (StMemory.nextIterAt data offset) (StMemory.nextIter data offset.toNat) := by
  have h8 : (8 : BitVec w).toNat = 8 := by
    have : 2 ^ 5 ≤ 2 ^ w := Nat.pow_le_pow_right (by omega) hw
    show 8 % 2 ^ w = 8
    exact Nat.mod_eq_of_lt (by omega)
  have hd : (offset / 8).toNat = offset.toNat / 8 := by rw [BitVec.toNat_udiv, h8]
  unfold StMemory.nextIterAt StMemory.nextIter
  rw [hd]
  split
  · trivial
  · rename_i h
    unfold vget
    rw [List.getElem?_eq_getElem (by omega)]
    cases hh : data[offset.toNat / 8 + 1]? with
    | none => exact rfl
    | some v => exact ⟨rfl, rfl, Nat.lt_of_not_le h⟩

theorem next_at (hw : 5 ≤ w) (hd : 8 * data.length + 16 ≤ 2 ^ w) {i : BitVec w × (W64 × W64)} {j : ItMemory}
    (h : At data i j) : AtOut data ((ItMemory.implAt w data).next i) ((ItMemory.impl data).next j) := by
  have h16 : (16 : BitVec w).toNat = 16 := by
    have : 2 ^ 5 ≤ 2 ^ w := Nat.pow_le_pow_right (by omega) hw
    show 16 % 2 ^ w = 16
    exact Nat.mod_eq_of_lt (by omega)
  have hn := nextIterAt_out (data := data) hw (i.1 + 16)
  have e : (i.1 + 16).toNat = j.offset + 16 := by
    have := h.2.2
    rw [BitVec.toNat_add, h16, h.1, Nat.mod_eq_of_lt (by omega)]
  rw [e] at hn
  exact hn

theorem last_at (hw : 5 ≤ w) (hd : 8 * data.length + 16 ≤ 2 ^ w) {i : BitVec w × (W64 × W64)} {j : ItMemory}
    (h : At data i j) : (ItMemory.implAt w data).last i = (ItMemory.impl data).last j := by
  have hn := next_at hw hd h
  show (StMemory.nextIterAt data (i.1 + 16) >>= fun n => pure n.isNone) =
    (ItMemory.next data true j >>= fun n => pure n.isNone)
  change AtOut data (StMemory.nextIterAt data (i.1 + 16)) (ItMemory.next data true j) at hn
  revert hn
  generalize StMemory.nextIterAt data (i.1 + 16) = a
  generalize ItMemory.next data true j = b
  intro hn
  unfold AtOut at hn
  split at hn
  · rfl
  · rfl
  · cases hn; rfl
  · exact hn.elim

theorem advance_at (hw : 5 ≤ w) (hd : 8 * data.length + 16 ≤ 2 ^ w) (n : Nat) {i : BitVec w × (W64 × W64)}
    {j : ItMemory} (h : At data i j) :
    AtOut data (advance (ItMemory.implAt w data) n i) (advance (ItMemory.impl data) n j) := by
  induction n generalizing i j with
  | zero => exact h
  | succ n ih =>
    have hn := next_at hw hd h
    rw [advance, advance]
    revert hn
    generalize (ItMemory.implAt w data).next i = a
    generalize (ItMemory.impl data).next j = b
    intro hn
    unfold AtOut at hn
    split at hn
    · cases n <;> first | trivial | rfl
    · exact ih hn
    · cases hn; exact rfl
    · exact hn.elim

theorem shows_at (hw : 5 ≤ w) (hd : 8 * data.length + 16 ≤ 2 ^ w) (size : Nat) (p : List (W64 × W64))
    {i : BitVec w × (W64 × W64)} {j : ItMemory} (h : At data i j) :
    Shows (ItMemory.implAt w data) size i p ↔ Shows (ItMemory.impl data) size j p := by
  induction p generalizing i j with
  | nil => exact Iff.rfl
  | cons v p ih =>
    have hl := last_at hw hd h
    have hv : (ItMemory.implAt w data).value i = (ItMemory.impl data).value j := congrArg Exec.ok h.2.1
    have hz : (ItMemory.implAt w data).size i = (ItMemory.impl data).size j := rfl
    cases p with
    | nil => rw [Shows, Shows, hl, hv, hz]
    | cons v' p =>
      rw [Shows, Shows, hl, hv, hz]
      have hn := next_at hw hd h
      revert hn
      generalize (ItMemory.implAt w data).next i = a
      generalize (ItMemory.impl data).next j = b
      intro hn
      constructor
      · rintro ⟨h1, h2, h3, k, rfl, h5⟩
        unfold AtOut at hn
        split at hn <;> first | exact hn.elim | (rename_i heq; cases heq; exact ⟨h1, h2, h3, _, rfl, (ih hn).1 h5⟩) | (rename_i heq; cases heq)
      · rintro ⟨h1, h2, h3, k, rfl, h5⟩
        unfold AtOut at hn
        split at hn <;> first | exact hn.elim | (rename_i heq; cases heq; exact ⟨h1, h2, h3, _, rfl, (ih hn).2 h5⟩) | (rename_i heq; cases heq)

end Goost.Kuz
