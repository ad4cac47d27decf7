import Verif.Props.KuzStream
/-
Property C101: reading a memory stream from any place (`StMemory::next_iter`).
-/
namespace Goost.Props
open Goost.Kuz Spec Spec.Modes

/-- C101. `next_iter(offset)` for every vector and every offset in bytes: null at and after the end; a
read outside the vector if just one word is left; otherwise an iterator whose block is made of the
word with number `offset / 8` and the one after it. -/
theorem C101_next_iter (data : List W64) (offset : Nat) :
    (data.length ≤ offset / 8 → StMemory.nextIter data offset = .ok none) ∧
    (data.length = offset / 8 + 1 → StMemory.nextIter data offset = .ub .oobRead) ∧
    (∀ lo hi, data[offset / 8]? = some lo → data[offset / 8 + 1]? = some hi →
      ∃ i, StMemory.nextIter data offset = .ok (some i) ∧
        (ItMemory.impl data).value i = .ok (lo, hi)) := by
  refine ⟨fun h => ?_, fun h => ?_, fun lo hi h1 h2 => ?_⟩
  · rw [StMemory.nextIter, if_pos h]
  · have e1 : data[offset / 8]? = some (data[offset / 8]'(by omega)) := by simp [h]
    have e2 : data[offset / 8 + 1]? = none := by simp [h]
    rw [StMemory.nextIter, if_neg (by omega)]
    simp only [vget, e1, e2]
    rfl
  · obtain ⟨hl, -⟩ := List.getElem?_eq_some_iff.1 h1
    rw [StMemory.nextIter, if_neg (by omega)]
    simp only [vget, h1, h2]
    exact ⟨_, rfl, rfl⟩

private theorem nextIter_offset {data : List W64} {off : Nat} {j : ItMemory}
    (hj : StMemory.nextIter data off = .ok (some j)) : j.offset = off := by
  simp only [StMemory.nextIter] at hj
  split at hj
  · simp at hj
  · cases e1 : vget data (off / 8) <;> rw [e1] at hj <;> simp at hj
    cases e2 : vget data (off / 8 + 1) <;> rw [e2] at hj <;> simp at hj
    rw [← hj]

/-- C101. While the stream exists, the iterators after that one are those of the following offsets: `n`
times `next()` is `next_iter(offset + 16 n)`, also if that fails or is null, as long as the iterators
before are there. -/
theorem C101_advance (data : List W64) (offset n : Nat) (i : ItMemory)
    (hi : StMemory.nextIter data offset = .ok (some i))
    (hn : offset / 8 + 2 * n ≤ data.length) :
    advance (ItMemory.impl data) n i = StMemory.nextIter data (offset + 16 * n) := by
  induction n generalizing offset i with
  | zero => rw [advance, ← hi]; rfl
  | succ n ih =>
    rw [advance]
    have e : (ItMemory.impl data).next i = StMemory.nextIter data (offset + 16) := by
      simp only [ItMemory.impl, ItMemory.next, if_true, nextIter_offset hi]
    rw [e]
    cases hx : StMemory.nextIter data (offset + 16) with
    | ok o =>
      cases o with
      | none =>
        cases n with
        | zero => rw [Exec.ok_bind, ← hx]
        | succ n =>
          exfalso
          obtain ⟨-, h2, h3⟩ := C101_next_iter data (offset + 16)
          have : (offset + 16) / 8 + 1 < data.length := by omega
          obtain ⟨j, hj, -⟩ := h3 data[(offset + 16) / 8] data[(offset + 16) / 8 + 1] (by simp)
            (by simp)
          rw [hx] at hj
          simp at hj
      | some j =>
        rw [Exec.ok_bind]
        have := ih (offset + 16) j hx (by omega)
        simp only at this ⊢
        rw [this]
        congr 1
        omega
    | throw =>
      exfalso
      simp only [StMemory.nextIter] at hx
      split at hx
      · simp at hx
      · unfold vget at hx
        split at hx <;> simp at hx
        split at hx <;> simp at hx
    | diverge =>
      exfalso
      simp only [StMemory.nextIter] at hx
      split at hx
      · simp at hx
      · unfold vget at hx
        split at hx <;> simp at hx
        split at hx <;> simp at hx
    | ub u =>
      cases n with
      | zero =>
        change _ = StMemory.nextIter data (offset + 16)
        rw [hx]
        rfl
      | succ n =>
        exfalso
        obtain ⟨-, h2, h3⟩ := C101_next_iter data (offset + 16)
        have : (offset + 16) / 8 + 1 < data.length := by omega
        obtain ⟨j, hj, -⟩ := h3 data[(offset + 16) / 8] data[(offset + 16) / 8 + 1] (by simp)
          (by simp)
        rw [hx] at hj
        simp at hj

example := C101_advance [1, 2, 3, 4, 5] 8 2 _ rfl (by decide)

/-- C101. If an even number of words, not zero, is left at the offset, the iterator shows exactly the
blocks made of these words; so two offsets within the same word are equivalent, and offsets at the
middle of a block are allowed. -/
theorem C101_shows (data : List W64) (offset : Nat) (h : offset / 8 < data.length)
    (he : (data.length - offset / 8) % 2 = 0) :
    ∃ i, StMemory.nextIter data offset = .ok (some i) ∧
      Shows (ItMemory.impl data) 16 i (wordPairs (data.drop (offset / 8))) := by
  obtain ⟨n, hn⟩ : ∃ n, data.length - offset / 8 = 2 * n + 2 :=
    ⟨(data.length - offset / 8) / 2 - 1, by omega⟩
  induction n generalizing offset with
  | zero =>
    obtain ⟨i, h1, h2⟩ := (C101_next_iter data offset).2.2 data[offset / 8]
      (data[offset / 8 + 1]'(by omega)) (by simp) (by simp)
    refine ⟨i, h1, ?_⟩
    rw [List.drop_eq_getElem_cons h, List.drop_eq_getElem_cons (i := offset / 8 + 1) (by omega),
      List.drop_of_length_le (by omega)]
    refine ⟨h2, ?_, rfl⟩
    have hnext : ItMemory.next data true i = .ok none := by
      simp only [ItMemory.next, if_true, nextIter_offset h1]
      exact (C101_next_iter data (offset + 16)).1 (by omega)
    simp only [ItMemory.impl, hnext, Exec.ok_bind]
    rfl
  | succ n ih =>
    obtain ⟨i, h1, h2⟩ := (C101_next_iter data offset).2.2 data[offset / 8]
      (data[offset / 8 + 1]'(by omega)) (by simp) (by simp)
    obtain ⟨j, h3, h4⟩ := ih (offset + 16) (by omega) (by omega) (by omega)
    have hk : (offset + 16) / 8 = offset / 8 + 1 + 1 := by omega
    have hnext : ItMemory.next data true i = .ok (some j) := by
      simp only [ItMemory.next, if_true, nextIter_offset h1, h3]
    refine ⟨i, h1, ?_⟩
    rw [List.drop_eq_getElem_cons h, List.drop_eq_getElem_cons (i := offset / 8 + 1) (by omega),
      ← hk]
    obtain ⟨v, r, e⟩ : ∃ v r, wordPairs (data.drop ((offset + 16) / 8)) = v :: r := by
      cases hw : wordPairs (data.drop ((offset + 16) / 8)) with
      | nil => rw [hw] at h4; exact h4.elim
      | cons v r => exact ⟨v, r, rfl⟩
    rw [wordPairs, e]
    rw [e] at h4
    refine ⟨h2, ?_, rfl, j, hnext, h4⟩
    simp only [ItMemory.impl, hnext, Exec.ok_bind]
    rfl

/-- C101. If an odd number `2 n + 1` of words is left, the iterator shows `n` blocks, and getting what
follows the last of them reads outside the vector. -/
theorem C101_odd_rest (data : List W64) (offset n : Nat)
    (h : data.length = offset / 8 + 2 * n + 1) :
    (n = 0 → StMemory.nextIter data offset = .ub .oobRead) ∧
    (∀ i, StMemory.nextIter data offset = .ok (some i) →
      advance (ItMemory.impl data) n i = .ub .oobRead) := by
  refine ⟨fun h0 => (C101_next_iter data offset).2.1 (by omega), fun i hi => ?_⟩
  rw [C101_advance data offset n i hi (by omega)]
  exact (C101_next_iter data (offset + 16 * n)).2.1 (by omega)

/-- Five words; from the second word on, at an offset that is not a multiple of 8. -/
example : ∃ i, StMemory.nextIter [1, 2, 3, 4, 5] 12 = .ok (some i) ∧
    Shows (ItMemory.impl [1, 2, 3, 4, 5]) 16 i [(2, 3), (4, 5)] :=
  C101_shows [1, 2, 3, 4, 5] 12 (by decide) (by decide)

example : (StMemory.nextIter [1, 2, 3, 4, 5] 16 >>= fun p => deref p
    (advance (ItMemory.impl [1, 2, 3, 4, 5]) 1)) = .ub .oobRead := by decide

end Goost.Props
