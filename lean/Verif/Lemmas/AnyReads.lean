import Verif.Lemmas.Growing
import Verif.Spec.Endless
/-
Reads of any sizes from a decrypting source in any state.
-/
namespace Goost
open Spec Spec.Magma Spec.Modes Goost.Magma
variable {W σ : Type}

theorem ReadsBlocks_split (rd : σ → Nat → Io W (List Byte × σ)) (c : List W64) (j : Nat) (s s2 : σ) (w w2 : W)
    (h : ReadsBlocks rd s w c s2 w2) :
    ∃ s1 w1, ReadsBlocks rd s w (c.take j) s1 w1 ∧ ReadsBlocks rd s1 w1 (c.drop j) s2 w2 := by
  induction j generalizing c s w with
  | zero => exact ⟨s, w, ⟨rfl, rfl⟩, h⟩
  | succ j ih =>
    cases c with
    | nil => exact ⟨s, w, ⟨rfl, rfl⟩, h⟩
    | cons x c =>
      obtain ⟨s0, w0, e, h⟩ := h
      obtain ⟨s1, w1, h1, h2⟩ := ih c s0 w0 h
      exact ⟨s1, w1, ⟨s0, w0, e, h1⟩, h2⟩

/-- An endless source has as many blocks as one likes. -/
theorem EndlessSource_blocks {rd : σ → Nat → Io W (List Byte × σ)} {s : σ} {w : W} (h : EndlessSource rd s w) (n : Nat) :
    ∃ c s' w', c.length = n ∧ ReadsBlocks rd s w c s' w' ∧ EndlessSource rd s' w' := by
  induction n generalizing s w with
  | zero => exact ⟨[], s, w, rfl, ⟨rfl, rfl⟩, h⟩
  | succ n ih =>
    obtain ⟨R, h0, hR⟩ := h
    obtain ⟨x, s1, w1, e, hx, h1⟩ := hR s w h0
    obtain ⟨c, s', w', hc, hr, he⟩ := ih ⟨R, h1, hR⟩
    refine ⟨block64 x :: c, s', w', by simp [hc], ⟨s1, w1, ?_, hr⟩, he⟩
    rw [bytesOf64_block64 hx]
    exact e

/-- The arithmetic of cutting `P ++ D` at `n`. -/
theorem cut_pieces (P D : List Byte) (n k j : Nat) (hn : n ≤ P.length + j) :
    (P ++ D.take j).take n ++ (((P ++ D.take j).drop n) ++ D.drop j).take k = (P ++ D).take (n + k) := by
  by_cases hj : j ≤ D.length
  · have h : n ≤ (P ++ D.take j).length := by
      rw [List.length_append, List.length_take, Nat.min_eq_left hj]; exact hn
    rw [← List.drop_append_of_le_length h, ← List.take_append_of_le_length (l₂ := D.drop j) h, List.append_assoc,
      List.take_append_drop, ← List.take_add]
  · have e1 : D.take j = D := List.take_of_length_le (by omega)
    have e2 : D.drop j = [] := List.drop_of_length_le (by omega)
    rw [e1, e2, List.append_nil, ← List.take_add]

theorem CFBSource_readAll (m : Machine) (rd : σ → Nat → Io W (List Byte × σ)) {f} (sizes : List Nat)
    (t : CFBSource σ) (hc : Computes t.key f) (hl : t.key.isLazy = true) (c : List W64)
    (hn : c.length = (sizes.sum - t.plain.length + 7) / 8) (s' : σ) (w w' : W)
    (hr : ReadsBlocks rd t.source w c s' w') :
    ∃ pieces t', readAll (CFBSource.read m rd) t sizes w = (.ok (pieces, t'), w') ∧
      pieces.map List.length = sizes ∧
      pieces.flatten = (t.plain ++ unblocks64 (cfbDec (encF f) [t.ivl, t.ivr] c)).take sizes.sum ∧
      t'.source = s' ∧ t'.key = t.key := by
  induction sizes generalizing t c w with
  | nil =>
    have : c = [] := List.length_eq_zero_iff.1 (by rw [hn, List.sum_nil]; omega)
    subst this
    obtain ⟨rfl, rfl⟩ := hr
    exact ⟨[], t, rfl, rfl, by simp, rfl, rfl⟩
  | cons n ns ih =>
    rw [List.sum_cons] at hn
    generalize hj : (n - t.plain.length + 7) / 8 = j
    have hjc : j ≤ c.length := by omega
    obtain ⟨s1, w1, h1, h2⟩ := ReadsBlocks_split rd c j _ _ _ _ hr
    have hlt : (c.take j).length = j := by rw [List.length_take]; omega
    have e1 := (CFBSource_read_fetch m rd t hc hl n _ _ _ _ h1 (by
      intro hne
      have := List.length_pos_iff.2 hne
      omega)).1 (by omega)
    rw [hlt] at e1
    have hD : (unblocks64 (cfbDec (encF f) [t.ivl, t.ivr] (c.take j))) =
        (unblocks64 (cfbDec (encF f) [t.ivl, t.ivr] c)).take (8 * j) := by
      rw [cfbDec_take, unblocks64_take]
    have hL : (unblocks64 (cfbDec (encF f) [t.ivl, t.ivr] c)).length = 8 * c.length := by
      rw [unblocks64_length, cfbDec_length _ _ _ (by simp)]
    have hP1 : ((t.plain ++ unblocks64 (cfbDec (encF f) [t.ivl, t.ivr] (c.take j))).drop n).length =
        t.plain.length + 8 * j - n := by
      rw [List.length_drop, List.length_append, hD, List.length_take, hL]; omega
    obtain ⟨pieces, t', e2, e3, e4, e5, e6⟩ := ih
      (t := ⟨s1, t.key, ([t.ivl, t.ivr] ++ c.take j).getD j 0, ([t.ivl, t.ivr] ++ c.take j).getD (j + 1) 0,
        (t.plain ++ unblocks64 (cfbDec (encF f) [t.ivl, t.ivr] (c.take j))).drop n⟩) hc hl (c.drop j)
      (by simp only; rw [hP1, List.length_drop]; omega) w1 h2
    refine ⟨(t.plain ++ unblocks64 (cfbDec (encF f) [t.ivl, t.ivr] (c.take j))).take n :: pieces, t', ?_, ?_, ?_, e5, e6⟩
    · rw [readAll, Io.bind_run_ok e1]
      simp only
      rw [Io.bind_run_ok e2]
      rfl
    · rw [List.map_cons, e3, List.length_take, List.length_append, hD, List.length_take, hL]
      congr 1; omega
    · rw [List.flatten_cons, e4, List.sum_cons]
      simp only
      rw [cfbDec_resume (encF f) [t.ivl, t.ivr] _ c j (by simp) (by simp) (registers_two _ _ _ _ hjc), hD,
        ← unblocks64_drop]
      exact cut_pieces _ _ _ _ _ (by omega)

theorem gost89_CFBSource_readAll (m : Machine) (rd : σ → Nat → Io W (List Byte × σ)) {f} (sizes : List Nat)
    (t : Gost89.CFBSource σ) (hc : Computes t.key f) (hl : t.key.isLazy = true) (c : List W64)
    (hn : c.length = (sizes.sum - t.plain.length + 7) / 8) (s' : σ) (w w' : W)
    (hr : ReadsBlocks rd t.source w c s' w') :
    ∃ pieces t', readAll (Gost89.CFBSource.read m rd) t sizes w = (.ok (pieces, t'), w') ∧
      pieces.map List.length = sizes ∧
      pieces.flatten = (t.plain ++ unblocks64 (cfbDec (encF f) [t.iv] c)).take sizes.sum ∧
      t'.source = s' ∧ t'.key = t.key := by
  induction sizes generalizing t c w with
  | nil =>
    have : c = [] := List.length_eq_zero_iff.1 (by rw [hn, List.sum_nil]; omega)
    subst this
    obtain ⟨rfl, rfl⟩ := hr
    exact ⟨[], t, rfl, rfl, by simp, rfl, rfl⟩
  | cons n ns ih =>
    rw [List.sum_cons] at hn
    generalize hj : (n - t.plain.length + 7) / 8 = j
    have hjc : j ≤ c.length := by omega
    obtain ⟨s1, w1, h1, h2⟩ := ReadsBlocks_split rd c j _ _ _ _ hr
    have hlt : (c.take j).length = j := by rw [List.length_take]; omega
    have e1 := (gost89_CFBSource_read_fetch m rd t hc hl n _ _ _ _ h1 (by
      intro hne
      have := List.length_pos_iff.2 hne
      omega)).1 (by omega)
    rw [hlt] at e1
    have hD : (unblocks64 (cfbDec (encF f) [t.iv] (c.take j))) =
        (unblocks64 (cfbDec (encF f) [t.iv] c)).take (8 * j) := by
      rw [cfbDec_take, unblocks64_take]
    have hL : (unblocks64 (cfbDec (encF f) [t.iv] c)).length = 8 * c.length := by
      rw [unblocks64_length, cfbDec_length _ _ _ (by simp)]
    have hP1 : ((t.plain ++ unblocks64 (cfbDec (encF f) [t.iv] (c.take j))).drop n).length =
        t.plain.length + 8 * j - n := by
      rw [List.length_drop, List.length_append, hD, List.length_take, hL]; omega
    obtain ⟨pieces, t', e2, e3, e4, e5, e6⟩ := ih
      (t := ⟨s1, t.key, ([t.iv] ++ c.take j).getD j 0,
        (t.plain ++ unblocks64 (cfbDec (encF f) [t.iv] (c.take j))).drop n⟩) hc hl (c.drop j)
      (by simp only; rw [hP1, List.length_drop]; omega) w1 h2
    refine ⟨(t.plain ++ unblocks64 (cfbDec (encF f) [t.iv] (c.take j))).take n :: pieces, t', ?_, ?_, ?_, e5, e6⟩
    · rw [readAll, Io.bind_run_ok e1]
      simp only
      rw [Io.bind_run_ok e2]
      rfl
    · rw [List.map_cons, e3, List.length_take, List.length_append, hD, List.length_take, hL]
      congr 1; omega
    · rw [List.flatten_cons, e4, List.sum_cons]
      simp only
      rw [cfbDec_resume (encF f) [t.iv] _ c j (by simp) (by simp) (registers_one _ _ _ hjc), hD,
        ← unblocks64_drop]
      exact cut_pieces _ _ _ _ _ (by omega)

end Goost
