import Verif.Lemmas.Threads
/-
Properties C11 and C58: threads sharing a key.
-/
namespace Goost.Props
open Goost.Threads Goost.Magma Spec

/-! ### C11

`LazyKey::transform` calls `KeyCachedData::key` and then computes from its result and its argument
only, so the shared accesses are those of `KeyCachedData::key`. -/

/-- C11, the part about results. Any number of threads, thread `t` calling `key(index t)` on one fresh
`KeyCachedData` over key data with the words `k`; after every schedule (sequentially consistent
interleaving of the single loads and stores) every thread that has returned has got `k (index t)`.
Missing: freedom from data races, which is false, see `C11_data_race`. -/
theorem C11_results_right_partial (kd : KeyData) (k : Fin 8 → BitVec 32)
    (hk : ∀ i : Fin 8, kd (i.val : Int) = .ok (k i)) (index : Nat → Fin 8) (schedule : List Nat)
    (t : Nat) (r : Exec (BitVec 32))
    (hr : (((keyProgram kd).run (keyStart fun t => ((index t).val : Int)) schedule).locals t).pc =
      .done r) : r = .ok (k (index t)) := by
  have h := (keyProgram kd).invariant (KeyInv kd fun t => ((index t).val : Int))
    (fun s t => keyInv_step kd _ s t) (keyInv_start kd _) schedule
  rw [h.done t r hr, KeyCachedData_eq hk]

/-- The same for any key data, also failing, and any indices: every thread gets what a single first
call would get. -/
theorem C11_results_like_single_call (kd : KeyData) (index : Nat → Int) (schedule : List Nat)
    (t : Nat) (r : Exec (BitVec 32))
    (hr : (((keyProgram kd).run (keyStart index) schedule).locals t).pc = .done r) :
    r = (KeyCachedData.key (fun (o : Unit) j => (kd j, o)) (index t) {} ()).1 := by
  have h := (keyProgram kd).invariant (KeyInv kd index) (fun s t => keyInv_step kd _ s t)
    (keyInv_start kd _) schedule
  have e := ideal_const_history (Ω := Unit) kd [index t] none (by simp) ()
  obtain ⟨c', s', o', rs, e1, e2, _⟩ := history_eq (Ω := Unit) (fun o j => (kd j, o))
    [index t] {} none fresh_rel ()
  have e4 : runCalls (idealKey (constData kd)) [index t] (none, ()) = (rs, s', o') := e2
  rw [e4] at e
  have e5 := congrArg Prod.fst e1
  simp only [runCalls] at e5 e
  rw [e] at e5
  simp only [List.map_cons, List.map_nil, List.cons.injEq, and_true] at e5
  rw [h.done t r hr, e5]

/-- Every thread that has made at least 11 steps has returned. -/
theorem C11_every_thread_returns (kd : KeyData) (index : Nat → Int) (schedule : List Nat) (t : Nat)
    (h : 11 ≤ schedule.count t) :
    ∃ r, (((keyProgram kd).run (keyStart index) schedule).locals t).pc = .done r := by
  have key : ∀ (schedule : List Nat) (s : State KeyThread CachedData), KeyInv kd index s →
      ((((keyProgram kd).run s schedule).locals t).pc).left ≤
        ((s.locals t).pc).left - schedule.count t := by
    intro schedule
    induction schedule with
    | nil => intro s _; exact Nat.le_refl _
    | cons u us ih =>
      intro s hs
      refine Nat.le_trans (ih _ (keyInv_step kd index s u hs)) ?_
      have hstep : ((((keyProgram kd).run1 s u).locals t).pc).left ≤
          ((s.locals t).pc).left - (if u = t then 1 else 0) := by
        unfold Program.run1
        by_cases e : u = t
        · subst e
          simp only [if_true]
          cases hpc : (s.locals u).pc with
          | test =>
            simp only [keyProgram, hpc]
            split <;> simp [KeyPc.left]
          | fill i =>
            have hi := (hs.fill u i hpc).1
            simp only [keyProgram, hpc]
            split
            · rename_i hlt
              rw [hs.len] at hlt
              split <;> simp only [KeyPc.left] <;> omega
            · simp only [KeyPc.left]; omega
          | load => simp [keyProgram, hpc, KeyPc.left]
          | done r => simp [keyProgram, hpc, KeyPc.left]
        · have e' : ¬ t = u := fun h => e h.symm
          simp [e, e']
      rw [List.count_cons]
      by_cases e : u = t
      · simp only [e, if_true, beq_self_eq_true] at hstep ⊢
        omega
      · simp only [e, if_false, beq_iff_eq] at hstep ⊢
        omega
  have h0 := key schedule (keyStart index) (keyInv_start kd index)
  have h1 : (((keyStart index).locals t).pc).left = 11 := rfl
  rw [h1] at h0
  generalize hl : (((keyProgram kd).run (keyStart index) schedule).locals t) = l at h0 ⊢
  cases hpc : l.pc with
  | test => rw [hpc] at h0; simp only [KeyPc.left] at h0; omega
  | fill i =>
    exfalso
    have := (keyProgram kd).invariant (KeyInv kd index) (fun s t => keyInv_step kd _ s t)
      (keyInv_start kd index) schedule
    rw [hpc] at h0
    simp only [KeyPc.left] at h0
    have hi := (this.fill t i (by rw [hl, hpc])).1
    omega
  | load => rw [hpc] at h0; simp only [KeyPc.left] at h0; omega
  | done r => exact ⟨r, rfl⟩

/-- C11 is false of the code. Whatever the key data and the indices are, there is a schedule after
which two threads are about to store to the same word of the cache without synchronisation: a data
race, which is undefined behaviour. -/
theorem C11_data_race (kd : KeyData) (k0 : BitVec 32) (h0 : kd 0 = .ok k0) (index : Nat → Int) :
    ∃ schedule, (keyProgram kd).Race ((keyProgram kd).run (keyStart index) schedule) := by
  refine ⟨[0, 1], 0, 1, .key 0, true, true, by decide, ?_, ?_, Or.inl rfl⟩ <;>
    simp [Program.run, Program.run1, keyProgram, keyStart, h0]

/-- What is true about races: if the threads start after one call has returned normally, no schedule
leads to a race. -/
theorem C11_no_race_after_first_call_partial (kd : KeyData) (i : Int) (r : BitVec 32)
    (m : CachedData)
    (hfirst : KeyCachedData.key (fun (o : Unit) j => (kd j, o)) i {} () = (.ok r, m, ()))
    (index : Nat → Int) (schedule : List Nat) :
    ¬ (keyProgram kd).Race ((keyProgram kd).run ⟨fun t => ⟨index t, .test⟩, m⟩ schedule) := by
  have hm : m.cached = true := by
    simp only [KeyCachedData.key] at hfirst
    split at hfirst
    · rename_i h; simp at h
    · split at hfirst
      · simp only [Prod.mk.injEq] at hfirst; rw [← hfirst.2.1]
      · simp at hfirst
      · simp at hfirst
      · simp at hfirst
  have inv := (keyProgram kd).invariant (fun s => s.mem.cached = true ∧
      ∀ t, (s.locals t).pc = .test ∨ (s.locals t).pc = .load ∨ ∃ r, (s.locals t).pc = .done r)
    (by
      intro s u ⟨hc, hl⟩
      unfold Program.run1
      rcases hl u with h | h | ⟨r, h⟩
      · simp only [keyProgram, h, hc, if_true]
        refine ⟨trivial, fun t => ?_⟩
        by_cases e : t = u
        · simp [e]
        · simp only [e, if_false]; exact hl t
      · simp only [keyProgram, h]
        refine ⟨hc, fun t => ?_⟩
        by_cases e : t = u
        · simp [e]
        · simp only [e, if_false]; exact hl t
      · simp only [keyProgram, h]
        refine ⟨hc, fun t => ?_⟩
        by_cases e : t = u
        · simp [e, h]
        · simp only [e, if_false]; exact hl t)
    (s := ⟨fun t => ⟨index t, .test⟩, m⟩) ⟨hm, fun t => Or.inl rfl⟩ schedule
  revert inv
  generalize (keyProgram kd).run ⟨fun t => ⟨index t, .test⟩, m⟩ schedule = s
  rintro ⟨_, hl⟩ ⟨t, u, loc, w1, w2, _, h1, h2, hw⟩
  have rd : ∀ t loc w, (keyProgram kd).access (s.locals t) s.mem = some (loc, w) → w = false := by
    intro t loc w h
    rcases hl t with h' | h' | ⟨r, h'⟩
    · simp only [keyProgram, h', Option.some.injEq, Prod.mk.injEq] at h
      exact h.2.symm
    · simp only [keyProgram, h', Option.some.injEq, Prod.mk.injEq] at h
      exact h.2.symm
    · simp [keyProgram, h'] at h
  rw [rd t loc w1 h1, rd u loc w2 h2] at hw
  simp at hw

/-- Key data with the words 10 … 17; two threads run in turns, both return the right word. -/
example : ((keyProgram (KeyDataNative [10, 11, 12, 13, 14, 15, 16, 17])).run
      (keyStart fun t => if t = 0 then 3 else 5)
      [0, 1, 0, 1, 1, 0, 0, 1, 1, 1, 0, 0, 0, 1, 1, 0, 1, 0, 0, 1, 1, 0]).locals 1 =
    ⟨5, .done (.ok 15)⟩ := by decide
example (i : Fin 8) : KeyDataNative [10, 11, 12, 13, 14, 15, 16, 17] (i.val : Int) =
    .ok (BitVec.ofNat 32 (10 + i.val)) := by revert i; decide
example : (KeyCachedData.key (fun (o : Unit) j =>
    (KeyDataNative [10, 11, 12, 13, 14, 15, 16, 17] j, o)) 3 {} ()).1 = .ok 13 := by decide

/-! ### C58 -/

/-- C58, the part about results. Any number of threads call `value()` of one fresh `BlkCached` over a
block whose value is (or whose evaluation fails with) `v`; after every schedule every thread that
has returned has got `v`, never a half-written pair. Missing: freedom from data races, which is
false, see `C58_data_race`, and interleavings inside the evaluation of the wrapped block. -/
theorem C58_results_right_partial (v : Exec (BitVec 64 × BitVec 64)) (schedule : List Nat) (t : Nat)
    (r : Exec (BitVec 64 × BitVec 64))
    (hr : ((blkProgram v).run blkStart schedule).locals t = .done r) : r = v :=
  ((blkProgram v).invariant (BlkInv v) (blkInv_step v) (blkInv_start v) schedule).done t r hr

/-- C58 is false of the code: there is a schedule after which two threads are about to store to the
same half of the cached value. -/
theorem C58_data_race (v : BitVec 64 × BitVec 64) :
    ∃ schedule, (blkProgram (.ok v)).Race ((blkProgram (.ok v)).run blkStart schedule) := by
  refine ⟨[0, 1], 0, 1, .low, true, true, by decide, ?_, ?_, Or.inl rfl⟩ <;>
    simp [Program.run, Program.run1, blkProgram, blkStart]

/-- Every thread that has made at least 6 steps has returned. -/
theorem C58_every_thread_returns (v : Exec (BitVec 64 × BitVec 64)) (schedule : List Nat) (t : Nat)
    (h : 6 ≤ schedule.count t) :
    ∃ r, ((blkProgram v).run blkStart schedule).locals t = .done r := by
  have key : ∀ (schedule : List Nat) (s : State BlkPc BlkMem),
      (((blkProgram v).run s schedule).locals t).left ≤ (s.locals t).left - schedule.count t := by
    intro schedule
    induction schedule with
    | nil => intro s; exact Nat.le_refl _
    | cons u us ih =>
      intro s
      refine Nat.le_trans (ih _) ?_
      have hstep := blk_left_step v s u t
      rw [List.count_cons]
      by_cases e : u = t
      · simp only [e, if_true, beq_self_eq_true] at hstep ⊢
        omega
      · simp only [e, if_false, beq_iff_eq] at hstep ⊢
        omega
  have h0 := key schedule blkStart
  have h1 : (blkStart.locals t).left = 6 := rfl
  rw [h1] at h0
  generalize ((blkProgram v).run blkStart schedule).locals t = l at h0
  cases l with
  | done r => exact ⟨r, rfl⟩
  | _ => simp only [BlkPc.left] at h0; omega

/-- What is true about races: once a first thread has returned normally from a fresh cache (after `n`
steps of its own), no schedule of any threads that call `value()` from then on leads to a race. -/
theorem C58_no_race_after_first_call_partial (v : Exec (BitVec 64 × BitVec 64)) (n first : Nat)
    (r : BitVec 64 × BitVec 64)
    (hfirst : ((blkProgram v).run blkStart (List.replicate n first)).locals first = .done (.ok r))
    (schedule : List Nat) :
    ¬ (blkProgram v).Race
      ((blkProgram v).run blkStart (List.replicate n first ++ schedule)) := by
  rw [Program.run_append]
  have hq : BlkQuiet ((blkProgram v).run blkStart (List.replicate n first)) := by
    have := blkAlone_run v first n
    refine ⟨this.2 ?_, fun t => ?_⟩
    · rw [hfirst]; exact Or.inr (Or.inr ⟨r, rfl⟩)
    · by_cases e : t = first
      · rw [e, hfirst]; exact ⟨by simp, by simp, by simp⟩
      · rw [this.1 t e]; exact ⟨by simp, by simp, by simp⟩
  exact BlkQuiet.no_race v
    ((blkProgram v).invariant BlkQuiet (blkQuiet_step v) hq schedule)

example : ((blkProgram (.ok (7, 9))).run blkStart (List.replicate 6 3)).locals 3 =
    .done (.ok (7, 9)) := by decide
example : ((blkProgram (.ok (7, 9))).run blkStart [0, 1, 0, 0, 2, 1, 0, 2, 1, 0, 0, 2, 1, 1, 1]).locals
    1 = .done (.ok (7, 9)) := by decide

/-! The theorems at these data. -/

example := C11_results_right_partial (KeyDataNative [10, 11, 12, 13, 14, 15, 16, 17]) (fun i => BitVec.ofNat 32 (10 + i.val))
  (by decide) (fun t => if t = 0 then 3 else 5)
  [0, 1, 0, 1, 1, 0, 0, 1, 1, 1, 0, 0, 0, 1, 1, 0, 1, 0, 0, 1, 1, 0] 1 (.ok 15) (by decide)

example := C11_every_thread_returns (KeyDataNative [10, 11, 12, 13, 14, 15, 16, 17]) (fun t => if t = 0 then 3 else 5)
  [0, 1, 0, 1, 1, 0, 0, 1, 1, 1, 0, 0, 0, 1, 1, 0, 1, 0, 0, 1, 1, 0] 1 (by decide)

example := C11_data_race (KeyDataNative [10, 11, 12, 13, 14, 15, 16, 17]) 10 rfl

example := C58_results_right_partial (.ok (7, 9)) [0, 1, 0, 0, 2, 1, 0, 2, 1, 0, 0, 2, 1, 1, 1] 1 (.ok (7, 9)) (by decide)

example := C58_every_thread_returns (.ok (7, 9)) [0, 1, 0, 0, 2, 1, 0, 2, 1, 0, 0, 2, 1, 1, 1] 1 (by decide)

end Goost.Props
