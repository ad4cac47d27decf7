import Verif.Lemmas.RandomTablesBoth
/-
C135: eight rounds with random tables give answers that can hardly be told from random ones.
-/
namespace Goost.Props
open Spec Spec.Magma Goost.Magma Goost.RandomTables

/-! ### Questions, for examples -/

/-- Questions that do not depend on the answers. -/
theorem counting_never_repeats : NeverRepeats (fun l : List (BitVec 32 × BitVec 32) => (BitVec.ofNat 32 l.length, 7)) 65536 := by
  intro l hl i hi e
  have := congrArg (fun v : BitVec 32 × BitVec 32 => v.1.toNat) e
  simp only [List.length_take, BitVec.toNat_ofNat] at this
  omega

/-- Questions that do. -/
theorem choosing_never_repeats : NeverRepeats (fun l : List (BitVec 32 × BitVec 32) => match l with
    | [] => (0, 0)
    | [w] => if w.1 = 0 then (1, 0) else (0, 1)
    | w :: _ => if w.1 = 0 then (0, 1) else (1, 0)) 3 := by
  intro l hl i hi
  match l, hl, hi with
  | [w], _, hi =>
    obtain rfl : i = 0 := by simpa using hi
    simp only [List.take_zero]
    split <;> decide
  | [w, u], _, hi =>
    have : i = 0 ∨ i = 1 := by simp only [List.length_cons, List.length_nil] at hi; omega
    rcases this with rfl | rfl
    · simp only [List.take_zero]
      split <;> decide
    · simp only [List.take_succ_cons, List.take_zero]
      split <;> decide

/-- Questions of both kinds: the second asks what is taken to the block after the first answer. -/
theorem both_ask_new : AsksNew (fun l : List (BitVec 32 × BitVec 32) => match l with
    | [] => (true, (0, 0))
    | w :: _ => (false, (w.1 + 1, w.2))) 2 := by
  intro l hl i hi
  match l, hl, hi with
  | [w], _, hi =>
    obtain rfl : i = 0 := by simpa using hi
    simp only [learned, List.take_zero, if_true, List.getElem_cons_zero]
    intro e
    have := congrArg Prod.fst e
    simp only at this
    bv_omega

/-! ### The property -/

/-- Whatever `q` different blocks are asked for, each question chosen after the earlier answers, and whatever is then tested: the share of the
tables with which the answers of `BlkForwarded` pass the test differs from the share of all lists of `q` blocks that pass it by at most
q² / 2³². -/
theorem C135_forwarded (m : Machine) (q : Nat) {ask : List (BitVec 32 × BitVec 32) → BitVec 32 × BitVec 32} (hask : NeverRepeats ask q)
    (test : Set (List (BitVec 32 × BitVec 32))) :
    |({f : Tables | ∃ l ∈ test, answers (fun v => (Blk.forwarded (.raw v.1 v.2) (some (tableKey f))).value m) ask q = .ok l}.ncard : ℚ) /
        Nat.card Tables - ({l ∈ test | l.length = q}.ncard : ℚ) / 2 ^ (64 * q)| ≤ (q : ℚ) ^ 2 / 2 ^ 32 := by
  have e : {f : Tables | ∃ l ∈ test, answers (fun v => (Blk.forwarded (.raw v.1 v.2) (some (tableKey f))).value m) ask q = .ok l} =
      {f : Tables | conv (psi8 (· ^^^ ·) f) ask q ∈ test} := by
    ext f
    have := answers_eq (reply := fun v => (Blk.forwarded (.raw v.1 v.2) (some (tableKey f))).value m) (E := psi8 (· ^^^ ·) f)
      (fun v => forwardRounds_eq (tableKey_computes f) v) ask q
    simp only [Set.mem_ofPred_eq, this]
    exact ⟨fun ⟨l, hl, e⟩ => Exec.ok.inj e ▸ hl, fun h => ⟨_, h, rfl⟩⟩
  rw [e]
  exact words_test q hask test

/-- 65536 questions, and the test whether the first two answers have the same first half. -/
example := C135_forwarded .x86 65536 counting_never_repeats {l | ∃ u v r, l = u :: v :: r ∧ u.1 = v.1}

example := C135_forwarded .x86 3 choosing_never_repeats {l | ∃ u v r, l = u :: v :: r ∧ u.1 = v.1}

/-- The same for `BlkBackwarded`. -/
theorem C135_backwarded (m : Machine) (q : Nat) {ask : List (BitVec 32 × BitVec 32) → BitVec 32 × BitVec 32} (hask : NeverRepeats ask q)
    (test : Set (List (BitVec 32 × BitVec 32))) :
    |({f : Tables | ∃ l ∈ test, answers (fun v => (Blk.backwarded (.raw v.1 v.2) (some (tableKey f))).value m) ask q = .ok l}.ncard : ℚ) /
        Nat.card Tables - ({l ∈ test | l.length = q}.ncard : ℚ) / 2 ^ (64 * q)| ≤ (q : ℚ) ^ 2 / 2 ^ 32 := by
  have e : {f : Tables | ∃ l ∈ test, answers (fun v => (Blk.backwarded (.raw v.1 v.2) (some (tableKey f))).value m) ask q = .ok l} =
      {f : Tables | conv (psi8 (· ^^^ ·) fun i => f i.rev) ask q ∈ test} := by
    ext f
    have := answers_eq (reply := fun v => (Blk.backwarded (.raw v.1 v.2) (some (tableKey f))).value m) (E := psi8 (· ^^^ ·) fun i => f i.rev)
      (fun v => backwardRounds_eq (tableKey_computes f) v) ask q
    simp only [Set.mem_ofPred_eq, this]
    exact ⟨fun ⟨l, hl, e⟩ => Exec.ok.inj e ▸ hl, fun h => ⟨_, h, rfl⟩⟩
  rw [e, ncard_rev fun f => conv (psi8 (· ^^^ ·) f) ask q ∈ test]
  exact words_test q hask test

example := C135_backwarded .x86 3 choosing_never_repeats {l | ∃ u v r, l = u :: v :: r ∧ u.1 = v.1}

/-- The same if it may also be asked which block `BlkForwarded` takes to a given one: `BlkBackwarded` answers this, between two `BlkSwapped`. -/
theorem C135_both (m : Machine) (q : Nat) {ask : List (BitVec 32 × BitVec 32) → Bool × (BitVec 32 × BitVec 32)} (hask : AsksNew ask q)
    (test : Set (List (BitVec 32 × BitVec 32))) :
    |({f : Tables | ∃ l ∈ test, answersBoth (fun v => (Blk.forwarded (.raw v.1 v.2) (some (tableKey f))).value m)
          (fun w => (Blk.swapped (.backwarded (.swapped (.raw w.1 w.2)) (some (tableKey f)))).value m) ask q = .ok l}.ncard : ℚ) /
        Nat.card Tables - ({l ∈ test | l.length = q}.ncard : ℚ) / 2 ^ (64 * q)| ≤ (q : ℚ) ^ 2 / 2 ^ 32 := by
  have e : {f : Tables | ∃ l ∈ test, answersBoth (fun v => (Blk.forwarded (.raw v.1 v.2) (some (tableKey f))).value m)
        (fun w => (Blk.swapped (.backwarded (.swapped (.raw w.1 w.2)) (some (tableKey f)))).value m) ask q = .ok l} =
      {f : Tables | convBoth (psi8 (· ^^^ ·) f) (psi8R (· ^^^ ·) f) ask q ∈ test} := by
    ext f
    have := answersBoth_eq (reply := fun v => (Blk.forwarded (.raw v.1 v.2) (some (tableKey f))).value m)
      (back := fun w => (Blk.swapped (.backwarded (.swapped (.raw w.1 w.2)) (some (tableKey f)))).value m)
      (E := psi8 (· ^^^ ·) f) (R := psi8R (· ^^^ ·) f) (fun v => forwardRounds_eq (tableKey_computes f) v) (fun w => ?_) ask q
    · simp only [Set.mem_ofPred_eq, this]
      exact ⟨fun ⟨l, hl, e⟩ => Exec.ok.inj e ▸ hl, fun h => ⟨_, h, rfl⟩⟩
    · simp only [Blk.value, Exec.ok_bind, Exec.pure_eq, backwardRounds_eq (tableKey_computes f), bwd_eq_psi8]
      rfl
  rw [e]
  exact words_test_both q hask test

example := C135_both .x86 2 both_ask_new {l | ∃ u v, l = [u, v] ∧ u.1 = v.1}

/-- What the questions of the second kind are answered with is indeed the block looked for. -/
theorem C135_back (m : Machine) (f : Tables) (v w : BitVec 32 × BitVec 32) :
    (Blk.forwarded (.raw v.1 v.2) (some (tableKey f))).value m = .ok w ↔
      (Blk.swapped (.backwarded (.swapped (.raw w.1 w.2)) (some (tableKey f)))).value m = .ok v := by
  have e1 : (Blk.forwarded (.raw v.1 v.2) (some (tableKey f))).value m = .ok (psi8 (· ^^^ ·) f v) := forwardRounds_eq (tableKey_computes f) v
  have e2 : (Blk.swapped (.backwarded (.swapped (.raw w.1 w.2)) (some (tableKey f)))).value m = .ok (psi8R (· ^^^ ·) f w) := by
    simp only [Blk.value, Exec.ok_bind, Exec.pure_eq, backwardRounds_eq (tableKey_computes f), bwd_eq_psi8]
    rfl
  rw [e1, e2]
  constructor
  · intro h
    rw [← Exec.ok.inj h, psi8R_psi8 xor_back]
  · intro h
    rw [← Exec.ok.inj h]
    have := psi8R_psi8 (x := ((· ^^^ ·) : BitVec 32 → BitVec 32 → BitVec 32)) xor_back (fun i => f i.rev) w.swap
    simp only [psi8R, Fin.rev_rev] at this
    exact congrArg Exec.ok (Prod.swap_injective this)

/-- Different blocks are taken to given different blocks with at least almost as many tables as an equal share would be. -/
theorem C135_blocks (m : Machine) {q : Nat} {v w : Fin q → BitVec 32 × BitVec 32} (hv : Function.Injective v) (hw : Function.Injective w) :
    (1 - q * (q - 1) / 2 ^ 32 : ℚ) * (Nat.card Tables / 2 ^ (64 * q)) ≤
      {f : Tables | ∀ i, (Blk.forwarded (.raw (v i).1 (v i).2) (some (tableKey f))).value m = .ok (w i)}.ncard := by
  have h := share_psi8_ncard (x := ((· ^^^ ·) : BitVec 32 → BitVec 32 → BitVec 32)) xor_back (fun a b => BitVec.xor_comm a b) hv hw
  have c : (Fintype.card (BitVec 32) : ℚ) = 2 ^ 32 := by rw [Goost.Differences.card_bitVec]; norm_num
  have c2 : (Fintype.card (BitVec 32 × BitVec 32) : ℚ) = 2 ^ 64 := by rw [Fintype.card_prod, Goost.Differences.card_bitVec]; norm_num
  rw [c, c2, ← pow_mul] at h
  refine h.trans (le_of_eq ?_)
  congr 2
  ext f
  simp only [Set.mem_ofPred_eq]
  refine forall_congr' fun i => ?_
  rw [← fwd_eq_psi8]
  have : (Blk.forwarded (.raw (v i).1 (v i).2) (some (tableKey f))).value m = .ok (fwd f (v i)) := forwardRounds_eq (tableKey_computes f) (v i)
  rw [this]
  exact ⟨fun e => congrArg Exec.ok e, Exec.ok.inj⟩

/-- Three blocks. -/
example := C135_blocks .x86 (q := 3) (v := fun i => (BitVec.ofNat 32 i.val, 5)) (w := fun i => (7, BitVec.ofNat 32 i.val)) (by decide) (by decide)

/-- The questions must differ: who asks the same twice gets the same answer twice, which random answers hardly ever are. -/
theorem C135_needs_different (m : Machine) :
    ¬ |({f : Tables | ∃ l ∈ {l : List (BitVec 32 × BitVec 32) | ∃ w, l = [w, w]},
          answers (fun v => (Blk.forwarded (.raw v.1 v.2) (some (tableKey f))).value m) (fun _ => (0, 0)) 2 = .ok l}.ncard : ℚ) / Nat.card Tables -
        ({l ∈ {l : List (BitVec 32 × BitVec 32) | ∃ w, l = [w, w]} | l.length = 2}.ncard : ℚ) / 2 ^ (64 * 2)| ≤ ((2 : ℕ) : ℚ) ^ 2 / 2 ^ 32 := by
  have e1 : {f : Tables | ∃ l ∈ {l : List (BitVec 32 × BitVec 32) | ∃ w, l = [w, w]},
      answers (fun v => (Blk.forwarded (.raw v.1 v.2) (some (tableKey f))).value m) (fun _ => (0, 0)) 2 = .ok l} = Set.univ := by
    refine Set.eq_univ_of_forall fun f => ⟨[fwd f (0, 0), fwd f (0, 0)], ⟨_, rfl⟩, ?_⟩
    exact answers_eq (E := fwd f) (fun v => forwardRounds_eq (tableKey_computes f) v) _ 2
  have e2 : {l ∈ {l : List (BitVec 32 × BitVec 32) | ∃ w, l = [w, w]} | l.length = 2}.ncard = 2 ^ 64 := by
    have : (Set.univ : Set (BitVec 32 × BitVec 32)).ncard = 2 ^ 64 := by
      rw [Set.ncard_univ, Nat.card_eq_fintype_card, Fintype.card_prod, Goost.Differences.card_bitVec]; norm_num
    rw [← this]
    symm
    refine Set.ncard_congr (fun w _ => [w, w]) (fun w _ => ⟨⟨w, rfl⟩, rfl⟩) (fun v w _ _ e => (List.cons.inj e).1) ?_
    rintro l ⟨⟨w, rfl⟩, -⟩
    exact ⟨w, trivial, rfl⟩
  have h0 : (Nat.card Tables : ℚ) ≠ 0 := by exact_mod_cast Nat.card_pos.ne'
  rw [e1, e2, Set.ncard_univ, div_self h0]
  norm_num [abs_of_nonneg]

/-- For 100 questions the bound is below 1 / 400000. And the rounds do something. -/
example : ((100 : ℕ) : ℚ) ^ 2 / 2 ^ 32 < 1 / 400000 ∧
    (Blk.forwarded (.raw 5 6) (some (tableKey fun i v => v * v + BitVec.ofNat 32 i.val))).value .x86 ≠ .ok (5, 6) :=
  ⟨by norm_num, by decide +kernel⟩

end Goost.Props
