import Verif.Spec.KuzLive
import Verif.Lemmas.KuzStream
import Verif.Lemmas.Reads
/-
Helper lemmas: streams of blocks that act on the outside world.
-/
namespace Goost.KuzLive
open Goost.Kuz Spec Spec.Modes
variable {W ι V : Type}

/-- The iterator over a list. -/
def listIter (n : Nat) : Kuz.IterImpl (List (W64 × W64)) where
  value l := match l with | v :: _ => .ok v | [] => .ub .oobRead
  last l := .ok (decide (l.length ≤ 1))
  size l := .ok (if l.length ≤ 1 then n else 16)
  next l := .ok (some l.tail)

theorem listIter_shows (n : Nat) (p : List (W64 × W64)) (h : p ≠ []) : Shows (listIter n) n p p := by
  induction p with
  | nil => exact absurd rfl h
  | cons v r ih =>
    cases r with
    | nil => exact ⟨rfl, rfl, rfl⟩
    | cons x r =>
      refine ⟨rfl, ?_, ?_, _, rfl, ih (by simp)⟩
      · simp [listIter]
      · simp [listIter]

theorem bind_ok {α β : Type} {x : Io W α} {f : α → Io W β} {w w' : W} {a : α} (h : x w = (.ok a, w')) :
    (x >>= f) w = f a w' := Io.bind_run_ok h

theorem loop_plays {it : IterImpl W ι} {n : Nat} (key : Key) (p : List (W64 × W64)) (v : W64 × W64)
    {i : ι} {w w' : W} (h : Plays it n i w (p ++ [v]) w') (fuel : Nat) (hf : p.length < fuel) (block : Blk) :
    ∃ b j w1 w2, Imit.loop it key fuel (some i) block w = (.ok (b, some j), w1) ∧
      Kuz.Imit.loop (listIter n) key fuel (some (p ++ [v])) block = .ok (b, some [v]) ∧
      it.value j w1 = (.ok v, w2) ∧ it.size j w2 = (.ok n, w') := by
  induction p generalizing i w fuel block with
  | nil =>
    obtain ⟨fuel, rfl⟩ : ∃ k, fuel = k + 1 := ⟨fuel - 1, by simp at hf; omega⟩
    obtain ⟨w1, w2, h1, h2, h3⟩ := h
    refine ⟨block, i, w1, w2, ?_, rfl, h2, h3⟩
    unfold Imit.loop
    simp only [deref]
    rw [bind_ok h1]
    rfl
  | cons x p ih =>
    obtain ⟨fuel, rfl⟩ : ∃ k, fuel = k + 1 := ⟨fuel - 1, by simp at hf; omega⟩
    have hx : ∃ y r, p ++ [v] = y :: r := by
      cases p with
      | nil => exact ⟨v, [], rfl⟩
      | cons y r => exact ⟨y, r ++ [v], rfl⟩
    obtain ⟨y, r, hy⟩ := hx
    rw [List.cons_append, hy] at h
    obtain ⟨w1, w2, w3, j, h1, h2, h3, h4⟩ := h
    rw [← hy] at h4
    obtain ⟨b, j', w4, w5, e1, e2, e3, e4⟩ := ih h4 fuel (by simp at hf; omega)
      (BlkEncrypted (.xored block (BlkRaw.ofPair x)) key)
    refine ⟨b, j', w4, w5, ?_, ?_, e3, e4⟩
    · unfold Imit.loop
      simp only [deref]
      rw [bind_ok h1]
      simp only [Bool.not_false, if_true]
      rw [bind_ok h2, bind_ok h3]
      exact e1
    · unfold Kuz.Imit.loop
      have hl : (listIter n).last (x :: p ++ [v]) = .ok false := by simp [listIter]
      simp only [Kuz.deref, hl, Exec.ok_bind, Bool.not_false, if_true]
      exact e2

theorem value_plays (m : Machine) {it : IterImpl W ι} {n : Nat} (key : Key) (p : List (W64 × W64))
    (v : W64 × W64) {i : ι} {w w' : W} (h : Plays it n i w (p ++ [v]) w') (fuel : Nat) (hf : p.length < fuel)
    (start : Io W (Option ι)) (w0 : W) (hs : start w0 = (.ok (some i), w)) :
    Imit.value m it start fuel key w0 =
      (Kuz.Imit.value m (listIter n) (.ok (some (p ++ [v]))) fuel key, w') := by
  obtain ⟨b, j, w1, w2, e1, e2, e3, e4⟩ := loop_plays key p v h fuel hf BlkRaw.zero
  unfold Imit.value Kuz.Imit.value Kuz.Imit.build
  rw [bind_ok hs, bind_ok e1]
  simp only [deref]
  rw [bind_ok e3, bind_ok e4]
  simp only [Exec.ok_bind, e2, Kuz.deref]
  have hv : (listIter n).value [v] = .ok v := rfl
  have hz : (listIter n).size [v] = .ok n := rfl
  simp only [hv, hz, Exec.ok_bind]
  by_cases hn : n = 16
  · rw [if_pos hn, if_pos hn, Exec.pure_eq, Exec.ok_bind]; rfl
  · rw [if_neg hn, if_neg hn, Exec.pure_eq, Exec.ok_bind]; rfl

theorem ctr_value_live {m : Machine} {key : Key} {K : BitVec 256} (hk : Encrypts m key K)
    {it : IterImpl W ι} {i : ι} {v : W64 × W64} {w w' : W} (hv : it.value i w = (.ok v, w')) {c : Blk}
    {x : Spec.Kuz.Block} (hc : HasValue m c x) :
    ∃ r, (ItCTR.impl m it).value ⟨some i, key, c⟩ w = (.ok r, w') ∧
      join64 r = join64 v ^^^ Spec.Kuz.enc K x := by
  obtain ⟨g, hg, hx⟩ := hk.has hc
  refine ⟨(v.1 ^^^ g.1, v.2 ^^^ g.2), ?_, ?_⟩
  · simp only [ItCTR.impl, deref]
    rw [bind_ok hv, hg]; rfl
  · rw [← hx]
    obtain ⟨v1, v2⟩ := v
    obtain ⟨g1, g2⟩ := g
    exact BitVec.xor_append.symm

theorem Plays_ctr_from {m : Machine} {key : Key} {K : BitVec 256} (hk : Encrypts m key K)
    {it : IterImpl W ι} {n : Nat} (iv : BitVec 64) (p : List (W64 × W64)) {i : ι} {w w' : W}
    (hs : Plays it n i w p w') (j : Nat) {c : Blk} (hc : HasValue m c (counter iv j)) :
    ∃ cs, Plays (ItCTR.impl m it) n ⟨some i, key, c⟩ w cs w' ∧
      cs.map join64 = ctrFrom (Spec.Kuz.enc K) iv j (p.map join64) := by
  induction p generalizing i j c w with
  | nil => exact hs.elim
  | cons v r ih =>
    cases r with
    | nil =>
      obtain ⟨w1, w2, h1, h2, h3⟩ := hs
      obtain ⟨x, hx, hj⟩ := ctr_value_live hk h2 hc
      exact ⟨[x], ⟨w1, w2, h1, hx, h3⟩, by simp [ctrFrom, hj]⟩
    | cons y r =>
      obtain ⟨w1, w2, w3, i', h1, h2, h4, h5⟩ := hs
      obtain ⟨x, hx, hj⟩ := ctr_value_live hk h2 hc
      obtain ⟨cs, hcs, hm⟩ := ih h5 (j + 1) (c := .incremented c)
        (by rw [counter_succ]; exact hc.incremented)
      match cs, hcs with
      | z :: cs, hcs =>
        refine ⟨x :: z :: cs, ⟨w1, w2, w3, ⟨some i', key, .incremented c⟩, h1, hx, ?_, hcs⟩, ?_⟩
        · simp only [ItCTR.impl, deref]
          rw [bind_ok h4]; rfl
        · rw [List.map_cons, hm, hj]; rfl

theorem PlaysThenFails_ctr_from {m : Machine} {key : Key} {K : BitVec 256} (hk : Encrypts m key K)
    {it : IterImpl W ι} {e : Exn} (iv : BitVec 64) (p : List (W64 × W64)) {i : ι} {w w' : W}
    (hs : PlaysThenFails it e i w p w') (j : Nat) {c : Blk} (hc : HasValue m c (counter iv j)) :
    ∃ cs, PlaysThenFails (ItCTR.impl m it) e ⟨some i, key, c⟩ w cs w' ∧
      cs.map join64 = ctrFrom (Spec.Kuz.enc K) iv j (p.map join64) := by
  induction p generalizing i j c w with
  | nil =>
    refine ⟨[], ?_, rfl⟩
    rcases hs with h | ⟨l, w1, h1, h2⟩ | ⟨v, w1, w2, h1, h2, h3⟩ | ⟨v, w1, w2, h1, h2, h3⟩
    · exact .inl h
    · refine .inr (.inl ⟨l, w1, h1, ?_⟩)
      simp only [ItCTR.impl, deref]
      exact bind_run_throw h2
    · obtain ⟨x, hx, -⟩ := ctr_value_live hk h2 hc
      refine .inr (.inr (.inl ⟨x, w1, w2, h1, hx, ?_⟩))
      simp only [ItCTR.impl, deref]
      exact bind_run_throw h3
    · obtain ⟨x, hx, -⟩ := ctr_value_live hk h2 hc
      exact .inr (.inr (.inr ⟨x, w1, w2, h1, hx, h3⟩))
  | cons v r ih =>
    obtain ⟨w1, w2, w3, i', h1, h2, h4, h5⟩ := hs
    obtain ⟨x, hx, hj⟩ := ctr_value_live hk h2 hc
    obtain ⟨cs, hcs, hm⟩ := ih h5 (j + 1) (c := .incremented c)
      (by rw [counter_succ]; exact hc.incremented)
    refine ⟨x :: cs, ⟨w1, w2, w3, ⟨some i', key, .incremented c⟩, h1, hx, ?_, hcs⟩, ?_⟩
    · simp only [ItCTR.impl, deref]
      rw [bind_ok h4]; rfl
    · rw [List.map_cons, hm, hj]; rfl

theorem raw_iv (m : Machine) (iv : BitVec 64) : HasValue m (.raw 0 iv) (counter iv 0) := by
  have : counter iv 0 = iv ++ (0 : BitVec 64) := by simp [counter]
  rw [this]; exact HasValue.raw m 0 iv

theorem loop_fails {it : IterImpl W ι} {e : Exn} (key : Key) (p : List (W64 × W64)) {i : ι} {w w' : W}
    (h : PlaysThenFails it e i w p w') (fuel : Nat) (hf : p.length < fuel) (block : Blk) :
    Imit.loop it key fuel (some i) block w = (.throw e, w') ∨
      ∃ b j w1, Imit.loop it key fuel (some i) block w = (.ok (b, some j), w1) ∧
        (it.value j w1 = (.throw e, w') ∨ ∃ v w2, it.value j w1 = (.ok v, w2) ∧ it.size j w2 = (.throw e, w')) := by
  induction p generalizing i w fuel block with
  | nil =>
    obtain ⟨fuel, rfl⟩ : ∃ k, fuel = k + 1 := ⟨fuel - 1, by simp at hf; omega⟩
    unfold Imit.loop
    simp only [deref]
    rcases h with h | ⟨l, w1, h1, h2⟩ | ⟨v, w1, w2, h1, h2, h3⟩ | ⟨v, w1, w2, h1, h2, h3⟩
    · left; exact bind_run_throw h
    · cases l
      · left
        rw [bind_ok h1]
        simp only [Bool.not_false, if_true]
        exact bind_run_throw h2
      · right
        refine ⟨block, i, w1, ?_, .inl h2⟩
        rw [bind_ok h1]; rfl
    · left
      rw [bind_ok h1]
      simp only [Bool.not_false, if_true]
      rw [bind_ok h2]
      exact bind_run_throw h3
    · right
      refine ⟨block, i, w1, ?_, .inr ⟨v, w2, h2, h3⟩⟩
      rw [bind_ok h1]; rfl
  | cons x p ih =>
    obtain ⟨fuel, rfl⟩ : ∃ k, fuel = k + 1 := ⟨fuel - 1, by simp at hf; omega⟩
    obtain ⟨w1, w2, w3, j, h1, h2, h3, h4⟩ := h
    have := ih h4 fuel (by simp at hf; omega) (BlkEncrypted (.xored block (BlkRaw.ofPair x)) key)
    unfold Imit.loop
    simp only [deref]
    rw [bind_ok h1]
    simp only [Bool.not_false, if_true]
    rw [bind_ok h2, bind_ok h3]
    exact this

theorem loop_null {it : IterImpl W ι} (key : Key) (p : List (W64 × W64)) {i : ι} {w w' : W}
    (h : PlaysThenNull it i w p w') (fuel : Nat) (hf : p.length < fuel) (block : Blk) :
    Imit.loop it key fuel (some i) block w = (.ub .nullDeref, w') := by
  induction p generalizing i w fuel block with
  | nil => exact h.elim
  | cons x p ih =>
    obtain ⟨fuel, rfl⟩ : ∃ k, fuel = k + 1 := ⟨fuel - 1, by simp at hf; omega⟩
    unfold Imit.loop
    simp only [deref]
    cases p with
    | nil =>
      obtain ⟨w1, w2, h1, h2, h3⟩ := h
      rw [bind_ok h1]
      simp only [Bool.not_false, if_true]
      rw [bind_ok h2, bind_ok h3]
      obtain ⟨fuel, rfl⟩ : ∃ k, fuel = k + 1 := ⟨fuel - 1, by simp at hf; omega⟩
      rfl
    | cons y p =>
      obtain ⟨w1, w2, w3, j, h1, h2, h3, h4⟩ := h
      rw [bind_ok h1]
      simp only [Bool.not_false, if_true]
      rw [bind_ok h2, bind_ok h3]
      exact ih h4 fuel (by simp at hf ⊢; omega) _

/-- The calls of one pass over `n + 1` blocks. -/
theorem recorded_plays {it : Kuz.IterImpl ι} {n : Nat} (p : List (W64 × W64)) {i : ι} (h : Shows it n i p)
    (l : List IterCall) (w : V) :
    Plays (recordedIter it) n i (l, w) p
      (l ++ ((List.replicate (p.length - 1) [.last, .value, .next]).flatten ++ [.last, .value, .size]), w) := by
  induction p generalizing i l with
  | nil => exact h.elim
  | cons v r ih =>
    cases r with
    | nil =>
      obtain ⟨h1, h2, h3⟩ := h
      refine ⟨(l ++ [.last], w), (l ++ [.last] ++ [.value], w), ?_, ?_, ?_⟩
      · show (it.last i, _) = _
        rw [h2]
      · show (it.value i, _) = _
        rw [h1]
      · show (it.size i, _) = _
        rw [h3]
        simp
    | cons x r =>
      obtain ⟨h1, h2, h3, j, h4, h5⟩ := h
      have := ih h5 (l ++ [.last] ++ [.value] ++ [.next])
      refine ⟨(l ++ [.last], w), (l ++ [.last] ++ [.value], w), (l ++ [.last] ++ [.value] ++ [.next], w), j,
        ?_, ?_, ?_, ?_⟩
      · show (it.last i, _) = _
        rw [h2]
      · show (it.value i, _) = _
        rw [h1]
      · show (it.next i, _) = _
        rw [h4]
      · have e : l ++ ((List.replicate ((v :: x :: r).length - 1) [.last, .value, .next]).flatten ++
            [.last, .value, .size]) = l ++ [.last] ++ [.value] ++ [IterCall.next] ++
            ((List.replicate ((x :: r).length - 1) [.last, .value, .next]).flatten ++
              [.last, .value, .size]) := by
          simp [List.replicate_succ]
        rw [e]
        exact this

end Goost.KuzLive
