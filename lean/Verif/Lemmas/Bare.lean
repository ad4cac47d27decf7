import Verif.Spec.Bare
/-
Lemmas for C118.
-/
namespace Goost.Bare
open Goost.Kuz Spec

theorem nextIter_ok {data : List W64} {offset : Nat} (h : offset / 8 + 1 < data.length) :
    StMemory.nextIter data offset = .ok (some ⟨offset, (data[offset / 8], data[offset / 8 + 1])⟩) := by
  simp only [StMemory.nextIter, vget]
  rw [if_neg (by omega), List.getElem?_eq_getElem (by omega), List.getElem?_eq_getElem h]
  rfl

theorem nextIter_end {data : List W64} {offset : Nat} (h : data.length ≤ offset / 8) :
    StMemory.nextIter data offset = .ok none := by
  simp only [StMemory.nextIter]
  rw [if_pos h]

theorem nextIter_half {data : List W64} {offset : Nat} (h : data.length = offset / 8 + 1) :
    StMemory.nextIter data offset = .ub .oobRead := by
  simp only [StMemory.nextIter, vget]
  rw [if_neg (by omega), List.getElem?_eq_getElem (by omega), List.getElem?_eq_none (by omega)]
  rfl

theorem unknown_eq (thisFirst : Bool) (data : List W64) {keeper : Keeper} (hk : keeper = .bare ∨ ∃ n, keeper = .hidden n)
    (offset : Nat) :
    Bare.nextIter thisFirst data keeper offset =
      if data.length ≤ offset / 8 then .ok none
      else if thisFirst = true ∨ offset / 8 + 1 < data.length then .throw .badWeakPtr else .ub .oobRead := by
  have hg : keeper ≠ .gone := by rcases hk with rfl | ⟨n, rfl⟩ <;> simp
  have hs : sharedFromThis keeper = .throw .badWeakPtr := by rcases hk with rfl | ⟨n, rfl⟩ <;> rfl
  simp only [Bare.nextIter, if_neg hg, hs]
  by_cases h : data.length ≤ offset / 8
  · rw [if_pos h, if_pos h]
  rw [if_neg h, if_neg h]
  cases thisFirst with
  | true => rfl
  | false =>
    simp only [Bool.false_eq_true, if_false, false_or]
    by_cases h2 : offset / 8 + 1 < data.length
    · rw [if_pos h2, nextIter_ok h2]; rfl
    · rw [if_neg h2, nextIter_half (by omega)]; rfl

theorem shared_eq (thisFirst : Bool) (data : List W64) (n offset : Nat) :
    Bare.nextIter thisFirst data (.shared n) offset = StMemory.nextIter data offset := by
  simp only [Bare.nextIter, reduceCtorEq, if_false]
  by_cases h : data.length ≤ offset / 8
  · rw [if_pos h, nextIter_end h]
  rw [if_neg h]
  cases thisFirst with
  | true => rfl
  | false =>
    simp only [Bool.false_eq_true, if_false]
    cases StMemory.nextIter data offset <;> rfl

theorem gone_not_ok (thisFirst : Bool) (data : List W64) (offset : Nat) :
    ∃ u, Bare.nextIter thisFirst data .gone offset = .ub u := ⟨_, rfl⟩

theorem nextIter_some {data : List W64} {offset : Nat} {it : ItMemory}
    (h : StMemory.nextIter data offset = .ok (some it)) :
    ∃ h2 : offset / 8 + 1 < data.length, it = ⟨offset, (data[offset / 8], data[offset / 8 + 1])⟩ := by
  by_cases h1 : data.length ≤ offset / 8
  · rw [nextIter_end h1] at h; cases h
  by_cases h2 : offset / 8 + 1 < data.length
  · rw [nextIter_ok h2] at h; cases h; exact ⟨h2, rfl⟩
  · rw [nextIter_half (by omega)] at h; cases h

/-- Every iterator belongs to a stream that a `shared_ptr` has owned, and has a block of it. -/
def Inv (s : State) : Prop := ∀ k it, (k, it) ∈ s.iters → ∃ data keeper, s.streams[k]? = some (data, keeper) ∧
  (keeper = .gone ∨ ∃ n, keeper = .shared n) ∧ ∃ h : it.offset / 8 + 1 < data.length, it.data = (data[it.offset / 8], data[it.offset / 8 + 1])

theorem Inv.append {s : State} (h : Inv s) (c : List W64 × Keeper) : Inv { s with streams := s.streams ++ [c] } := by
  intro k it hk
  obtain ⟨data, keeper, h1, h2⟩ := h k it hk
  refine ⟨data, keeper, ?_, h2⟩
  simp only
  rw [List.getElem?_append_left (List.getElem?_eq_some_iff.1 h1).1, h1]

theorem Inv.set {s : State} (h : Inv s) {k : Nat} {data : List W64} {old new : Keeper}
    (hk : s.streams[k]? = some (data, old)) (hn : (old = .bare ∨ ∃ n, old = .hidden n) ∨ (new = .gone ∨ ∃ n, new = .shared n)) :
    Inv { s with streams := s.streams.set k (data, new) } := by
  intro k' it hk'
  obtain ⟨data', keeper, h1, h2, h3⟩ := h k' it hk'
  by_cases e : k = k'
  · subst e
    rw [hk] at h1
    cases h1
    refine ⟨data, new, ?_, ?_, h3⟩
    · simp only
      rw [List.getElem?_set_self (List.getElem?_eq_some_iff.1 hk).1]
    · rcases hn with hn | hn
      · rcases hn with rfl | ⟨n, rfl⟩ <;> simp at h2
      · exact hn
  · exact ⟨data', keeper, by simp only; rw [List.getElem?_set_ne e, h1], h2, h3⟩

theorem Inv.add {s : State} (h : Inv s) {k n offset : Nat} {data : List W64} {r : Option ItMemory}
    (hk : s.streams[k]? = some (data, .shared n)) (hr : StMemory.nextIter data offset = .ok r) :
    Inv { s with iters := s.iters ++ (r.map fun i => (k, i)).toList } := by
  intro k' it hk'
  simp only [List.mem_append] at hk'
  rcases hk' with hk' | hk'
  · exact h k' it hk'
  · cases r with
    | none => simp at hk'
    | some i =>
      simp only [Option.map_some, Option.toList_some, List.mem_singleton, Prod.mk.injEq] at hk'
      obtain ⟨rfl, rfl⟩ := hk'
      obtain ⟨h2, rfl⟩ := nextIter_some hr
      exact ⟨data, _, hk, .inr ⟨n, rfl⟩, h2, rfl⟩

theorem Inv.none {s : State} (h : Inv s) {k : Nat} :
    Inv { s with iters := s.iters ++ ((Option.none : Option ItMemory).map fun i => (k, i)).toList } := by
  simpa using h

theorem Inv.step {thisFirst : Bool} {s t : State} {op : Op} (h : Inv s) (ht : s.step thisFirst op = .ok t) : Inv t := by
  cases op with
  | bare data => cases ht; exact h.append _
  | makeShared data => cases ht; exact h.append _
  | duplicate k =>
    simp only [State.step] at ht
    split at ht
    · cases ht; exact h
    · cases ht
    · cases ht; exact h.append _
  | adopt k =>
    simp only [State.step] at ht
    split at ht
    · next e => cases ht; exact h.set e (.inl (.inl rfl))
    · cases ht; exact h
  | hide k =>
    simp only [State.step] at ht
    split at ht
    · next e => cases ht; exact h.set e (.inl (.inl rfl))
    · cases ht; exact h
  | copy k =>
    simp only [State.step] at ht
    split at ht
    · next e => cases ht; exact h.set e (.inl (.inr ⟨_, rfl⟩))
    · next e => cases ht; exact h.set e (.inr (.inr ⟨_, rfl⟩))
    · cases ht; exact h
  | drop k =>
    simp only [State.step] at ht
    split at ht
    · next e => cases ht; exact h.set e (.inl (.inl rfl))
    · next e => cases ht; exact h.set e (.inr (.inl rfl))
    · next e => cases ht; exact h.set e (.inl (.inr ⟨_, rfl⟩))
    · next e => cases ht; exact h.set e (.inr (.inl rfl))
    · next e => cases ht; exact h.set e (.inr (.inr ⟨_, rfl⟩))
    · cases ht; exact h
  | nextIter k offset =>
    simp only [State.step] at ht
    split at ht
    · cases ht; exact h
    · next data keeper e =>
      cases keeper with
      | bare =>
        rw [unknown_eq _ _ (.inl rfl)] at ht
        split at ht
        · cases ht; exact h.none
        · split at ht <;> cases ht
      | hidden n =>
        rw [unknown_eq _ _ (.inr ⟨n, rfl⟩)] at ht
        split at ht
        · cases ht; exact h.none
        · split at ht <;> cases ht
      | gone =>
        obtain ⟨u, hu⟩ := gone_not_ok thisFirst data offset
        rw [hu] at ht; cases ht
      | shared n =>
        rw [shared_eq] at ht
        cases hr : StMemory.nextIter data offset with
        | ok r => rw [hr] at ht; cases ht; exact h.add e hr
        | throw e => rw [hr] at ht; cases ht
        | ub u => rw [hr] at ht; cases ht
        | diverge => rw [hr] at ht; cases ht
  | next i =>
    simp only [State.step] at ht
    split at ht
    · cases ht; exact h
    · split at ht
      · next data n e =>
        rw [shared_eq] at ht
        cases hr : StMemory.nextIter _ _ with
        | ok r => rw [hr] at ht; cases ht; exact h.add e hr
        | throw e => rw [hr] at ht; cases ht
        | ub u => rw [hr] at ht; cases ht
        | diverge => rw [hr] at ht; cases ht
      · cases ht

theorem Inv.run {thisFirst : Bool} (ops : List Op) : ∀ {s t : State} {es : List (Op × Exn)}, Inv s →
    s.run thisFirst ops = .ok (t, es) → Inv t := by
  induction ops with
  | nil => intro s t es h e; cases e; exact h
  | cons op ops ih =>
    intro s t es h e
    simp only [State.run] at e
    split at e
    · next s' hs => exact ih (h.step hs) e
    · cases hr : s.run thisFirst ops with
      | ok r =>
        rw [hr] at e
        obtain ⟨t', es'⟩ := r
        cases e
        exact ih h hr
      | throw x => rw [hr] at e; cases e
      | ub u => rw [hr] at e; cases e
      | diverge => rw [hr] at e; cases e
    · cases e
    · cases e

theorem Inv.empty : Inv .empty := by intro k it h; cases h

/-- All iterators are at the beginning of a block of a stream of whole blocks. -/
def Whole (s : State) : Prop := ∀ k it, (k, it) ∈ s.iters → it.offset % 16 = 0 ∧
  ∃ data keeper, s.streams[k]? = some (data, keeper) ∧ data.length % 2 = 0

theorem nextIter_whole {data : List W64} {offset : Nat} (hd : data.length % 2 = 0) (ho : offset % 16 = 0) :
    ∃ r, StMemory.nextIter data offset = .ok r ∧ ∀ i, r = some i → i.offset = offset := by
  by_cases h1 : data.length ≤ offset / 8
  · exact ⟨none, nextIter_end h1, by simp⟩
  · have h2 : offset / 8 + 1 < data.length := by omega
    exact ⟨_, nextIter_ok h2, by rintro i ⟨⟩; rfl⟩

theorem Whole.append {s : State} (h : Whole s) (c : List W64 × Keeper) :
    Whole { s with streams := s.streams ++ [c] } := by
  intro k it hk
  obtain ⟨h0, data, keeper, h1, h2⟩ := h k it hk
  refine ⟨h0, data, keeper, ?_, h2⟩
  simp only
  rw [List.getElem?_append_left (List.getElem?_eq_some_iff.1 h1).1, h1]

theorem Whole.set {s : State} (h : Whole s) {k : Nat} {data : List W64} {old : Keeper} (new : Keeper)
    (hk : s.streams[k]? = some (data, old)) : Whole { s with streams := s.streams.set k (data, new) } := by
  intro k' it hk'
  obtain ⟨h0, data', keeper, h1, h2⟩ := h k' it hk'
  by_cases e : k = k'
  · subst e
    rw [hk] at h1
    cases h1
    refine ⟨h0, data, new, ?_, h2⟩
    simp only
    rw [List.getElem?_set_self (List.getElem?_eq_some_iff.1 hk).1]
  · exact ⟨h0, data', keeper, by simp only; rw [List.getElem?_set_ne e, h1], h2⟩

theorem Whole.add {s : State} (h : Whole s) {k offset : Nat} {data : List W64} {keeper : Keeper} {r : Option ItMemory}
    (hk : s.streams[k]? = some (data, keeper)) (hd : data.length % 2 = 0) (ho : offset % 16 = 0)
    (hr : ∀ i, r = some i → i.offset = offset) :
    Whole { s with iters := s.iters ++ (r.map fun i => (k, i)).toList } := by
  intro k' it hk'
  simp only [List.mem_append] at hk'
  rcases hk' with hk' | hk'
  · exact h k' it hk'
  · cases r with
    | none => simp at hk'
    | some i =>
      simp only [Option.map_some, Option.toList_some, List.mem_singleton, Prod.mk.injEq] at hk'
      obtain ⟨rfl, rfl⟩ := hk'
      exact ⟨by rw [hr it rfl]; exact ho, data, keeper, hk, hd⟩

theorem rules_run {thisFirst : Bool} (ops : List Op) : ∀ {s : State}, Whole s → ByTheRules thisFirst s ops →
    ∃ t, s.run thisFirst ops = .ok (t, []) := by
  induction ops with
  | nil => exact fun _ _ => ⟨_, rfl⟩
  | cons op ops ih =>
    intro s h hr
    obtain ⟨h1, h2⟩ := hr
    have key : ∃ t, s.step thisFirst op = .ok t ∧ Whole t := by
      cases op with
      | bare data => exact ⟨_, rfl, h.append _⟩
      | makeShared data => exact ⟨_, rfl, h.append _⟩
      | duplicate k =>
        simp only [State.step]
        split
        · exact ⟨_, rfl, h⟩
        · next data e => exact absurd e (h1 data)
        · exact ⟨_, rfl, h.append _⟩
      | adopt k =>
        simp only [State.step]
        split
        · next e => exact ⟨_, rfl, h.set _ e⟩
        · exact ⟨_, rfl, h⟩
      | hide k =>
        simp only [State.step]
        split
        · next e => exact ⟨_, rfl, h.set _ e⟩
        · exact ⟨_, rfl, h⟩
      | copy k =>
        simp only [State.step]
        split
        · next e => exact ⟨_, rfl, h.set _ e⟩
        · next e => exact ⟨_, rfl, h.set _ e⟩
        · exact ⟨_, rfl, h⟩
      | drop k =>
        simp only [State.step]
        split
        · next e => exact ⟨_, rfl, h.set _ e⟩
        · next e => exact ⟨_, rfl, h.set _ e⟩
        · next e => exact ⟨_, rfl, h.set _ e⟩
        · next e => exact ⟨_, rfl, h.set _ e⟩
        · next e => exact ⟨_, rfl, h.set _ e⟩
        · exact ⟨_, rfl, h⟩
      | nextIter k offset =>
        simp only [State.step]
        split
        · exact ⟨_, rfl, h⟩
        · next data keeper e =>
          obtain ⟨hd, n, hn⟩ := h1.2 _ e
          simp only at hd hn
          subst hn
          obtain ⟨r, hr1, hr2⟩ := nextIter_whole hd h1.1
          rw [shared_eq, hr1]
          exact ⟨_, rfl, h.add e hd h1.1 hr2⟩
      | next i =>
        simp only [State.step]
        split
        · exact ⟨_, rfl, h⟩
        · next k it e =>
          obtain ⟨data, n, hs⟩ := h1 k it e
          obtain ⟨h0, data', keeper, h3, hd⟩ := h k it (List.mem_of_getElem? e)
          rw [hs] at h3
          cases h3
          obtain ⟨r, hr1, hr2⟩ := nextIter_whole (offset := it.offset + 16) hd (by omega)
          simp only [hs]
          rw [shared_eq, hr1]
          exact ⟨_, rfl, h.add hs hd (by omega) hr2⟩
    obtain ⟨t, e1, e2⟩ := key
    obtain ⟨u, e3⟩ := ih e2 (h2 t e1)
    refine ⟨u, ?_⟩
    simp only [State.run, e1]
    exact e3

/-- What an operation does to the owners of stream `k`. -/
def after (k : Nat) (keeper : Keeper) (op : Op) : Keeper :=
  if op = .adopt k then (match keeper with | .bare => .shared 0 | x => x)
  else if op = .hide k then (match keeper with | .bare => .hidden 0 | x => x)
  else if op = .copy k then (match keeper with | .shared n => .shared (n + 1) | .hidden n => .hidden (n + 1) | x => x)
  else if op = .drop k then
    (match keeper with | .shared (n + 1) => .shared n | .hidden (n + 1) => .hidden n | _ => .gone)
  else keeper

theorem step_after {thisFirst : Bool} {s t : State} {op : Op} {k : Nat} {data : List W64} {keeper : Keeper}
    (hk : s.streams[k]? = some (data, keeper)) (h : s.step thisFirst op = .ok t) :
    t.streams[k]? = some (data, after k keeper op) := by
  have hlt := (List.getElem?_eq_some_iff.1 hk).1
  have happ : ∀ c, (s.streams ++ [c])[k]? = some (data, keeper) := fun c => by
    rw [List.getElem?_append_left hlt, hk]
  cases op with
  | bare data => cases h; simpa [after] using happ _
  | makeShared data => cases h; simpa [after] using happ _
  | duplicate j =>
    simp only [State.step] at h
    split at h
    · cases h; simpa [after] using hk
    · cases h
    · cases h; simpa [after] using happ _
  | nextIter j offset =>
    simp only [State.step] at h
    split at h
    · cases h; simpa [after] using hk
    · cases hr : Bare.nextIter thisFirst _ _ offset with
      | ok r => rw [hr] at h; cases h; simpa [after] using hk
      | throw e => rw [hr] at h; cases h
      | ub u => rw [hr] at h; cases h
      | diverge => rw [hr] at h; cases h
  | next i =>
    simp only [State.step] at h
    split at h
    · cases h; simpa [after] using hk
    · split at h
      · cases hr : Bare.nextIter thisFirst _ _ _ with
        | ok r => rw [hr] at h; cases h; simpa [after] using hk
        | throw e => rw [hr] at h; cases h
        | ub u => rw [hr] at h; cases h
        | diverge => rw [hr] at h; cases h
      · cases h
  | adopt j =>
    by_cases e : j = k
    · subst e
      simp only [State.step, hk] at h
      cases keeper <;> cases h <;> simp [after, (List.getElem?_eq_some_iff.1 hk).2, hlt]
    · simp only [State.step] at h
      split at h <;> cases h <;> simp [after, e, hk]
  | hide j =>
    by_cases e : j = k
    · subst e
      simp only [State.step, hk] at h
      cases keeper <;> cases h <;> simp [after, (List.getElem?_eq_some_iff.1 hk).2, hlt]
    · simp only [State.step] at h
      split at h <;> cases h <;> simp [after, e, hk]
  | copy j =>
    by_cases e : j = k
    · subst e
      simp only [State.step, hk] at h
      cases keeper <;> cases h <;> simp [after, (List.getElem?_eq_some_iff.1 hk).2, hlt]
    · simp only [State.step] at h
      split at h <;> cases h <;> simp [after, e, hk]
  | drop j =>
    by_cases e : j = k
    · subst e
      simp only [State.step, hk] at h
      rcases keeper with _ | (_ | n) | (_ | n) | _ <;> cases h <;> simp [after, (List.getElem?_eq_some_iff.1 hk).2, hlt]
    · simp only [State.step] at h
      split at h <;> cases h <;> simp [after, e, hk]

theorem after_throw {thisFirst : Bool} {s : State} {op : Op} {e : Exn} (k : Nat) (keeper : Keeper)
    (h : s.step thisFirst op = .throw e) : after k keeper op = keeper := by
  cases op with
  | nextIter j offset => simp [after]
  | next i => simp [after]
  | bare data => cases h
  | makeShared data => cases h
  | duplicate j => simp [after]
  | adopt j => simp only [State.step] at h; split at h <;> cases h
  | hide j => simp only [State.step] at h; split at h <;> cases h
  | copy j => simp only [State.step] at h; split at h <;> cases h
  | drop j => simp only [State.step] at h; split at h <;> cases h

theorem run_after {thisFirst : Bool} (k : Nat) (data : List W64) (ops : List Op) : ∀ {s t : State}
    {es : List (Op × Exn)} {keeper : Keeper}, s.streams[k]? = some (data, keeper) →
    s.run thisFirst ops = .ok (t, es) → t.streams[k]? = some (data, ops.foldl (after k) keeper) := by
  induction ops with
  | nil => intro s t es keeper h e; cases e; exact h
  | cons op ops ih =>
    intro s t es keeper h e
    simp only [State.run] at e
    split at e
    · next s' hs => exact ih (step_after h hs) e
    · next x hx =>
      cases hr : s.run thisFirst ops with
      | ok r =>
        rw [hr] at e
        obtain ⟨t', es'⟩ := r
        cases e
        rw [List.foldl_cons, after_throw k keeper hx]
        exact ih h hr
      | throw x => rw [hr] at e; cases e
      | ub u => rw [hr] at e; cases e
      | diverge => rw [hr] at e; cases e
    · cases e
    · cases e

theorem foldl_gone (k : Nat) (ops : List Op) : ops.foldl (after k) .gone = .gone := by
  induction ops with
  | nil => rfl
  | cons op ops ih =>
    rw [List.foldl_cons, show after k .gone op = .gone by simp [after]]
    exact ih

/-- Owners are left after every beginning of a history. -/
theorem left_cons {k n : Nat} {op : Op} {ops : List Op} :
    (∀ j, ((op :: ops).take j).count (.drop k) ≤ n + ((op :: ops).take j).count (.copy k)) ↔
      ∀ j, (if op = .drop k then 1 else 0) + (ops.take j).count (.drop k) ≤
        n + ((if op = .copy k then 1 else 0) + (ops.take j).count (.copy k)) := by
  have e : ∀ j (x : Op), ((op :: ops).take (j + 1)).count x = (if op = x then 1 else 0) + (ops.take j).count x := by
    intro j x
    rw [List.take_succ_cons, List.count_cons]
    by_cases h : op = x
    · subst h; simp; omega
    · simp [h]
  constructor
  · intro h j
    have := h (j + 1)
    rwa [e, e] at this
  · intro h j
    cases j with
    | zero => simp
    | succ j => rw [e, e]; exact h j

theorem foldl_shared (k : Nat) (ops : List Op) : ∀ n,
    (∃ m, ops.foldl (after k) (.shared n) = .shared m) ↔
      ∀ j, (ops.take j).count (.drop k) ≤ n + (ops.take j).count (.copy k) := by
  induction ops with
  | nil => intro n; simp
  | cons op ops ih =>
    intro n
    rw [List.foldl_cons, left_cons]
    by_cases h1 : op = .copy k
    · subst h1
      rw [show after k (.shared n) (.copy k) = .shared (n + 1) by simp [after], ih]
      simp only [if_true, reduceCtorEq, if_false]
      exact forall_congr' fun j => by omega
    · by_cases h2 : op = .drop k
      · subst h2
        simp only [if_true, reduceCtorEq, if_false]
        cases n with
        | zero =>
          rw [show after k (.shared 0) (.drop k) = .gone by simp [after], foldl_gone]
          simp only [reduceCtorEq, exists_false, false_iff]
          intro h
          have := h 0
          simp at this
        | succ n =>
          rw [show after k (.shared (n + 1)) (.drop k) = .shared n by simp [after], ih]
          exact forall_congr' fun j => by omega
      · rw [show after k (.shared n) op = .shared n by simp [after, h1, h2], ih]
        simp only [h1, h2, if_false, Nat.zero_add]

theorem foldl_hidden (k : Nat) (ops : List Op) : ∀ n,
    (∃ m, ops.foldl (after k) (.hidden n) = .hidden m) ↔
      ∀ j, (ops.take j).count (.drop k) ≤ n + (ops.take j).count (.copy k) := by
  induction ops with
  | nil => intro n; simp
  | cons op ops ih =>
    intro n
    rw [List.foldl_cons, left_cons]
    by_cases h1 : op = .copy k
    · subst h1
      rw [show after k (.hidden n) (.copy k) = .hidden (n + 1) by simp [after], ih]
      simp only [if_true, reduceCtorEq, if_false]
      exact forall_congr' fun j => by omega
    · by_cases h2 : op = .drop k
      · subst h2
        simp only [if_true, reduceCtorEq, if_false]
        cases n with
        | zero =>
          rw [show after k (.hidden 0) (.drop k) = .gone by simp [after], foldl_gone]
          simp only [reduceCtorEq, exists_false, false_iff]
          intro h
          have := h 0
          simp at this
        | succ n =>
          rw [show after k (.hidden (n + 1)) (.drop k) = .hidden n by simp [after], ih]
          exact forall_congr' fun j => by omega
      · rw [show after k (.hidden n) op = .hidden n by simp [after, h1, h2], ih]
        simp only [h1, h2, if_false, Nat.zero_add]

theorem foldl_shared_or_gone (k : Nat) (ops : List Op) : ∀ n,
    ops.foldl (after k) (.shared n) = .gone ∨ ∃ m, ops.foldl (after k) (.shared n) = .shared m := by
  induction ops with
  | nil => exact fun n => .inr ⟨n, rfl⟩
  | cons op ops ih =>
    intro n
    rw [List.foldl_cons]
    by_cases h1 : op = .copy k
    · subst h1; rw [show after k (.shared n) (.copy k) = .shared (n + 1) by simp [after]]; exact ih _
    · by_cases h2 : op = .drop k
      · subst h2
        cases n with
        | zero => exact .inl (by rw [show after k (.shared 0) (.drop k) = .gone by simp [after], foldl_gone])
        | succ n => rw [show after k (.shared (n + 1)) (.drop k) = .shared n by simp [after]]; exact ih _
      · rw [show after k (.shared n) op = .shared n by simp [after, h1, h2]]; exact ih _

theorem foldl_hidden_or_gone (k : Nat) (ops : List Op) : ∀ n,
    ops.foldl (after k) (.hidden n) = .gone ∨ ∃ m, ops.foldl (after k) (.hidden n) = .hidden m := by
  induction ops with
  | nil => exact fun n => .inr ⟨n, rfl⟩
  | cons op ops ih =>
    intro n
    rw [List.foldl_cons]
    by_cases h1 : op = .copy k
    · subst h1; rw [show after k (.hidden n) (.copy k) = .hidden (n + 1) by simp [after]]; exact ih _
    · by_cases h2 : op = .drop k
      · subst h2
        cases n with
        | zero => exact .inl (by rw [show after k (.hidden 0) (.drop k) = .gone by simp [after], foldl_gone])
        | succ n => rw [show after k (.hidden (n + 1)) (.drop k) = .hidden n by simp [after]]; exact ih _
      · rw [show after k (.hidden n) op = .hidden n by simp [after, h1, h2]]; exact ih _

theorem foldl_bare (k : Nat) (ops : List Op) :
    ops.foldl (after k) .bare = .bare ↔ .adopt k ∉ ops ∧ .hide k ∉ ops ∧ .drop k ∉ ops := by
  induction ops with
  | nil => simp
  | cons op ops ih =>
    rw [List.foldl_cons]
    by_cases h1 : op = .adopt k
    · subst h1
      rw [show after k .bare (.adopt k) = .shared 0 by simp [after]]
      rcases foldl_shared_or_gone k ops 0 with h | ⟨m, h⟩ <;> simp [h]
    · by_cases h2 : op = .hide k
      · subst h2
        rw [show after k .bare (.hide k) = .hidden 0 by simp [after]]
        rcases foldl_hidden_or_gone k ops 0 with h | ⟨m, h⟩ <;> simp [h]
      · by_cases h3 : op = .drop k
        · subst h3
          rw [show after k .bare (.drop k) = .gone by simp [after], foldl_gone]
          simp
        · rw [show after k .bare op = .bare by simp [after, h1, h2, h3], ih]
          simp [Ne.symm h1, Ne.symm h2, Ne.symm h3]

end Goost.Bare
