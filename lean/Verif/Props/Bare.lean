import Verif.Lemmas.Bare
/-
Property C118: a stream of words can be iterated only if a shared_ptr owns it.

`thisFirst` is the order in which the compiler evaluates the arguments in `next_iter`; `iter()` is `next_iter(0)`.
-/
namespace Goost.Props
open Goost.Kuz Goost.Bare Spec

/-- C118: when calls throw. An operation throws exactly if it asks a stream for an iterator at a word that the stream has,
and either no `shared_ptr` has ever owned the stream or the first one was made from a pointer to the base class; and then
`bad_weak_ptr`. If that word is the last one, and the compiler reads the block first, it reads out of bounds instead.
`next()` does not throw. -/
theorem C118_throws_iff (thisFirst : Bool) (s : State) (op : Op) (e : Exn) :
    s.step thisFirst op = .throw e ↔ e = .badWeakPtr ∧ ∃ k offset data, op = .nextIter k offset ∧
      (NeverShared s k data ∨ OwnedUnknown s k data) ∧ offset / 8 < data.length ∧ (thisFirst = true ∨ offset / 8 + 1 < data.length) := by
  have hn : ∀ (data : List W64) offset, StMemory.nextIter data offset ≠ .throw e := by
    intro data offset h
    by_cases h1 : data.length ≤ offset / 8
    · rw [nextIter_end h1] at h; cases h
    by_cases h2 : offset / 8 + 1 < data.length
    · rw [nextIter_ok h2] at h; cases h
    · rw [nextIter_half (by omega)] at h; cases h
  constructor
  · intro h
    cases op with
    | nextIter k offset =>
      simp only [State.step] at h
      split at h
      · cases h
      · next data keeper ek =>
        cases keeper with
        | bare =>
          rw [unknown_eq _ _ (.inl rfl)] at h
          split at h
          · cases h
          · next hl =>
            split at h
            · next h2 => cases h; exact ⟨rfl, k, offset, data, rfl, .inl ek, by omega, h2⟩
            · cases h
        | hidden n =>
          rw [unknown_eq _ _ (.inr ⟨n, rfl⟩)] at h
          split at h
          · cases h
          · next hl =>
            split at h
            · next h2 => cases h; exact ⟨rfl, k, offset, data, rfl, .inr ⟨n, ek⟩, by omega, h2⟩
            · cases h
        | gone =>
          obtain ⟨u, hu⟩ := gone_not_ok thisFirst data offset
          rw [hu] at h; cases h
        | shared n =>
          rw [shared_eq] at h
          cases hr : StMemory.nextIter data offset with
          | throw e' => rw [hr] at h; cases h; exact absurd hr (hn _ _)
          | ok r => rw [hr] at h; cases h
          | ub u => rw [hr] at h; cases h
          | diverge => rw [hr] at h; cases h
    | next i =>
      simp only [State.step] at h
      split at h
      · cases h
      · split at h
        · rw [shared_eq] at h
          cases hr : StMemory.nextIter _ _ with
          | throw e' => rw [hr] at h; cases h; exact absurd hr (hn _ _)
          | ok r => rw [hr] at h; cases h
          | ub u => rw [hr] at h; cases h
          | diverge => rw [hr] at h; cases h
        · cases h
    | duplicate k => simp only [State.step] at h; split at h <;> cases h
    | adopt k => simp only [State.step] at h; split at h <;> cases h
    | hide k => simp only [State.step] at h; split at h <;> cases h
    | copy k => simp only [State.step] at h; split at h <;> cases h
    | drop k => simp only [State.step] at h; split at h <;> cases h
    | bare data => cases h
    | makeShared data => cases h
  · rintro ⟨rfl, k, offset, data, rfl, hk, h1, h2⟩
    simp only [State.step]
    rcases hk with hk | ⟨n, hk⟩
    · rw [show s.streams[k]? = some (data, .bare) from hk]
      simp only
      rw [unknown_eq _ _ (.inl rfl), if_neg (by omega), if_pos h2]
      rfl
    · rw [hk]
      simp only
      rw [unknown_eq _ _ (.inr ⟨n, rfl⟩), if_neg (by omega), if_pos h2]
      rfl

/-- C118: a stream without words gives null however it is kept, and so does an offset past the end. -/
theorem C118_null (thisFirst : Bool) (s : State) (k offset : Nat) (data : List W64)
    (hk : NeverShared s k data ∨ OwnedUnknown s k data ∨ OwnedByShared s k data) (h : data.length ≤ offset / 8) :
    s.step thisFirst (.nextIter k offset) = .ok s := by
  simp only [State.step]
  rcases hk with hk | ⟨n, hk⟩ | ⟨n, hk⟩
  · rw [show s.streams[k]? = some (data, .bare) from hk]
    simp only
    rw [unknown_eq _ _ (.inl rfl), if_pos h]
    simp
  · rw [hk]
    simp only
    rw [unknown_eq _ _ (.inr ⟨n, rfl⟩), if_pos h]
    simp
  · rw [hk]
    simp only
    rw [shared_eq, nextIter_end h]
    simp

example := C118_null true ⟨[([1, 2], .bare)], []⟩ 0 16 [1, 2] (.inl rfl) (by decide)

/-- C118: a stream that a `shared_ptr` owns gives an iterator with the two words at the offset. -/
theorem C118_shared_gives (thisFirst : Bool) (s : State) (k offset : Nat) (data : List W64)
    (hk : OwnedByShared s k data) (h : offset / 8 + 1 < data.length) :
    s.step thisFirst (.nextIter k offset) =
      .ok { s with iters := s.iters ++ [(k, ⟨offset, (data[offset / 8], data[offset / 8 + 1])⟩)] } := by
  obtain ⟨n, hk⟩ := hk
  simp only [State.step, hk]
  rw [shared_eq, nextIter_ok h]
  rfl

example := C118_shared_gives true ⟨[([1, 2, 3, 4], .shared 0)], []⟩ 0 16 [1, 2, 3, 4] ⟨0, rfl⟩ (by decide)

/-- C118: a stream that had no `shared_ptr` can be given to one; then it gives iterators. -/
theorem C118_adopted_gives (thisFirst : Bool) (s : State) (k : Nat) (data : List W64) (hk : NeverShared s k data)
    (h : 2 ≤ data.length) :
    ∃ t, s.run thisFirst [.adopt k, .nextIter k 0] = .ok (t, []) ∧
      t.iters = s.iters ++ [(k, ⟨0, (data[0], data[1])⟩)] := by
  have e1 : s.step thisFirst (.adopt k) = .ok { s with streams := s.streams.set k (data, .shared 0) } := by
    simp only [State.step]
    rw [show s.streams[k]? = some (data, .bare) from hk]
  have e2 := C118_shared_gives thisFirst { s with streams := s.streams.set k (data, .shared 0) } k 0 data
    ⟨0, by simp only; rw [List.getElem?_set_self (List.getElem?_eq_some_iff.1 hk).1]⟩ (by omega)
  refine ⟨⟨s.streams.set k (data, .shared 0), s.iters ++ [(k, ⟨0, (data[0], data[1])⟩)]⟩, ?_, rfl⟩
  simp only [State.run, e1, e2]

example := C118_adopted_gives false ⟨[([1, 2], .bare)], []⟩ 0 [1, 2] rfl (by decide)

/-- C118: but if the `shared_ptr` is made from a pointer to the base class (as when a `unique_ptr<const Stream>` is given to
a counter mode stream or to `Imit`), the stream throws `bad_weak_ptr` as before, however often that `shared_ptr` is
copied. -/
theorem C118_base_pointer_throws (thisFirst : Bool) (s : State) (k copies : Nat) (data : List W64)
    (hk : NeverShared s k data) (h : 2 ≤ data.length) :
    ∃ t, s.run thisFirst (.hide k :: List.replicate copies (.copy k) ++ [.nextIter k 0]) =
        .ok (t, [(.nextIter k 0, .badWeakPtr)]) ∧ t.iters = s.iters := by
  have hl := (List.getElem?_eq_some_iff.1 hk).1
  have e1 : s.step thisFirst (.hide k) = .ok { s with streams := s.streams.set k (data, .hidden 0) } := by
    simp only [State.step]
    rw [show s.streams[k]? = some (data, .bare) from hk]
  have e2 : ∀ c n (s : State), s.streams[k]? = some (data, .hidden n) →
      ∃ t, s.run thisFirst (List.replicate c (.copy k) ++ [.nextIter k 0]) =
        .ok (t, [(.nextIter k 0, .badWeakPtr)]) ∧ t.iters = s.iters := by
    intro c
    induction c with
    | zero =>
      intro n s hs
      refine ⟨s, ?_, rfl⟩
      have := (C118_throws_iff thisFirst s (.nextIter k 0) .badWeakPtr).2
        ⟨rfl, k, 0, data, rfl, .inr ⟨n, hs⟩, by omega, .inr (by omega)⟩
      simp [State.run, this]
    | succ c ih =>
      intro n s hs
      have e : s.step thisFirst (.copy k) = .ok { s with streams := s.streams.set k (data, .hidden (n + 1)) } := by
        simp only [State.step, hs]
      obtain ⟨t, h1, h2⟩ := ih (n + 1) { s with streams := s.streams.set k (data, .hidden (n + 1)) }
        (by simp only; rw [List.getElem?_set_self (List.getElem?_eq_some_iff.1 hs).1])
      refine ⟨t, ?_, h2⟩
      simp only [List.replicate_succ, List.cons_append, State.run, e]
      exact h1
  obtain ⟨t, h1, h2⟩ := e2 copies 0 { s with streams := s.streams.set k (data, .hidden 0) }
    (by simp only; rw [List.getElem?_set_self hl])
  refine ⟨t, ?_, h2⟩
  simp only [List.cons_append, State.run, e1]
  exact h1

example := C118_base_pointer_throws false ⟨[([1, 2], .bare)], []⟩ 0 3 [1, 2] rfl (by decide)

/-- C118: a counter mode stream over such a stream, and the authentication code of such a stream, throw it on. -/
theorem C118_base_pointer_users (m : Machine) (thisFirst : Bool) (data : List W64) (others fuel : Nat) (key : Kuz.Key)
    (iv : W64) (h : 2 ≤ data.length) :
    (StCTREncrypted.iter (Bare.nextIter thisFirst data (.hidden others) 0) key iv = .throw .badWeakPtr) ∧
      Kuz.Imit.value m (ItMemory.impl data) (Bare.nextIter thisFirst data (.hidden others) 0) fuel key =
        .throw .badWeakPtr := by
  rw [unknown_eq _ _ (.inr ⟨others, rfl⟩), if_neg (by omega), if_pos (.inr (by omega))]
  exact ⟨rfl, rfl⟩

example (m : Machine) (key : Kuz.Key) := C118_base_pointer_users m true [1, 2] 3 5 key 7 (by decide)

/-- C118: a copy of a stream has no `shared_ptr`, even if the original has. -/
theorem C118_copy_not_shared (thisFirst : Bool) (s t : State) (k : Nat) (data : List W64) (hk : OwnedByShared s k data)
    (h : s.step thisFirst (.duplicate k) = .ok t) : NeverShared t s.streams.length data := by
  obtain ⟨n, hk⟩ := hk
  simp only [State.step, hk] at h
  cases h
  simp [NeverShared]

example := C118_copy_not_shared true ⟨[([1, 2], .shared 0)], []⟩ _ 0 [1, 2] ⟨0, rfl⟩ rfl

/-- C118: after any history, also one with exceptions, every iterator that the program has got belongs to a stream that
a `shared_ptr` owns or has owned, of which it knew, and has two neighbouring words of it. -/
theorem C118_iterators_of_shared (thisFirst : Bool) (ops : List Op) (s : State) (es : List (Op × Exn))
    (h : State.empty.run thisFirst ops = .ok (s, es)) (k : Nat) (it : ItMemory) (hi : (k, it) ∈ s.iters) :
    ∃ data keeper, s.streams[k]? = some (data, keeper) ∧
      (keeper = .gone ∨ ∃ n, keeper = .shared n) ∧
      ∃ h : it.offset / 8 + 1 < data.length, it.data = (data[it.offset / 8], data[it.offset / 8 + 1]) :=
  Inv.empty.run ops h k it hi

example := C118_iterators_of_shared true [.makeShared [3, 4, 5, 6], .nextIter 0 0, .next 0] _ _ rfl 0 ⟨16, (5, 6)⟩
  (by decide)

/-- C118: after any history, `next()` of an iterator dereferences null exactly if its stream is not owned by a
`shared_ptr` any more. -/
theorem C118_next_null_iff (thisFirst : Bool) (s : State) (i k : Nat) (it : ItMemory)
    (hi : s.iters[i]? = some (k, it)) :
    s.step thisFirst (.next i) = .ub .nullDeref ↔ ¬ ∃ data, OwnedByShared s k data := by
  simp only [State.step, hi]
  split
  · next data n e =>
    constructor
    · intro h
      rw [shared_eq] at h
      by_cases h1 : data.length ≤ (it.offset + 16) / 8
      · rw [nextIter_end h1] at h; cases h
      by_cases h2 : (it.offset + 16) / 8 + 1 < data.length
      · rw [nextIter_ok h2] at h; cases h
      · rw [nextIter_half (by omega)] at h; cases h
    · exact fun h => absurd ⟨data, n, e⟩ h
  · next hne =>
    refine ⟨fun _ => ?_, fun _ => rfl⟩
    rintro ⟨data, n, e⟩
    exact hne data n e

example := C118_next_null_iff true ⟨[([1, 2], .gone)], [(0, ⟨0, (1, 2)⟩)]⟩ 0 0 _ rfl

/-- C118: a program that keeps to the rules (it iterates only streams of whole blocks that a `shared_ptr` owns, from the
beginning of a block, steps iterators only while their stream exists, and copies only streams that exist) never meets an
exception or undefined behaviour, whatever the compiler does. -/
theorem C118_by_the_rules (thisFirst : Bool) (ops : List Op) (h : ByTheRules thisFirst .empty ops) :
    ∃ s, State.empty.run thisFirst ops = .ok (s, []) :=
  rules_run ops (fun _ _ h => by cases h) h

/-- C118: how long a stream lives. After `make_shared` and any history, a `shared_ptr` owns the stream exactly if at
every point no more `shared_ptr`s had been destroyed than copied; otherwise the stream has been destroyed. -/
theorem C118_make_shared_lives (thisFirst : Bool) (s t : State) (data : List W64) (ops : List Op)
    (es : List (Op × Exn)) (h : s.run thisFirst (.makeShared data :: ops) = .ok (t, es)) :
    (AlwaysLeft s.streams.length ops → OwnedByShared t s.streams.length data) ∧
    (¬ AlwaysLeft s.streams.length ops → Destroyed t s.streams.length data) := by
  have hr := run_after s.streams.length data ops (keeper := .shared 0) (by simp) h
  have hi := foldl_shared s.streams.length ops 0
  simp only [Nat.zero_add] at hi
  refine ⟨fun hl => ?_, fun hl => ?_⟩
  · obtain ⟨m, e⟩ := hi.2 hl
    exact ⟨m, by rw [hr, e]⟩
  · rcases foldl_shared_or_gone s.streams.length ops 0 with e | e
    · rw [Destroyed, hr, e]
    · exact absurd (hi.1 e) hl

/-- C118: the same for a `shared_ptr` that takes over a stream that had none. -/
theorem C118_adopted_lives (thisFirst : Bool) (s t : State) (k : Nat) (data : List W64) (hk : NeverShared s k data)
    (ops : List Op) (es : List (Op × Exn)) (h : s.run thisFirst (.adopt k :: ops) = .ok (t, es)) :
    (AlwaysLeft k ops → OwnedByShared t k data) ∧ (¬ AlwaysLeft k ops → Destroyed t k data) := by
  have hr := run_after k data (.adopt k :: ops) hk h
  rw [List.foldl_cons, show after k .bare (.adopt k) = .shared 0 by simp [after]] at hr
  have hi := foldl_shared k ops 0
  simp only [Nat.zero_add] at hi
  refine ⟨fun hl => ?_, fun hl => ?_⟩
  · obtain ⟨m, e⟩ := hi.2 hl
    exact ⟨m, by rw [hr, e]⟩
  · rcases foldl_shared_or_gone k ops 0 with e | e
    · rw [Destroyed, hr, e]
    · exact absurd (hi.1 e) hl

example := C118_adopted_lives true ⟨[([1, 2], .bare)], []⟩ _ 0 [1, 2] rfl [.copy 0, .drop 0, .nextIter 0 0] _ rfl

/-- C118: the same for a `shared_ptr` made from a pointer to the base class; the stream never gets to know of it. -/
theorem C118_base_pointer_lives (thisFirst : Bool) (s t : State) (k : Nat) (data : List W64)
    (hk : NeverShared s k data) (ops : List Op) (es : List (Op × Exn))
    (h : s.run thisFirst (.hide k :: ops) = .ok (t, es)) :
    (AlwaysLeft k ops → OwnedUnknown t k data) ∧ (¬ AlwaysLeft k ops → Destroyed t k data) := by
  have hr := run_after k data (.hide k :: ops) hk h
  rw [List.foldl_cons, show after k .bare (.hide k) = .hidden 0 by simp [after]] at hr
  have hi := foldl_hidden k ops 0
  simp only [Nat.zero_add] at hi
  refine ⟨fun hl => ?_, fun hl => ?_⟩
  · obtain ⟨m, e⟩ := hi.2 hl
    exact ⟨m, by rw [hr, e]⟩
  · rcases foldl_hidden_or_gone k ops 0 with e | e
    · rw [Destroyed, hr, e]
    · exact absurd (hi.1 e) hl

example := C118_base_pointer_lives true ⟨[([1, 2], .bare)], []⟩ _ 0 [1, 2] rfl [.copy 0, .drop 0, .nextIter 0 0] _ rfl

/-- C118: a variable, or an object of a `unique_ptr`, stays without a `shared_ptr` exactly until one takes it over or it
is destroyed. -/
theorem C118_bare_lives (thisFirst : Bool) (s t : State) (k : Nat) (data : List W64) (hk : NeverShared s k data)
    (ops : List Op) (es : List (Op × Exn)) (h : s.run thisFirst ops = .ok (t, es)) :
    NeverShared t k data ↔ .adopt k ∉ ops ∧ .hide k ∉ ops ∧ .drop k ∉ ops := by
  rw [← foldl_bare, NeverShared, run_after k data ops hk h]
  simp

/-- Of two `shared_ptr`s one is destroyed, and then the other. -/
example : ∃ t u, State.empty.run true [.makeShared [1, 2], .copy 0, .drop 0, .nextIter 0 0] = .ok (t, []) ∧
    AlwaysLeft 0 [.copy 0, .drop 0, .nextIter 0 0] ∧ OwnedByShared t 0 [1, 2] ∧
    State.empty.run true [.makeShared [1, 2], .copy 0, .drop 0, .drop 0] = .ok (u, []) ∧
    ¬ AlwaysLeft 0 [.copy 0, .drop 0, .drop 0] ∧ Destroyed u 0 [1, 2] := by
  have a : AlwaysLeft 0 [.copy 0, .drop 0, .nextIter 0 0] := by
    intro n
    rcases n with _ | _ | _ | n <;> simp [List.take]
  have b : ¬ AlwaysLeft 0 [.copy 0, .drop 0, .drop 0] := fun h => absurd (h 3) (by decide)
  exact ⟨_, _, rfl, a, (C118_make_shared_lives true .empty _ [1, 2] _ _ rfl).1 a, rfl, b,
    (C118_make_shared_lives true .empty _ [1, 2] _ _ rfl).2 b⟩

/-- A history with a variable, which throws, a copy of a shared stream, which throws, and the shared stream, which
gives both blocks; then the variable is taken over and gives its block. -/
example : State.empty.run true [.bare [1, 2], .nextIter 0 0, .makeShared [3, 4, 5, 6], .duplicate 1, .nextIter 2 0,
      .nextIter 1 0, .next 0, .next 1, .adopt 0, .nextIter 0 0] =
    .ok (⟨[([1, 2], .shared 0), ([3, 4, 5, 6], .shared 0), ([3, 4, 5, 6], .bare)],
      [(1, ⟨0, (3, 4)⟩), (1, ⟨16, (5, 6)⟩), (0, ⟨0, (1, 2)⟩)]⟩,
      [(.nextIter 0 0, .badWeakPtr), (.nextIter 2 0, .badWeakPtr)]) := by decide

/-- A `unique_ptr<const Stream>` is turned into a `shared_ptr`, which is copied; the stream does not know of it. -/
example : State.empty.run false [.bare [1, 2], .hide 0, .copy 0, .nextIter 0 0, .drop 0, .drop 0] =
    .ok (⟨[([1, 2], .gone)], []⟩, [(.nextIter 0 0, .badWeakPtr)]) := by decide

/-- A stream of one word in a variable: what happens depends on the compiler. -/
example : State.empty.run true [.bare [1], .nextIter 0 0] = .ok (⟨[([1], .bare)], []⟩, [(.nextIter 0 0, .badWeakPtr)]) ∧
    State.empty.run false [.bare [1], .nextIter 0 0] = .ub .oobRead := by decide

/-- A program that keeps to the rules. -/
example : ByTheRules false .empty [.makeShared [3, 4, 5, 6], .copy 0, .nextIter 0 0, .drop 0, .next 0] := by
  refine ⟨trivial, ?_⟩
  rintro t ⟨⟩
  refine ⟨trivial, ?_⟩
  rintro t ⟨⟩
  refine ⟨⟨rfl, ?_⟩, ?_⟩
  · rintro c ⟨⟩; exact ⟨rfl, 1, rfl⟩
  rintro t ⟨⟩
  refine ⟨trivial, ?_⟩
  rintro t ⟨⟩
  refine ⟨?_, fun _ _ => trivial⟩
  rintro k it ⟨⟩
  exact ⟨[3, 4, 5, 6], 0, rfl⟩

end Goost.Props
