import Verif.Lemmas.Memory
/-
Property C99: lifetime of objects.
-/
namespace Goost.Props
open Goost.Mem Spec.Mem
open Goost (Exec)

/-! ### C99 -/

/-- C99. After any history of making objects, copying, passing on and destroying pointers and using
streams and iterators, an object exists exactly if the variables of the program lead to it: nothing is
destroyed early and nothing is leaked. -/
theorem C99_exists_iff_reachable (ops : List Op) (s : State) (h : State.empty.run ops = .ok s)
    (p : Nat) : Exists s p ↔ Reach s p := by
  have g := Good_run h
  rw [← R_iff_Reach, ← g.alive_iff]
  constructor
  · rintro ⟨c, e, hc⟩; rw [count_eq e]; exact hc
  · exact exists_of_count

/-- C99. Once the program has destroyed all its variables no object is left. -/
theorem C99_nothing_leaks (ops : List Op) (s : State) (h : State.empty.run ops = .ok s)
    (hh : s.held = []) (p : Nat) : ¬ Exists s p := by
  rw [C99_exists_iff_reachable ops s h]
  intro hr
  induction hr with
  | held hp => rw [hh] at hp; simp at hp
  | member _ _ _ ih => exact ih

/-- C99. No history goes through a pointer to an object that has been destroyed, and none runs for
ever: the only undefined behaviour is the null pointer of C49 and, for a stream of an odd number of
words, the read of C48. -/
theorem C99_no_use_after_free (ops : List Op) :
    (∃ s, State.empty.run ops = .ok s) ∨ State.empty.run ops = .ub .oobRead ∨
      State.empty.run ops = .ub .nullDeref := by
  rcases run_spec ops Good_empty with ⟨s, h, _⟩ | h
  · exact .inl ⟨s, h⟩
  · exact .inr h

/-- C99. Objects never change their members, and are never replaced: what a history has made is still
the same after any further history. -/
theorem C99_objects_constant (ops more : List Op) (s t : State) (h : State.empty.run ops = .ok s)
    (h' : s.run more = .ok t) (p : Nat) (c : Cell) (hc : s.heap[p]? = some c) :
    ∃ n, t.heap[p]? = some ⟨c.obj, n⟩ := by
  rcases run_spec more (Good_run h) with ⟨t', e, _, x⟩ | e | e
  · rw [h'] at e
    cases e
    have := prefix_getElem? x (show (objs s.heap)[p]? = some c.obj by simp [objs, hc])
    simp only [objs, List.getElem?_map, Option.map_eq_some_iff] at this
    obtain ⟨d, e1, e2⟩ := this
    exact ⟨d.count, by rw [e1, ← e2]⟩
  · rw [h'] at e; cases e
  · rw [h'] at e; cases e

/-- C99, iterators, through any number of layers: `next()` and `last()` of an iterator that the program
holds dereference null exactly if no variable leads to the stream of words any more. Iterators
themselves do not lead to it: see `C99_iterator_does_not_keep`. -/
theorem C99_iterator_usable_iff (ops : List Op) (s : State) (h : State.empty.run ops = .ok s)
    (k p b : Nat) (hk : s.held[k]? = some p) (hb : Base s p b) :
    (s.step (.next k) = .ub .nullDeref ↔ ¬ Reach s b) ∧
    (s.step (.last k) = .ub .nullDeref ↔ ¬ Reach s b) := by
  have g := Good_run h
  have hr : R (objs s.heap) s.held p := .ref (List.mem_of_getElem? hk)
  obtain ⟨h1, h2⟩ := next_base g hb hr (p + 1) (Nat.lt_succ_self p)
  have h3 : s.heap.count b = 0 ↔ ¬ Reach s b := by
    rw [← R_iff_Reach, ← g.alive_iff]; simp
  rw [← h3]
  simp only [State.step, hk]
  constructor
  · rw [← h1]
    rcases next_spec (p + 1) g hr (Nat.lt_succ_self p) with ⟨n, h', e, _⟩ | e | e <;> rw [e] <;> simp
  · rw [← h2]
    rcases last_spec (p + 1) g hr (Nat.lt_succ_self p) with ⟨n, h', e, _⟩ | e | e <;> rw [e] <;> simp

/-- C99: `iter()` of a stream wrapped in layers gives an iterator at the first word of the stream of
words, wrapped in layers with the same keys. -/
theorem C99_iter_starts (ops : List Op) (s t : State) (h : State.empty.run ops = .ok s) (k p b : Nat)
    (keys : List Nat) (hk : s.held[k]? = some p) (ho : Over s p b keys) (data : List (BitVec 64)) (n : Nat)
    (hd : s.heap[b]? = some ⟨.stMemory data, n⟩) (hl : data ≠ []) (ht : s.step (.iter k) = .ok t) :
    ∃ q, t.held = s.held ++ [q] ∧ At t q b 0 keys := by
  have g := Good_run h
  have hr : R (objs s.heap) s.held p := .ref (List.mem_of_getElem? hk)
  simp only [State.step, hk] at ht
  rcases iter_spec (p + 1) g hr (Nat.lt_succ_self p) with ⟨n, h', e, r⟩ | e
  · obtain ⟨q, rfl, ha⟩ := iter_at g ho (by simp [objs, hd]) hl hr (p + 1) (Nat.lt_succ_self p) n h' e
    rw [e] at ht
    cases ht
    exact ⟨q, rfl, (AtO_iff _ _ _ _ _).1 ha⟩
  · rw [e] at ht; cases ht

/-- C99: `next()` of an iterator that is not at the end, wrapped in layers, gives an iterator two words
further on, of the same stream and wrapped in layers with the same keys. -/
theorem C99_next_moves (ops : List Op) (s t : State) (h : State.empty.run ops = .ok s) (k p b offset : Nat)
    (keys : List Nat) (hk : s.held[k]? = some p) (ha : At s p b offset keys) (data : List (BitVec 64))
    (n : Nat) (hd : s.heap[b]? = some ⟨.stMemory data, n⟩) (hl : (offset + 16) / 8 < data.length)
    (ht : s.step (.next k) = .ok t) :
    ∃ q, t.held = s.held ++ [q] ∧ At t q b (offset + 16) keys := by
  have g := Good_run h
  have hr : R (objs s.heap) s.held p := .ref (List.mem_of_getElem? hk)
  simp only [State.step, hk] at ht
  rcases next_spec (p + 1) g hr (Nat.lt_succ_self p) with ⟨n, h', e, r⟩ | e | e
  · obtain ⟨q, rfl, ha⟩ := next_at g ((AtO_iff _ _ _ _ _).2 ha) (by simp [objs, hd]) hl hr (p + 1)
      (Nat.lt_succ_self p) n h' e
    rw [e] at ht
    cases ht
    exact ⟨q, rfl, (AtO_iff _ _ _ _ _).1 ha⟩
  · rw [e] at ht; cases ht
  · rw [e] at ht; cases ht

/-- C99: `next()` of an iterator at the end of a stream of words gives null: the program has got no new
pointer. -/
theorem C99_next_ends (ops : List Op) (s t : State) (h : State.empty.run ops = .ok s) (k p b offset : Nat)
    (hk : s.held[k]? = some p) (ha : At s p b offset []) (data : List (BitVec 64)) (n : Nat)
    (hd : s.heap[b]? = some ⟨.stMemory data, n⟩) (hl : data.length ≤ (offset + 16) / 8)
    (ht : s.step (.next k) = .ok t) : t.held = s.held := by
  have g := Good_run h
  have hr : R (objs s.heap) s.held p := .ref (List.mem_of_getElem? hk)
  simp only [State.step, hk] at ht
  cases ha with
  | memory h1 =>
    rename_i d m
    rcases next_spec (p + 1) g hr (Nat.lt_succ_self p) with ⟨n, h', e, r⟩ | e | e
    · have := next_end g (show (objs s.heap)[p]? = some (.itMemory b offset d) by simp [objs, h1])
        (by simp [objs, hd]) hl hr (p + 1) (Nat.lt_succ_self p) n h' e
      subst this
      rw [e] at ht
      cases ht
      simp
    · rw [e] at ht; cases ht
    · rw [e] at ht; cases ht

/-- C99, values: `value()` of anything that the program holds works, whatever else has been destroyed, as
long as no iterator past the end (which wraps null, C64) can be reached. -/
theorem C99_value_usable (ops : List Op) (s : State) (h : State.empty.run ops = .ok s)
    (hn : ∀ q n key ctr, Reach s q → s.heap[q]? ≠ some ⟨.itCtr none key ctr, n⟩) (k : Nat) :
    s.step (.value k) = .ok s := by
  have g := Good_run h
  simp only [State.step]
  cases e : s.held[k]? with
  | none => rfl
  | some p =>
    dsimp only
    rw [value_ok (p + 1) g ?_ (.ref (List.mem_of_getElem? e)) (Nat.lt_succ_self p)]
    · rfl
    · intro q key ctr hq e1
      simp only [objs, List.getElem?_map, Option.map_eq_some_iff] at e1
      obtain ⟨c, e2, e3⟩ := e1
      exact hn q c.count key ctr ((R_iff_Reach s q).1 hq) (by rw [e2, ← e3])

/-- A stream, a key, a counter mode stream over them, an iterator of it. -/
def sampleOps : List Op :=
  [.stMemory [1, 2, 3, 4], .other [], .stCtr 0 1, .iter 2]

/-- C99: while only the counter mode stream and its iterator are held, `next()` works; when the stream
is dropped, the iterator that is still held dereferences null. -/
theorem C99_iterator_does_not_keep :
    (∃ s, State.empty.run (sampleOps ++ [.drop 0, .drop 0, .next 1]) = .ok s) ∧
    State.empty.run (sampleOps ++ [.drop 0, .drop 0, .drop 0, .next 0]) = .ub .nullDeref := by
  constructor
  · exact ⟨_, rfl⟩
  · rfl

/-- After `sampleOps` the hypotheses of `C99_iter_starts` and `C99_next_moves` are met. -/
example : ∃ s : State, State.empty.run sampleOps = .ok s ∧ Over s 2 0 [1] ∧ At s 6 0 0 [1] ∧
    (∃ t, s.step (.next 3) = .ok t) ∧ (∃ t, s.step (.iter 2) = .ok t) := by
  refine ⟨_, rfl, .ctr (h := rfl) (.memory (h := rfl)), .ctr (h := rfl) (.memory (h := rfl)),
    ⟨_, rfl⟩, ⟨_, rfl⟩⟩

/-- After `sampleOps` the program holds a stream, a key, a layer and its iterator; the last is object 6,
wraps object 4, whose stream is object 0, which is reachable. -/
example : ∃ s, State.empty.run sampleOps = .ok s ∧ ∃ p, s.held[3]? = some p ∧ Base s p 0 ∧ Reach s 0 := by
  refine ⟨_, rfl, _, rfl, ?_, .held (by decide)⟩
  exact .ctr (h := rfl) (.memory (h := rfl))

/-- After `sampleOps` no iterator past the end has been made. -/
example : ∃ s : State, State.empty.run sampleOps = .ok s ∧
    ∀ (q : Nat) n key ctr, s.heap[q]? ≠ some (Cell.mk (.itCtr none key ctr) n) := by
  have key : ∀ s : State, (∀ c ∈ s.heap, ∀ k x, c.obj ≠ .itCtr none k x) →
      ∀ (q : Nat) n key ctr, s.heap[q]? ≠ some (Cell.mk (.itCtr none key ctr) n) :=
    fun s h q n k x e => h _ (List.mem_of_getElem? e) k x rfl
  refine ⟨⟨[⟨.stMemory [1, 2, 3, 4], 2⟩, ⟨.other [], 3⟩, ⟨.stCtr 0 1, 1⟩, ⟨.other [], 1⟩,
    ⟨.itMemory 0 0 3, 1⟩, ⟨.other [], 1⟩, ⟨.itCtr (some 4) 1 5, 1⟩], [0, 1, 2, 6]⟩, by rfl, key _ ?_⟩
  simp

/-! The theorems after these calls -/

example := C99_exists_iff_reachable sampleOps _ rfl 3

example := C99_nothing_leaks (sampleOps ++ [.drop 0, .drop 0, .drop 0, .drop 0]) _ rfl rfl 0

example := C99_objects_constant sampleOps [.drop 0, .next 2] _ _ rfl rfl 0 _ rfl

example := C99_iterator_usable_iff sampleOps _ rfl 3 6 0 rfl (.ctr (h := rfl) (.memory (h := rfl)))

example := C99_iter_starts sampleOps _ _ rfl 2 2 0 [1] rfl (.ctr (h := rfl) (.memory (h := rfl))) _ _ rfl (by decide) rfl

example := C99_next_moves sampleOps _ _ rfl 3 6 0 0 [1] rfl (.ctr (h := rfl) (.memory (h := rfl))) _ _ rfl (by decide) rfl

example := C99_next_ends [.stMemory [1, 2], .iter 0] _ _ rfl 1 2 0 0 rfl (.memory (h := rfl)) _ _ rfl (by decide) rfl

end Goost.Props
