import Verif.Lemmas.Share
/-
C116: objects that several threads share.
-/
namespace Goost.Props
open Goost.Share Goost.Mem Spec.Share

/-- C116. Whatever `n` threads do with pointers that they copy, pass on and destroy, and in whatever order their
steps come, no object is used after its destruction and none is destroyed twice: the only thing that can go wrong is
the use of an iterator of words whose stream has been destroyed (`nullDeref`). -/
theorem C116_no_use_after_free (n : Nat) (l : List (Nat × Act)) :
    (∃ s, (Sys.start n).run l = .ok s) ∨ ((Sys.start n).run l = .ub .nullDeref ∧ ∃ t k, (t, Act.lock k) ∈ l) := by
  rcases run_spec l (start_ok n) with ⟨s, e, -⟩ | h
  · exact .inl ⟨s, e⟩
  · exact .inr h

/-- C116. At every moment the objects that exist are those that a thread can still get at or is about to destroy. -/
theorem C116_exists_iff_reachable (n : Nat) (l : List (Nat × Act)) (s : Sys) (h : (Sys.start n).run l = .ok s)
    (p : Nat) : Exists s p ↔ Reach s p := by
  have g := (run_next (start_ok n) h).ok
  rw [exists_iff_count, reach_iff]
  exact g.alive_iff p

/-- C116. Nothing is left when all threads have given up their pointers and finished. -/
theorem C116_nothing_leaks (n : Nat) (l : List (Nat × Act)) (s : Sys) (h : (Sys.start n).run l = .ok s)
    (he : ∀ th ∈ s.threads, th.held = [] ∧ th.pending = []) (p : Nat) : ¬ Exists s p := by
  rw [C116_exists_iff_reachable n l s h p]
  intro hr
  induction hr with
  | held ht hp => rw [(he _ ht).1] at hp; cases hp
  | pending ht hp => rw [(he _ ht).2] at hp; cases hp
  | member _ _ _ ih => exact ih

/-- C116. An object that has been destroyed stays destroyed, and one that exists has kept its contents. -/
theorem C116_destroyed_for_ever (n : Nat) (l m : List (Nat × Act)) (s s' : Sys) (h : (Sys.start n).run l = .ok s)
    (h' : s.run m = .ok s') (p : Nat) :
    (Destroyed s p → Destroyed s' p) ∧ ∀ c, s.heap[p]? = some c → ∃ k, s'.heap[p]? = some ⟨c.obj, k⟩ := by
  have hn := run_next (run_next (start_ok n) h).ok h'
  have hx : ∀ c, s.heap[p]? = some c → ∃ k, s'.heap[p]? = some ⟨c.obj, k⟩ := by
    intro c e
    have h1 := prefix_getElem? hn.ext (i := p) (o := c.obj) (by simp [objs, e])
    simp only [objs, List.getElem?_map, Option.map_eq_some_iff] at h1
    obtain ⟨⟨o, k⟩, e1, e2⟩ := h1
    exact ⟨k, by rw [e1]; exact congrArg (fun o => some (Cell.mk o k)) e2⟩
  refine ⟨?_, hx⟩
  rintro ⟨c, e, hc⟩
  obtain ⟨k, e'⟩ := hx c e
  have := hn.dead p c e hc
  rw [count_eq e'] at this
  exact ⟨_, e', this⟩

/-- C116. A thread may use an iterator of words exactly when some thread can still get at its stream, or is about to
destroy a pointer that leads to it. -/
theorem C116_lock_iff (n : Nat) (l : List (Nat × Act)) (s : Sys) (h : (Sys.start n).run l = .ok s)
    (t k p q off d c : Nat) (held : List Nat) (ht : s.threads[t]? = some ⟨held, []⟩) (hk : held[k]? = some p)
    (hp : s.heap[p]? = some ⟨.itMemory q off d, c⟩) :
    ((∃ s', s.step t (.lock k) = .ok s') ↔ Reach s q) ∧ (s.step t (.lock k) = .ub .nullDeref ↔ ¬ Reach s q) := by
  have g := (run_next (start_ok n) h).ok
  have hc : c ≠ 0 := by
    have := alive_of_mem g (mem_refs ht (.inl (List.mem_of_getElem? hk)))
    rwa [count_eq hp] at this
  rw [lock_step ht hk hp hc, ← C116_exists_iff_reachable n l s h q, exists_iff_count]
  by_cases hq : s.heap.count q = 0 <;> simp [hq]

/-- C116. If one thread holds on to all streams and waits, nothing that the others do goes wrong, unless they make
streams of their own. -/
theorem C116_keeper (n : Nat) (l m : List (Nat × Act)) (s : Sys) (h : (Sys.start n).run l = .ok s) (u : Nat)
    (th : Thread) (hu : s.threads[u]? = some th)
    (hk : ∀ p c d, s.heap[p]? = some c → c.obj = .stMemory d → p ∈ th.held)
    (hm : ∀ t a, (t, a) ∈ m → t ≠ u ∧ ∀ d, a ≠ .stream d) : ∃ s', s.run m = .ok s' := by
  refine keeper u m (run_next (start_ok n) h).ok hu (fun p d hp => ?_) hm
  simp only [objs, List.getElem?_map, Option.map_eq_some_iff] at hp
  obtain ⟨c, e, ho⟩ := hp
  exact hk p c d e ho

/-- C116. Destructors come to an end whatever the other threads do: a thread gets through them in at most as many
steps of its own as it has pointers to destroy and there are pointers in objects that exist. -/
theorem C116_destructors_finish (n : Nat) (l m : List (Nat × Act)) (s s' : Sys) (h : (Sys.start n).run l = .ok s)
    (h' : s.run m = .ok s') (t : Nat) (th : Thread) (ht : s.threads[t]? = some th)
    (hm : th.pending.length + pointersInObjects s ≤ (m.filter (·.1 = t)).length) :
    ∃ m1 m2 s1 th1, m = m1 ++ m2 ∧ s.run m1 = .ok s1 ∧ s1.threads[t]? = some th1 ∧ th1.pending = [] := by
  have g := (run_next (start_ok n) h).ok
  refine finishes t m s.heap.length g ht (fun p hp => ?_) (Nat.le_refl _) h' (by rw [List.take_length]; exact hm)
  exact g.lt (.ref (mem_refs ht (.inr hp)))

/-- A stream of two words and an iterator of it made by thread 0, and given to thread 1: variable 0 of thread 0 is
the stream. -/
def sharedIterator : List (Nat × Act) :=
  [(0, .stream [1, 2]), (0, .make 0), (0, .iterator 0 0), (0, .give 1 1)]

/-- C116. The order of the steps of two threads decides: if thread 1 uses its iterator before thread 0 destroys its
stream all is well, and it holds on to the stream from then on; in the other order it dereferences null. Nothing in
the iterator tells thread 1 which it will be. -/
theorem C116_order_decides :
    (∃ s, (Sys.start 2).run (sharedIterator ++ [(1, .lock 0), (0, .drop 0), (0, .use 0), (1, .use 1)]) = .ok s ∧
      Exists s 0) ∧
    (Sys.start 2).run (sharedIterator ++ [(0, .drop 0), (0, .use 0), (1, .lock 0)]) = .ub .nullDeref := by
  refine ⟨⟨_, rfl, _, rfl, by decide⟩, by decide +kernel⟩

-- Non-vacuity
example : ∃ s, (Sys.start 2).run (sharedIterator ++ [(0, .drop 0)]) = .ok s ∧ Exists s 0 ∧ Exists s 2 ∧
    Reach s 0 ∧ pointersInObjects s = 1 := by
  refine ⟨_, rfl, ⟨_, rfl, by decide⟩, ⟨_, rfl, by decide⟩, ?_, by decide⟩
  exact .pending (th := ⟨[], [0]⟩) (by decide) (by decide)

/-- Two threads destroy the two last pointers to an object at the same time: one of them runs the destructor. -/
example : (Sys.start 2).run [(0, .make 0), (0, .make 1), (0, .copy 0), (0, .give 1 1), (0, .drop 0), (1, .drop 0),
      (0, .use 0), (1, .use 0), (1, .use 0)] =
    .ok ⟨[⟨.other [], 0⟩, ⟨.other [0], 0⟩], [⟨[], []⟩, ⟨[], []⟩]⟩ := by decide +kernel

/-- A keeper: thread 0 waits with its stream while thread 1 goes through it. -/
example : ∃ s, (Sys.start 2).run sharedIterator = .ok s ∧ s.threads[0]? = some ⟨[0], []⟩ ∧
    (∀ p c d, s.heap[p]? = some c → c.obj = .stMemory d → p ∈ [0]) ∧
    (∃ s', s.run [(1, .lock 0), (1, .make 0), (1, .iterator 1 1), (1, .drop 1), (1, .use 0)] = .ok s') := by
  refine ⟨_, rfl, rfl, ?_, _, rfl⟩
  intro p c d hp hc
  match p with
  | 0 => simp
  | 1 => cases hp; cases hc
  | 2 => cases hp; cases hc
  | p + 3 => cases hp

/-! The theorems at these histories. -/

example := C116_exists_iff_reachable 2 (sharedIterator ++ [(0, .drop 0)]) _ rfl

example := C116_nothing_leaks 2 [(0, .make 0), (0, .make 1), (0, .copy 0), (0, .give 1 1), (0, .drop 0), (1, .drop 0),
  (0, .use 0), (1, .use 0), (1, .use 0)] ⟨[⟨.other [], 0⟩, ⟨.other [0], 0⟩], [⟨[], []⟩, ⟨[], []⟩]⟩ (by decide +kernel)
  (by decide)

example := C116_destroyed_for_ever 2 sharedIterator [(0, .drop 0), (0, .use 0)] _ _ rfl rfl

example := C116_lock_iff 2 sharedIterator _ rfl 1 0 2 0 _ _ _ _ rfl rfl rfl

example := C116_destructors_finish 2 (sharedIterator ++ [(0, .drop 0)]) [(0, .use 0), (0, .use 0)] _ _ rfl rfl 0 _ rfl
  (by decide)

example := C116_keeper 2 sharedIterator [(1, .lock 0), (1, .make 0), (1, .iterator 1 1), (1, .drop 1), (1, .use 0)] _ rfl 0 _ rfl
  (by
    intro p c d hp hc
    match p with
    | 0 => exact List.mem_cons_self
    | 1 => cases hp; cases hc
    | 2 => cases hp; cases hc
    | p + 3 => cases hp)
  (by
    intro t a h
    simp only [List.mem_cons, Prod.mk.injEq, List.not_mem_nil, or_false] at h
    rcases h with ⟨rfl, rfl⟩ | ⟨rfl, rfl⟩ | ⟨rfl, rfl⟩ | ⟨rfl, rfl⟩ | ⟨rfl, rfl⟩ <;> exact ⟨by decide, by simp⟩)

end Goost.Props
