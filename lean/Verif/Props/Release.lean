import Verif.Lemmas.ReleaseGrow
import Verif.Props.Memory
/-
Property C115: how much stack it takes to give up a pointer.
-/
namespace Goost.Props
open Goost.Mem Spec.Mem
open Goost (Exec)

/-! ### C115 -/

/-- C115: the nesting is recorded on the right execution. Whatever the order in which objects destroy their
members, what is left when a variable is destroyed is what C99 is about. -/
theorem C115_same (ops : List Op) (s : State) (h : State.empty.run ops = .ok s) (order : List Nat → List Nat)
    (ho : IsOrder order) (k p : Nat) (hk : s.held[k]? = some p) :
    s.step (.drop k) = .ok ⟨(Heap.releaseIn order (p + 1) 0 (s.heap, 0) p).1, s.held.eraseIdx k⟩ := by
  have g := Good_run h
  have g' : Good s.heap (p :: s.held.eraseIdx k) := g.perm fun q => count_eraseIdx _ _ _ hk q
  have e : (Heap.releaseIn order (p + 1) 0 (s.heap, 0) p).1 = s.heap.release (p + 1) p :=
    (Good.releaseIn ho (x := (s.heap, 0)) g' (Nat.lt_succ_self p)).unique g'.release
      (by rw [objs_releaseIn, objs_release])
  rw [e]
  exact step_drop (h := s.heap) (held := s.held) hk

/-- C115, from above: destructors are never nested deeper than there are objects in a row, each a member of the one
before. -/
theorem C115_nesting (ops : List Op) (s : State) (_h : State.empty.run ops = .ok s) (order : List Nat → List Nat)
    (ho : IsOrder order) (k : Nat) (hd : 0 < s.dropDepth order k) :
    ∃ p, s.held[k]? = some p ∧ Chain s.heap p (s.dropDepth order k) := by
  cases hk : s.held[k]? with
  | none => simp [State.dropDepth, hk] at hd
  | some p =>
    refine ⟨p, rfl, ?_⟩
    rw [Chain_iff]
    simp only [State.dropDepth, hk] at hd ⊢
    rcases releaseIn_chain ho (p + 1) 0 (s.heap, 0) p with e | ⟨n, hn, e⟩
    · exact absurd hd (by simpa using e)
    · rw [e, Nat.zero_add]; exact hn

/-- C115, from below: if there is only one pointer to each object of such a row, their destructors are all nested. -/
theorem C115_nesting_least (ops : List Op) (s : State) (h : State.empty.run ops = .ok s)
    (order : List Nat → List Nat) (ho : IsOrder order) (k p n : Nat) (hk : s.held[k]? = some p)
    (hn : Owned s.heap p n) : n ≤ s.dropDepth order k :=
  dropDepth_owned ho (Good_run h) hk hn

/-- C115: nothing is destroyed, and no destructor called, exactly if the program or an object has another pointer
to the object. -/
theorem C115_nothing (ops : List Op) (s : State) (h : State.empty.run ops = .ok s) (order : List Nat → List Nat)
    (ho : IsOrder order) (k p : Nat) (hk : s.held[k]? = some p) :
    s.dropDepth order k = 0 ↔ 2 ≤ s.heap.count p := by
  have g := Good_run h
  have hr := (g.alive_iff p).2 (.ref (List.mem_of_getElem? hk))
  obtain ⟨c, e, hc⟩ := exists_of_count hr
  rw [count_eq e]
  constructor
  · intro hd
    by_cases h1 : c.count = 1
    · have := dropDepth_owned ho g hk (.one e h1)
      omega
    · omega
  · intro h2
    simp only [State.dropDepth, hk, releaseIn_succ, e]
    rw [if_neg (by omega)]

/-- C115 is false of counter mode: a program that goes through a stream and holds one iterator at a time gives up an
iterator, in the end, with as many destructors inside each other as it has read blocks. Every iterator holds the
counter block of the one before. -/
theorem C115_ctr_grows (data : List (BitVec 64)) (n : Nat) (hd : 2 * n + 2 ≤ data.length) :
    ∃ s, State.empty.run (ctrOps data n) = .ok s ∧
      ∀ order, IsOrder order → s.dropDepth order 3 = max 3 (n + 2) := by
  obtain ⟨s, e, a⟩ := ctrOps_at (data := data) (n := n) (by omega)
  exact ⟨s, e, fun order ho => a.depth ho (Good_run e)⟩

/-- C115 is false of the authentication code of the 64-bit cipher: seven destructors inside each other for every
block of data. -/
theorem C115_mac_grows (n : Nat) :
    ∃ s, State.empty.run (macOps n) = .ok s ∧ ∀ order, IsOrder order → s.dropDepth order 1 = 7 * n + 2 := by
  obtain ⟨s, e, a⟩ := macOps_at n
  exact ⟨s, e, fun order ho => a.depth ho (Good_run e)⟩

/-- C115 is false of the authentication code of the 128-bit cipher: two for every block. -/
theorem C115_kuznyechik_mac_grows (n : Nat) :
    ∃ s, State.empty.run (kuzMacOps n) = .ok s ∧ ∀ order, IsOrder order → s.dropDepth order 1 = 2 * n + 2 := by
  obtain ⟨s, e, a⟩ := kuzMacOps_at n
  exact ⟨s, e, fun order ho => a.depth ho (Good_run e)⟩

/-- C115 is false: no amount of stack is enough for every program. -/
theorem C115_no_bound (order : List Nat → List Nat) (ho : IsOrder order) :
    ¬ ∃ bound, ∀ ops s k, State.empty.run ops = .ok s → s.dropDepth order k ≤ bound := by
  rintro ⟨b, hb⟩
  obtain ⟨s, e, hd⟩ := C115_kuznyechik_mac_grows b
  have := hb _ _ 1 e
  rw [hd order ho] at this
  omega

/-- C115 holds of sinks and sources: after any number of writes through `l` sinks the nesting is what it was before
the first. Missing: iterators of counter mode and blocks of authentication codes, for which it is false. -/
theorem C115_sinks_partial (l n : Nat) :
    ∃ s, State.empty.run (sinkOps l ++ (List.replicate n (writeOps l)).flatten) = .ok s ∧
      ∀ order, IsOrder order → s.dropDepth order 1 ≤ l + 1 := by
  obtain ⟨s, e, m⟩ := sinkOps_at l
  obtain ⟨t, e', m'⟩ := m.writes n
  exact ⟨t, by rw [run_append', e]; exact e', fun order ho => m'.depth ho⟩

/-- The order of C++: members are destroyed in the reverse of the order in which they are declared. -/
example : IsOrder List.reverse := List.reverse_perm

/-- Twenty blocks of counter mode: 21 destructors inside each other for the twentieth iterator. -/
example : (match State.empty.run (ctrOps ((List.range 42).map (BitVec.ofNat 64)) 19) with
    | .ok s => some (s.dropDepth List.reverse 3, s.held.length)
    | _ => none) = some (21, 4) := by decide +kernel

/-- Without counter mode, iterators over words in memory do not grow. -/
example : (match State.empty.run ([.stMemory ((List.range 42).map (BitVec.ofNat 64)), .iter 0] ++
      (List.replicate 19 [.next 1, .drop 1]).flatten) with
    | .ok s => some (s.dropDepth List.reverse 1, s.held.length)
    | _ => none) = some (2, 2) := by decide +kernel

/-- An authentication code over six blocks, then seven: 37 and 44 destructors. -/
example : (match State.empty.run (macOps 5), State.empty.run (macOps 6) with
    | .ok s, .ok t => some (s.dropDepth List.reverse 1, t.dropDepth List.reverse 1)
    | _, _ => none) = some (37, 44) := by decide +kernel

/-- Three sinks on a fourth: after ten writes four destructors, as before. With a copy of the pointer none. -/
example : (match State.empty.run (sinkOps 3), State.empty.run (sinkOps 3 ++ (List.replicate 10 (writeOps 3)).flatten),
      State.empty.run (sinkOps 3 ++ [.copy 1]) with
    | .ok s, .ok t, .ok u => some (s.dropDepth List.reverse 1, t.dropDepth List.reverse 1, u.dropDepth List.reverse 1)
    | _, _, _ => none) = some (4, 4, 0) := by decide +kernel

/-- The hypotheses of the bounds are met by a state with objects that are shared and objects that are not. -/
example : ∃ s, State.empty.run (kuzMacOps 1) = .ok s ∧ s.held[1]? = some 6 ∧ Owned s.heap 6 4 ∧
    s.heap.count 0 = 2 ∧ 0 < s.dropDepth List.reverse 1 :=
  ⟨_, rfl, rfl, .cons rfl rfl (q := 4) (by decide) (.cons rfl rfl (q := 3) (by decide)
    (.cons rfl rfl (q := 1) (by decide) (.one rfl rfl))), by decide, by decide⟩

example := C115_same (kuzMacOps 1) _ rfl List.reverse List.reverse_perm 1 6 rfl

example := C115_nesting (kuzMacOps 1) _ rfl List.reverse List.reverse_perm 1 (by decide)

example := C115_nesting_least (kuzMacOps 1) _ rfl List.reverse List.reverse_perm 1 6 4 rfl
  (.cons rfl rfl (q := 4) (by decide) (.cons rfl rfl (q := 3) (by decide) (.cons rfl rfl (q := 1) (by decide) (.one rfl rfl))))

example := C115_nothing (kuzMacOps 1) _ rfl List.reverse List.reverse_perm 1 6 rfl

example := C115_ctr_grows [1, 2, 3, 4, 5, 6] 2 (by decide)

example := C115_no_bound List.reverse List.reverse_perm

end Goost.Props
