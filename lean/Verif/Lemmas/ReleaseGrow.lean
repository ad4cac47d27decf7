import Verif.Lemmas.Release
/-
Helper lemmas: chains of objects that grow.
-/
namespace Goost.Mem
open Spec.Mem

variable {order : List Nat → List Nat}

/-! ### Upper bounds of chains -/

inductive Rank (os : List Obj) : Nat → Nat → Prop
  | mk {p d : Nat} {o : Obj} (f : Nat → Nat) (hp : os[p]? = some o) (hf : ∀ m ∈ o.members, f m < d)
      (hm : ∀ m ∈ o.members, Rank os m (f m)) (hd : 0 < d) : Rank os p d

theorem Rank.intro {os : List Obj} {p d : Nat} {o : Obj} (hp : os[p]? = some o)
    (hm : ∀ m ∈ o.members, ∃ d' < d, Rank os m d') (hd : 0 < d) : Rank os p d := by
  classical
  refine .mk (fun m => if h : m ∈ o.members then (hm m h).choose else 0) hp ?_ ?_ hd
  · intro m h; rw [dif_pos h]; exact (hm m h).choose_spec.1
  · intro m h; rw [dif_pos h]; exact (hm m h).choose_spec.2

theorem Rank.append {os : List Obj} (os' : List Obj) {p d : Nat} (h : Rank os p d) : Rank (os ++ os') p d := by
  induction h with
  | mk f hp hf _ hd ih => exact .mk f (prefix_getElem? (List.prefix_append _ _) hp) hf ih hd

theorem Rank.chain {os : List Obj} {p d : Nat} (h : Rank os p d) : ∀ {n : Nat}, ChainO os p n → n ≤ d := by
  induction h with
  | mk f hp hf _ hd ih =>
    intro n hn
    cases hn with
    | one _ => exact hd
    | cons hp' hq hn =>
      rw [hp] at hp'; cases hp'
      have h1 := hf _ hq
      have h2 := ih _ hq hn
      omega

theorem dropDepth_rank (ho : IsOrder order) {s : State} {k p d : Nat} (hk : s.held[k]? = some p)
    (hr : Rank (objs s.heap) p d) : s.dropDepth order k ≤ d := by
  unfold State.dropDepth
  rw [hk]
  dsimp only
  rcases releaseIn_chain ho (p + 1) 0 (s.heap, 0) p with h | ⟨n, hn, h⟩
  · exact Nat.le_trans h (Nat.zero_le _)
  · rw [h, Nat.zero_add]
    exact hr.chain hn

theorem dropDepth_owned (ho : IsOrder order) {s : State} (g : Good s.heap s.held) {k p n : Nat}
    (hk : s.held[k]? = some p) (hn : Owned s.heap p n) : n ≤ s.dropDepth order k := by
  unfold State.dropDepth
  rw [hk]
  dsimp only
  have := releaseIn_owned ho (p + 1) (d := 0) (x := (s.heap, 0)) (refs := s.held.eraseIdx k) (p := p) (k := n)
    (g.perm fun q => count_eraseIdx _ _ _ hk q) (Nat.lt_succ_self p) hn
  omega

/-! ### Heaps -/

theorem incr_comm (h : Heap) (p q : Nat) : (h.incr p).incr q = (h.incr q).incr p := by
  apply List.ext_getElem?
  intro i
  simp only [get_incr]
  split <;> split <;> rfl

theorem incr_append (h Y : Heap) {p : Nat} (hp : p < h.length) : h.incr p ++ Y = Heap.incr (h ++ Y) p :=
  (modify_append h Y _ hp).symm

theorem release_copy {h : Heap} {p : Nat} (n : Nat) (hc : h.count p ≠ 0) : (h.incr p).release (n + 1) p = h := by
  obtain ⟨c, e, hc⟩ := exists_of_count hc
  exact release_incr n e (by omega)

theorem count_append_left (h Y : Heap) {p : Nat} (hc : h.count p ≠ 0) : Heap.count (h ++ Y) p ≠ 0 := by
  obtain ⟨c, e, hc⟩ := exists_of_count hc
  rw [count_eq (c := c) (by rw [List.getElem?_append_left (List.getElem?_eq_some_iff.1 e).1, e])]
  exact hc

theorem count_append_right (h Y : Heap) (j : Nat) : Heap.count (h ++ Y) (h.length + j) = Heap.count Y j := by
  unfold Heap.count
  rw [List.getElem?_append_right (by omega), Nat.add_sub_cancel_left]

theorem lt_of_count {h : Heap} {p : Nat} (hc : h.count p ≠ 0) : p < h.length := by
  obtain ⟨c, e, -⟩ := exists_of_count hc
  exact (List.getElem?_eq_some_iff.1 e).1

theorem run_append' (s : State) (a b : List Op) :
    s.run (a ++ b) = (s.run a >>= fun t => t.run b) := by
  induction a generalizing s with
  | nil => rfl
  | cons o a ih =>
    simp only [List.cons_append, State.run]
    cases s.step o with
    | ok t => exact ih t
    | throw _ => rfl
    | ub _ => rfl
    | diverge => rfl

theorem run_cons {s t : State} {op : Op} (e : s.step op = .ok t) (ops : List Op) :
    s.run (op :: ops) = t.run ops := by
  rw [State.run, e]; rfl

theorem step_drop {h : Heap} {held : List Nat} {k p : Nat} (e : held[k]? = some p) :
    State.step ⟨h, held⟩ (.drop k) = .ok ⟨h.release (p + 1) p, held.eraseIdx k⟩ := by
  simp only [State.step, e]

theorem xorOps_run {h : Heap} {k q : Nat} (hq : h.count q ≠ 0) :
    State.run ⟨h, [k, q]⟩ xorOps =
      .ok ⟨h ++ [⟨.other [], 1⟩, ⟨.other [q, h.length], 1⟩], [k, h.length + 1]⟩ := by
  have e1 : State.step ⟨h, [k, q]⟩ (.other []) = .ok ⟨h ++ [⟨.other [], 1⟩], [k, q, h.length]⟩ := rfl
  have e2 : State.step ⟨h ++ [⟨.other [], 1⟩], [k, q, h.length]⟩ (.other [1, 2]) =
      .ok ⟨((h ++ [⟨.other [], 1⟩] ++ [⟨.other [q, h.length], 1⟩] : Heap).incr h.length).incr q,
        [k, q, h.length, h.length + 1]⟩ := by
    have := lt_of_count hq
    rw [← incr_append _ _ (by simp), ← incr_append _ _ (by rw [length_incr]; simp; omega), incr_comm]
    simp [State.step, Heap.alloc, Obj.members]
  have e3 : State.step ⟨((h ++ [⟨.other [], 1⟩] ++ [⟨.other [q, h.length], 1⟩] : Heap).incr h.length).incr q,
      [k, q, h.length, h.length + 1]⟩ (.drop 1) =
      .ok ⟨(h ++ [⟨.other [], 1⟩] ++ [⟨.other [q, h.length], 1⟩] : Heap).incr h.length,
        [k, h.length, h.length + 1]⟩ := by
    rw [step_drop rfl, release_copy]; rfl
    exact count_incr_ne (count_append_left _ _ (count_append_left _ _ hq))
  have e4 : State.step ⟨(h ++ [⟨.other [], 1⟩] ++ [⟨.other [q, h.length], 1⟩] : Heap).incr h.length,
        [k, h.length, h.length + 1]⟩ (.drop 1) =
      .ok ⟨h ++ [⟨.other [], 1⟩, ⟨.other [q, h.length], 1⟩], [k, h.length + 1]⟩ := by
    rw [step_drop rfl, release_copy]
    · simp
    · have := count_append_right h [⟨.other [], 1⟩, ⟨.other [q, h.length], 1⟩] 0
      simp only [Nat.add_zero] at this
      rw [List.append_assoc, List.singleton_append, this]
      simp [Heap.count]
  rw [xorOps, run_cons e1, run_cons e2, run_cons e3, run_cons e4]
  rfl

theorem keyOps_run {h : Heap} {k q : Nat} (hq : h.count q ≠ 0) (hk : k < h.length) :
    State.run ⟨h, [k, q]⟩ keyOps = .ok ⟨h.incr k ++ [⟨.other [q, k], 1⟩], [k, h.length]⟩ := by
  have e1 : State.step ⟨h, [k, q]⟩ (.other [1, 0]) =
      .ok ⟨((h ++ [⟨.other [q, k], 1⟩] : Heap).incr k).incr q, [k, q, h.length]⟩ := by
    have := lt_of_count hq
    rw [← incr_append _ _ hk, ← incr_append _ _ (by rw [length_incr]; omega), incr_comm]
    simp [State.step, Heap.alloc, Obj.members]
  rw [keyOps, run_cons e1, run_cons (step_drop rfl), release_copy, incr_append _ _ hk]
  · rfl
  exact count_incr_ne (count_append_left _ _ hq)

theorem wrapOps_run {h : Heap} {k q : Nat} (hq : h.count q ≠ 0) :
    State.run ⟨h, [k, q]⟩ wrapOps = .ok ⟨h ++ [⟨.other [q], 1⟩], [k, h.length]⟩ := by
  have e1 : State.step ⟨h, [k, q]⟩ (.other [1]) =
      .ok ⟨(h ++ [⟨.other [q], 1⟩] : Heap).incr q, [k, q, h.length]⟩ := by
    have := lt_of_count hq
    rw [← incr_append _ _ this]
    simp [State.step, Heap.alloc, Obj.members]
  rw [wrapOps, run_cons e1, run_cons (step_drop rfl), release_copy]
  · rfl
  exact count_append_left _ _ hq

/-! ### Authentication codes -/

/-- A chain of objects with one pointer to each that does not go through the key, object 0. -/
inductive Owned1 (h : Heap) : Nat → Nat → Prop
  | one {p : Nat} {c : Cell} (h0 : p ≠ 0) (hp : h[p]? = some c) (hc : c.count = 1) : Owned1 h p 1
  | cons {p q n : Nat} {c : Cell} (h0 : p ≠ 0) (hp : h[p]? = some c) (hc : c.count = 1) (hq : q ∈ c.obj.members)
      (hn : Owned1 h q n) : Owned1 h p (n + 1)

theorem Owned1.owned {h : Heap} {p n : Nat} (o : Owned1 h p n) : Owned h p n := by
  induction o with
  | one _ hp hc => exact .one hp hc
  | cons _ hp hc hq _ ih => exact .cons hp hc hq ih

theorem Owned1.mono {h h' : Heap} {p n : Nat} (o : Owned1 h p n)
    (e : ∀ q < h.length, q ≠ 0 → h'[q]? = h[q]?) : Owned1 h' p n := by
  induction o with
  | one h0 hp hc => exact .one h0 (by rw [e _ (List.getElem?_eq_some_iff.1 hp).1 h0, hp]) hc
  | cons h0 hp hc hq _ ih => exact .cons h0 (by rw [e _ (List.getElem?_eq_some_iff.1 hp).1 h0, hp]) hc hq ih

theorem Owned1.count {h : Heap} {p n : Nat} (o : Owned1 h p n) : h.count p ≠ 0 := by
  cases o with
  | one _ hp hc => rw [count_eq hp, hc]; simp
  | cons _ hp hc _ _ => rw [count_eq hp, hc]; simp

structure MacAt (s : State) (n : Nat) : Prop where
  ex : ∃ h q, s = ⟨h, [0, q]⟩ ∧ 0 < h.length ∧ Owned1 h q n ∧ Rank (objs h) q n ∧ Rank (objs h) 0 1 ∧ 0 < n

theorem MacAt.start : ∃ s, State.empty.run [.other [], .other []] = .ok s ∧ MacAt s 1 :=
  ⟨⟨[⟨.other [], 1⟩, ⟨.other [], 1⟩], [0, 1]⟩, rfl, _, _, rfl, by simp, .one (by simp) rfl rfl,
    .intro (o := .other []) rfl (by simp [Obj.members]) (by simp),
    .intro (o := .other []) rfl (by simp [Obj.members]) (by simp), by simp⟩

theorem objs_append (a b : Heap) : objs (a ++ b) = objs a ++ objs b := by simp [objs]

theorem objs_at (os : List Obj) (l : List Obj) (j : Nat) : (os ++ l)[os.length + j]? = l[j]? := by
  rw [List.getElem?_append_right (by omega), Nat.add_sub_cancel_left]

theorem heap_at (os : Heap) (l : Heap) (j : Nat) : (os ++ l)[os.length + j]? = l[j]? := by
  rw [List.getElem?_append_right (by omega), Nat.add_sub_cancel_left]

theorem MacAt.xor {s : State} {n : Nat} (m : MacAt s n) : ∃ t, s.run xorOps = .ok t ∧ MacAt t (n + 1) := by
  obtain ⟨h, q, rfl, hl, ho, hr, h0, hn⟩ := m.ex
  refine ⟨_, xorOps_run ho.count, _, _, rfl, by simp, ?_, ?_, ?_, by omega⟩
  · refine .cons (by omega) (c := ⟨.other [q, h.length], 1⟩) (heap_at _ _ 1) rfl (q := q) (by simp [Obj.members])
      (ho.mono fun r hr _ => ?_)
    rw [List.getElem?_append_left hr]
  · rw [objs_append]
    refine .intro (o := .other [q, h.length]) (by rw [← objs_length]; exact objs_at _ _ 1) ?_ (by omega)
    intro m hm
    simp [Obj.members] at hm
    rcases hm with rfl | rfl
    · exact ⟨n, by omega, hr.append _⟩
    · exact ⟨1, by omega, .intro (o := .other []) (by rw [← objs_length]; exact objs_at _ _ 0) (by simp [Obj.members])
        (by simp)⟩
  · rw [objs_append]; exact h0.append _

theorem MacAt.key {s : State} {n : Nat} (m : MacAt s n) : ∃ t, s.run keyOps = .ok t ∧ MacAt t (n + 1) := by
  obtain ⟨h, q, rfl, hl, ho, hr, h0, hn⟩ := m.ex
  refine ⟨_, keyOps_run ho.count hl, _, _, rfl, by simp, ?_, ?_, ?_, by omega⟩
  · refine .cons (by omega) (c := ⟨.other [q, 0], 1⟩) (by simp [← length_incr h 0]) rfl (q := q) (by simp [Obj.members])
      (ho.mono fun r hr h1 => ?_)
    rw [List.getElem?_append_left (by rw [length_incr]; exact hr), get_incr, if_neg (Ne.symm h1)]
  · rw [objs_append, objs_incr]
    refine .intro (o := .other [q, 0]) (by rw [← objs_length]; exact objs_at _ _ 0) ?_ (by omega)
    intro m hm
    simp [Obj.members] at hm
    rcases hm with rfl | rfl
    · exact ⟨n, by omega, hr.append _⟩
    · exact ⟨1, by omega, h0.append _⟩
  · rw [objs_append, objs_incr]; exact h0.append _

theorem MacAt.wrap {s : State} {n : Nat} (m : MacAt s n) : ∃ t, s.run wrapOps = .ok t ∧ MacAt t (n + 1) := by
  obtain ⟨h, q, rfl, hl, ho, hr, h0, hn⟩ := m.ex
  refine ⟨_, wrapOps_run ho.count, _, _, rfl, by simp, ?_, ?_, ?_, by omega⟩
  · refine .cons (by omega) (c := ⟨.other [q], 1⟩) (by simp) rfl (q := q) (by simp [Obj.members])
      (ho.mono fun r hr h1 => ?_)
    rw [List.getElem?_append_left hr]
  · rw [objs_append]
    refine .intro (o := .other [q]) (by rw [← objs_length]; exact objs_at _ _ 0) ?_ (by omega)
    intro m hm
    simp [Obj.members] at hm
    subst hm
    exact ⟨n, by omega, hr.append _⟩
  · rw [objs_append]; exact h0.append _

/-- `ops` makes the chain `k` objects longer. -/
def Grows (ops : List Op) (k : Nat) : Prop :=
  ∀ s n, MacAt s n → ∃ t, s.run ops = .ok t ∧ MacAt t (n + k)

theorem Grows.append {a b : List Op} {j k : Nat} (ha : Grows a j) (hb : Grows b k) : Grows (a ++ b) (j + k) := by
  intro s n m
  obtain ⟨t, e, m⟩ := ha s n m
  obtain ⟨u, e', m⟩ := hb t _ m
  exact ⟨u, by rw [run_append', e]; exact e', by rw [← Nat.add_assoc]; exact m⟩

theorem Grows.repeat {a : List Op} {j : Nat} (ha : Grows a j) (n : Nat) :
    Grows (List.replicate n a).flatten (j * n) := by
  induction n with
  | zero => intro s n m; exact ⟨s, rfl, m⟩
  | succ n ih =>
    rw [List.replicate_succ, List.flatten_cons, Nat.mul_succ, Nat.add_comm]
    exact ha.append ih

theorem xorOps_grows : Grows xorOps 1 := fun _ _ m => m.xor
theorem keyOps_grows : Grows keyOps 1 := fun _ _ m => m.key
theorem encryptOps_grows : Grows encryptOps 6 :=
  ((((keyOps_grows.append keyOps_grows).append keyOps_grows).append keyOps_grows).append
    (fun _ _ m => m.wrap : Grows wrapOps 1)).append (fun _ _ m => m.wrap : Grows wrapOps 1)

theorem macOps_at (n : Nat) : ∃ s, State.empty.run (macOps n) = .ok s ∧ MacAt s (7 * n + 2) := by
  obtain ⟨s, e, m⟩ := MacAt.start
  obtain ⟨t, e', m'⟩ := ((xorOps_grows.append encryptOps_grows).repeat n).append xorOps_grows s 1 m
  refine ⟨t, ?_, ?_⟩
  · rw [macOps, List.append_assoc, run_append', e]; exact e'
  · rw [show 7 * n + 2 = 1 + ((1 + 6) * n + 1) by omega]; exact m'

theorem kuzMacOps_at (n : Nat) : ∃ s, State.empty.run (kuzMacOps n) = .ok s ∧ MacAt s (2 * n + 2) := by
  obtain ⟨s, e, m⟩ := MacAt.start
  obtain ⟨t, e', m'⟩ := ((xorOps_grows.append keyOps_grows).repeat n).append xorOps_grows s 1 m
  refine ⟨t, ?_, ?_⟩
  · rw [kuzMacOps, List.append_assoc, run_append', e]; exact e'
  · rw [show 2 * n + 2 = 1 + ((1 + 1) * n + 1) by omega]; exact m'

theorem MacAt.depth (ho : IsOrder order) {s : State} {n : Nat} (m : MacAt s n) (g : Good s.heap s.held) :
    s.dropDepth order 1 = n := by
  obtain ⟨h, q, rfl, hl, hw, hr, h0, hn⟩ := m.ex
  exact Nat.le_antisymm (dropDepth_rank ho rfl hr) (dropDepth_owned ho g rfl hw.owned)

/-! ### Sinks and sources -/

structure SinkAt (s : State) (d : Nat) : Prop where
  ex : ∃ q, s.held = [0, q] ∧ Rank (objs s.heap) q d ∧ Rank (objs s.heap) 0 1

theorem step_other (s : State) (ks : List Nat) : ∃ t, s.step (.other ks) = .ok t ∧
    objs t.heap = objs s.heap ++ [.other (ks.filterMap fun k => s.held[k]?)] ∧
    t.held = s.held ++ [(objs s.heap).length] := by
  refine ⟨_, rfl, objs_alloc _ _, ?_⟩
  rw [objs_length]

theorem step_drop' {s : State} {k p : Nat} (e : s.held[k]? = some p) : ∃ t, s.step (.drop k) = .ok t ∧
    objs t.heap = objs s.heap ∧ t.held = s.held.eraseIdx k := by
  refine ⟨_, step_drop (h := s.heap) (held := s.held) e, objs_release _ _ _, rfl⟩

theorem layers_run (l : Nat) : ∀ (s : State) (q x d : Nat), s.held = [0, q, x] → Rank (objs s.heap) x d →
    0 < d → Rank (objs s.heap) 0 1 →
    ∃ t y, s.run (List.replicate l [.other [2, 0], .drop 2]).flatten = .ok t ∧ t.held = [0, q, y] ∧
      Rank (objs t.heap) y (d + l) ∧ Rank (objs t.heap) 0 1 := by
  induction l with
  | zero => intro s q x d hh hx _ h0; exact ⟨s, x, rfl, hh, hx, h0⟩
  | succ l ih =>
    intro s q x d hh hx hd h0
    obtain ⟨t, e1, o1, h1⟩ := step_other s [2, 0]
    rw [hh] at h1 o1
    obtain ⟨u, e2, o2, h2⟩ := step_drop' (s := t) (k := 2) (p := x) (by rw [h1]; rfl)
    rw [h1] at h2
    rw [o1] at o2
    obtain ⟨v, y, e3, h3, r3, r4⟩ := ih u q _ (d + 1) h2
      (by
        rw [o2]
        refine .intro (o := .other [x, 0]) (objs_at _ _ 0) ?_ (by omega)
        intro m hm
        simp [Obj.members] at hm
        rcases hm with rfl | rfl
        · exact ⟨d, by omega, hx.append _⟩
        · exact ⟨1, by omega, h0.append _⟩) (by omega) (by rw [o2]; exact h0.append _)
    refine ⟨v, y, ?_, h3, by rw [Nat.add_assoc, Nat.add_comm 1 l] at r3; exact r3, r4⟩
    rw [List.replicate_succ, List.flatten_cons, List.cons_append, List.cons_append, List.nil_append,
      run_cons e1, run_cons e2, e3]

theorem SinkAt.write {s : State} {d : Nat} (m : SinkAt s d) (l : Nat) :
    ∃ t, s.run (writeOps l) = .ok t ∧ SinkAt t (l + 1) := by
  obtain ⟨q, hh, hq, h0⟩ := m.ex
  obtain ⟨t, e1, o1, h1⟩ := step_other s []
  rw [hh] at h1
  obtain ⟨u, y, e2, h2, r2, r0⟩ := layers_run l t q _ 1 h1
    (by rw [o1]; exact .intro (o := .other []) (objs_at _ _ 0) (by simp [Obj.members]) (by simp)) (by simp)
    (by rw [o1]; exact h0.append _)
  obtain ⟨v, e3, o3, h3⟩ := step_drop' (s := u) (k := 1) (p := q) (by rw [h2]; rfl)
  refine ⟨v, ?_, y, by rw [h3, h2]; rfl, by rw [o3, Nat.add_comm]; exact r2, by rw [o3]; exact r0⟩
  rw [writeOps, List.append_assoc, List.singleton_append, run_cons e1, run_append', e2]
  exact run_cons e3 []

theorem SinkAt.writes {s : State} {l : Nat} (m : SinkAt s (l + 1)) (n : Nat) :
    ∃ t, s.run (List.replicate n (writeOps l)).flatten = .ok t ∧ SinkAt t (l + 1) := by
  induction n generalizing s with
  | zero => exact ⟨s, rfl, m⟩
  | succ n ih =>
    obtain ⟨t, e, m⟩ := m.write l
    obtain ⟨u, e', m⟩ := ih m
    exact ⟨u, by rw [List.replicate_succ, List.flatten_cons, run_append', e]; exact e', m⟩

theorem sinkOps_at (l : Nat) : ∃ s, State.empty.run (sinkOps l) = .ok s ∧ SinkAt s (l + 1) := by
  obtain ⟨s, e, m⟩ := MacAt.start
  obtain ⟨t, e', m'⟩ := (keyOps_grows.repeat l) s 1 m
  refine ⟨t, by rw [sinkOps, run_append', e]; exact e', ?_⟩
  obtain ⟨h, q, rfl, -, -, hr, h0, -⟩ := m'.ex
  exact ⟨q, rfl, by rw [Nat.one_mul, Nat.add_comm] at hr; exact hr, h0⟩

theorem SinkAt.depth (ho : IsOrder order) {s : State} {d : Nat} (m : SinkAt s d) : s.dropDepth order 1 ≤ d := by
  obtain ⟨q, hh, hq, -⟩ := m.ex
  exact dropDepth_rank ho (by rw [hh]; rfl) hq

/-! ### Counter mode -/

theorem nextIter_run {h : Heap} {s offset : Nat} {data : List W64} {x : Kuz.ItMemory}
    (e : Kuz.StMemory.nextIter data offset = .ok (some x)) :
    nextIter h s data offset =
      .ok (some (h.length + 1), h ++ [⟨.other [], 1⟩, ⟨.itMemory s offset h.length, 1⟩]) := by
  unfold nextIter
  rw [e]
  have h3 : (Heap.alloc (h ++ [⟨.other [], 1⟩]) (.itMemory s offset h.length)).1 =
      Heap.incr (h ++ [⟨.other [], 1⟩] ++ [⟨.itMemory s offset h.length, 1⟩]) h.length := by
    rw [← incr_append _ _ (by simp)]; rfl
  have h4 : (Heap.alloc (h ++ [⟨.other [], 1⟩]) (.itMemory s offset h.length)).2 = h.length + 1 := by
    simp [Heap.alloc]
  change Exec.ok (some (Heap.alloc (h ++ [⟨.other [], 1⟩]) (.itMemory s offset h.length)).2,
    Heap.release (h.length + 1) (Heap.alloc (h ++ [⟨.other [], 1⟩]) (.itMemory s offset h.length)).1 h.length) = _
  rw [h3, h4, release_copy, List.append_assoc]
  · rfl
  · have := count_append_right h [⟨.other [], 1⟩, ⟨.itMemory s offset h.length, 1⟩] 0
    simp only [Nat.add_zero] at this
    rw [List.append_assoc, List.singleton_append, this]
    simp [Heap.count]

theorem next_itMemory {h : Heap} {i s offset d a b : Nat} {data : List W64} {x : Kuz.ItMemory} (fuel : Nat)
    (hi : h[i]? = some ⟨.itMemory s offset d, a⟩) (ha : a ≠ 0) (hs : h[s]? = some ⟨.stMemory data, b⟩) (hb : b ≠ 0)
    (e : Kuz.StMemory.nextIter data (offset + 16) = .ok (some x)) :
    next (fuel + 1) h i =
      .ok (some (h.length + 1), h ++ [⟨.other [], 1⟩, ⟨.itMemory s (offset + 16) h.length, 1⟩]) := by
  have h1 : h.load i = .ok (.itMemory s offset d) := by simp [Heap.load, hi, ha]
  have h2 : h.load s = .ok (.stMemory data) := by simp [Heap.load, hs, hb]
  have h3 : h.count s ≠ 0 := by rw [count_eq hs]; exact hb
  rw [next, h1]
  simp only [bind, Exec.bind]
  rw [if_neg h3, h2]
  exact nextIter_run e

theorem next_itCtr {h : Heap} {p i k c s offset d a b m : Nat} {data : List W64} {x : Kuz.ItMemory} (fuel : Nat)
    (hp : h[p]? = some ⟨.itCtr (some i) k c, m⟩) (hm : m ≠ 0)
    (hi : h[i]? = some ⟨.itMemory s offset d, a⟩) (ha : a ≠ 0) (hs : h[s]? = some ⟨.stMemory data, b⟩) (hb : b ≠ 0)
    (hk : h.count k ≠ 0) (hc : h.count c ≠ 0)
    (e : Kuz.StMemory.nextIter data (offset + 16) = .ok (some x)) :
    next (fuel + 2) h p =
      .ok (some (h.length + 3), (h.incr c).incr k ++ [⟨.other [], 1⟩, ⟨.itMemory s (offset + 16) h.length, 1⟩,
        ⟨.other [c], 1⟩, ⟨.itCtr (some (h.length + 1)) k (h.length + 2), 1⟩]) := by
  have h1 : h.load p = .ok (.itCtr (some i) k c) := by simp [Heap.load, hp, hm]
  have hkl := lt_of_count hk
  have hcl := lt_of_count hc
  rw [next, h1]
  simp only [bind, Exec.bind]
  rw [next_itMemory fuel hi ha hs hb e]
  generalize hH : h ++ [⟨.other [], 1⟩, ⟨.itMemory s (offset + 16) h.length, 1⟩] = H
  have hL : H.length = h.length + 2 := by rw [← hH]; simp
  have a1 : (Heap.alloc H (.other [c])).1 = H.incr c ++ [⟨.other [c], 1⟩] := rfl
  have a2 : (Heap.alloc H (.other [c])).2 = H.length := rfl
  have a3 : (Heap.alloc (H.incr c ++ [⟨.other [c], 1⟩]) (.itCtr (some (h.length + 1)) k H.length)).1 =
      ((((H ++ [⟨.other [c], 1⟩, ⟨.itCtr (some (h.length + 1)) k H.length, 1⟩] : Heap).incr c).incr k).incr
        (h.length + 1)).incr H.length := by
    simp only [Heap.alloc, Obj.members, Option.toList_some, List.cons_append, List.nil_append, List.foldl_cons,
      List.foldl_nil]
    rw [incr_append H _ (by omega), incr_comm _ (h.length + 1) k]
    have hX : (H ++ [(⟨.other [c], 1⟩ : Cell)]).length = h.length + 3 := by simp [hL]
    rw [show (H ++ [⟨.other [c], 1⟩, ⟨.itCtr (some (h.length + 1)) k H.length, 1⟩] : Heap) =
      (H ++ [(⟨.other [c], 1⟩ : Cell)]) ++ [⟨.itCtr (some (h.length + 1)) k H.length, 1⟩] by simp]
    generalize (H ++ [(⟨.other [c], 1⟩ : Cell)] : Heap) = X at hX ⊢
    rw [incr_append (((X.incr c).incr k).incr (h.length + 1)) _ (by simp only [length_incr]; omega),
      incr_append ((X.incr c).incr k) _ (by simp only [length_incr]; omega),
      incr_append (X.incr c) _ (by simp only [length_incr]; omega), incr_append X _ (by omega)]
  have a4 : (Heap.alloc (H.incr c ++ [⟨.other [c], 1⟩]) (.itCtr (some (h.length + 1)) k H.length)).2 = h.length + 3 := by
    simp [Heap.alloc, length_incr, hL]
  have c1 : Heap.count (H ++ [⟨.other [c], 1⟩, ⟨.itCtr (some (h.length + 1)) k H.length, 1⟩]) (h.length + 1) ≠ 0 := by
    rw [← hH, List.append_assoc, count_append_right]; simp [Heap.count]
  have c2 : Heap.count (H ++ [⟨.other [c], 1⟩, ⟨.itCtr (some (h.length + 1)) k H.length, 1⟩]) H.length ≠ 0 := by
    have := count_append_right H [⟨.other [c], 1⟩, ⟨.itCtr (some (h.length + 1)) k H.length, 1⟩] 0
    simp only [Nat.add_zero] at this
    rw [this]; simp [Heap.count]
  change Exec.ok (some (Heap.alloc (H.incr c ++ [⟨.other [c], 1⟩]) (.itCtr (some (h.length + 1)) k H.length)).2,
    List.foldl (fun h i => Heap.release (i + 1) h i) (Heap.release (H.length + 1)
      (Heap.alloc (H.incr c ++ [⟨.other [c], 1⟩]) (.itCtr (some (h.length + 1)) k H.length)).1 H.length)
      (some (h.length + 1)).toList) = _
  rw [a3, a4, release_copy]
  · simp only [Option.toList_some, List.foldl_cons, List.foldl_nil]
    rw [release_copy]
    · rw [incr_append _ _ (by simpa [length_incr] using hkl), incr_append _ _ hcl, ← hH]
      simp
    · exact count_incr_ne (count_incr_ne c1)
  · exact count_incr_ne (count_incr_ne (count_incr_ne c2))

theorem nextIter_even {data : List W64} {j : Nat} (h : 2 * j + 1 < data.length) :
    ∃ x, Kuz.StMemory.nextIter data (16 * j) = .ok (some x) := by
  unfold Kuz.StMemory.nextIter vget
  have e : 16 * j / 8 = 2 * j := by omega
  rw [e, if_neg (by omega), List.getElem?_eq_getElem (by omega), List.getElem?_eq_getElem (by omega)]
  exact ⟨_, rfl⟩

/-- The state of a program that is at block `n` of a counter mode stream. -/
structure CtrAt (data : List W64) (s : State) (n : Nat) : Prop where
  held : s.held = [0, 1, 2, 4 * n + 6]
  len : s.heap.length = 4 * n + 7
  words : s.heap[0]? = some ⟨.stMemory data, 2⟩
  key : s.heap[1]? = some ⟨.other [], 3⟩
  raw : s.heap[4 * n + 3]? = some ⟨.other [], 1⟩
  it : s.heap[4 * n + 4]? = some ⟨.itMemory 0 (16 * n) (4 * n + 3), 1⟩
  first : s.heap[5]? = some ⟨.other [], 1⟩
  blocks : ∀ i < n, s.heap[4 * i + 9]? = some ⟨.other [4 * i + 5], 1⟩
  top : s.heap[4 * n + 6]? = some ⟨.itCtr (some (4 * n + 4)) 1 (4 * n + 5), 1⟩

theorem CtrAt.block {data : List W64} {s : State} {n : Nat} (m : CtrAt data s n) (i : Nat) (hi : i ≤ n) :
    ∃ ms, s.heap[4 * i + 5]? = some ⟨.other ms, 1⟩ := by
  cases i with
  | zero => exact ⟨_, m.first⟩
  | succ i => exact ⟨_, m.blocks i (by omega)⟩

theorem iter_stCtr {h h' : Heap} {p s k m fuel i : Nat} (hp : h[p]? = some ⟨.stCtr s k, m⟩) (hm : m ≠ 0)
    (e : iter fuel h s = .ok (some i, h')) :
    iter (fuel + 1) h p = .ok (some (h'.length + 1),
      Heap.release (i + 1) (make2 h' [] (.itCtr (some i) k h'.length)) i) := by
  have h1 : h.load p = .ok (.stCtr s k) := by simp [Heap.load, hp, hm]
  rw [iter, h1]
  simp only [bind, Exec.bind]
  rw [e]
  show Exec.ok (some (h'.alloc (.other [])).1.length, _) = _
  rw [length_alloc]
  rfl

theorem CtrAt.start {data : List W64} (h : 2 ≤ data.length) :
    ∃ s, State.empty.run [.stMemory data, .other [], .stCtr 0 1, .iter 2] = .ok s ∧ CtrAt data s 0 := by
  obtain ⟨x, e⟩ := nextIter_even (data := data) (j := 0) (by omega)
  rw [Nat.mul_zero] at e
  have e' := nextIter_run (h := [⟨.stMemory data, 2⟩, ⟨.other [], 2⟩, ⟨.stCtr 0 1, 1⟩]) (s := 0) e
  refine ⟨⟨[⟨.stMemory data, 2⟩, ⟨.other [], 3⟩, ⟨.stCtr 0 1, 1⟩, ⟨.other [], 1⟩, ⟨.itMemory 0 0 3, 1⟩, ⟨.other [], 1⟩,
    ⟨.itCtr (some 4) 1 5, 1⟩], [0, 1, 2, 6]⟩, ?_, ?_⟩
  · have h0 : State.empty.run [.stMemory data, .other [], .stCtr 0 1, .iter 2] =
        State.run ⟨[⟨.stMemory data, 2⟩, ⟨.other [], 2⟩, ⟨.stCtr 0 1, 1⟩], [0, 1, 2]⟩ [.iter 2] := rfl
    rw [h0, run_cons (t := ⟨[⟨.stMemory data, 2⟩, ⟨.other [], 3⟩, ⟨.stCtr 0 1, 1⟩, ⟨.other [], 1⟩, ⟨.itMemory 0 0 3, 1⟩,
      ⟨.other [], 1⟩, ⟨.itCtr (some 4) 1 5, 1⟩], [0, 1, 2, 6]⟩)]
    · rfl
    · have i0 : iter 2 [⟨.stMemory data, 2⟩, ⟨.other [], 2⟩, ⟨.stCtr 0 1, 1⟩] 0 =
          nextIter [⟨.stMemory data, 2⟩, ⟨.other [], 2⟩, ⟨.stCtr 0 1, 1⟩] 0 data 0 := rfl
      have i2 := iter_stCtr (h := [⟨.stMemory data, 2⟩, ⟨.other [], 2⟩, ⟨.stCtr 0 1, 1⟩]) (p := 2) (fuel := 2) rfl
        (by simp) (i0.trans e')
      simp only [State.step, List.getElem?_cons_succ, List.getElem?_cons_zero]
      rw [i2]
      rfl
  · exact ⟨rfl, rfl, rfl, rfl, rfl, rfl, rfl, by intro i hi; omega, rfl⟩

theorem CtrAt.next {data : List W64} {s : State} {n : Nat} (m : CtrAt data s n) (hd : 2 * n + 3 < data.length) :
    ∃ t, s.run [.next 3, .drop 3] = .ok t ∧ CtrAt data t (n + 1) := by
  obtain ⟨x, e⟩ := nextIter_even (data := data) (j := n + 1) (by omega)
  rw [Nat.mul_succ] at e
  rcases s with ⟨h, held⟩
  have hheld := m.held
  dsimp only at hheld
  subst hheld
  obtain ⟨ms, hb⟩ := m.block n (Nat.le_refl _)
  have hlen := m.len
  have hwords := m.words
  have hkey := m.key
  have hraw := m.raw
  have hit := m.it
  have hfirst := m.first
  have hblocks := m.blocks
  have htop := m.top
  dsimp only at hb hlen hwords hkey hraw hit hfirst hblocks htop
  have e1 := next_itCtr (fuel := 4 * n + 5) htop (by simp) hit (by simp) hwords (by simp)
    (by rw [count_eq hkey]; simp) (by rw [count_eq hb]; simp) e
  rw [hlen] at e1
  generalize hZ : ([⟨.other [], 1⟩, ⟨.itMemory 0 (16 * n + 16) (4 * n + 7), 1⟩,
        ⟨.other [4 * n + 5], 1⟩, ⟨.itCtr (some (4 * n + 7 + 1)) 1 (4 * n + 7 + 2), 1⟩] : Heap) = Z at e1
  generalize hG : (h.incr (4 * n + 5)).incr 1 ++ Z = G at e1
  have s1 : State.step ⟨h, [0, 1, 2, 4 * n + 6]⟩ (.next 3) = .ok ⟨G, [0, 1, 2, 4 * n + 6, 4 * n + 10]⟩ := by
    simp only [State.step, List.getElem?_cons_succ, List.getElem?_cons_zero]
    rw [e1]; rfl
  have gl : ∀ q, q < 4 * n + 7 → G[q]? = ((h.incr (4 * n + 5)).incr 1)[q]? := by
    intro q hq
    rw [← hG, List.getElem?_append_left (by simpa [length_incr, hlen] using hq)]
  have gr : ∀ j, G[4 * n + 7 + j]? = Z[j]? := by
    intro j
    have : ((h.incr (4 * n + 5)).incr 1).length = 4 * n + 7 := by simp [length_incr, hlen]
    rw [← hG, ← this, heap_at]
  have g6 : G[4 * n + 6]? = some ⟨.itCtr (some (4 * n + 4)) 1 (4 * n + 5), 1⟩ := by
    rw [gl _ (by omega), get_incr, if_neg (by omega), get_incr, if_neg (by omega), htop]
  have g4 : G[4 * n + 4]? = some ⟨.itMemory 0 (16 * n) (4 * n + 3), 1⟩ := by
    rw [gl _ (by omega), get_incr, if_neg (by omega), get_incr, if_neg (by omega), hit]
  have g3 : G[4 * n + 3]? = some ⟨.other [], 1⟩ := by
    rw [gl _ (by omega), get_incr, if_neg (by omega), get_incr, if_neg (by omega), hraw]
  have g1 : G[1]? = some ⟨.other [], 4⟩ := by
    rw [gl _ (by omega), get_incr, if_pos rfl, get_incr, if_neg (by omega), hkey]; rfl
  have g5 : G[4 * n + 5]? = some ⟨.other ms, 2⟩ := by
    rw [gl _ (by omega), get_incr, if_neg (by omega), get_incr, if_pos rfl, hb]; rfl
  have s2 : G.release (4 * n + 6 + 1) (4 * n + 6) =
      ((((G.modify (4 * n + 6) dec).modify (4 * n + 4) dec).modify (4 * n + 3) dec).modify 1 dec).modify
        (4 * n + 5) dec := by
    rw [Heap.release, g6]
    simp only [Nat.sub_self, if_true, Obj.members, Option.toList_some, List.cons_append, List.nil_append,
      List.foldl_cons, List.foldl_nil]
    have r4 : Heap.release (4 * n + 6) (G.modify (4 * n + 6) dec) (4 * n + 4) =
        ((G.modify (4 * n + 6) dec).modify (4 * n + 4) dec).modify (4 * n + 3) dec := by
      rw [Heap.release, get_modify, if_neg (by omega), g4]
      simp only [Nat.sub_self, if_true, Obj.members, List.foldl_cons, List.foldl_nil]
      rw [Heap.release, get_modify, if_neg (by omega), get_modify, if_neg (by omega), g3]
      simp only [Nat.sub_self, if_true, Obj.members, List.foldl_nil]
    show Heap.release (4 * n + 6) (Heap.release (4 * n + 6) (Heap.release (4 * n + 6) (G.modify (4 * n + 6) dec)
      (4 * n + 4)) 1) (4 * n + 5) = _
    have r1 : (((G.modify (4 * n + 6) dec).modify (4 * n + 4) dec).modify (4 * n + 3) dec)[1]? =
        some ⟨.other [], 4⟩ := by
      rw [get_modify, if_neg (by omega), get_modify, if_neg (by omega), get_modify, if_neg (by omega), g1]
    have r5 : ((((G.modify (4 * n + 6) dec).modify (4 * n + 4) dec).modify (4 * n + 3) dec).modify 1 dec)[4 * n + 5]? =
        some ⟨.other ms, 2⟩ := by
      rw [get_modify, if_neg (by omega), get_modify, if_neg (by omega), get_modify, if_neg (by omega), get_modify,
        if_neg (by omega), g5]
    rw [r4, release_some (4 * n + 5) r1 (by simp), release_some (4 * n + 5) r5 (by simp)]
  generalize hF : ((((G.modify (4 * n + 6) dec).modify (4 * n + 4) dec).modify (4 * n + 3) dec).modify 1 dec).modify
        (4 * n + 5) dec = F at s2
  have fl : ∀ q, q < 4 * n + 7 → q ≠ 4 * n + 6 → q ≠ 4 * n + 4 → q ≠ 4 * n + 3 → F[q]? = h[q]? := by
    intro q hq h6 h4 h3
    rw [← hF]
    simp only [get_modify, if_neg (Ne.symm h6), if_neg (Ne.symm h4), if_neg (Ne.symm h3)]
    rw [gl q hq]
    simp only [get_incr]
    by_cases a : 4 * n + 5 = q
    · rw [if_pos a, if_neg (by omega), if_neg (by omega), if_pos a]
      cases h[q]? <;> simp [dec]
    · rw [if_neg a, if_neg a]
      by_cases b : 1 = q
      · rw [if_pos b, if_pos b]
        cases h[q]? <;> simp [dec]
      · rw [if_neg b, if_neg b]
  have fr : ∀ j, F[4 * n + 7 + j]? = Z[j]? := by
    intro j
    rw [← gr, ← hF]
    simp only [get_modify]
    rw [if_neg (by omega), if_neg (by omega), if_neg (by omega), if_neg (by omega), if_neg (by omega)]
  have fL : F.length = 4 * n + 11 := by
    rw [← hF, ← hG, ← hZ]; simp [length_incr, hlen]
  refine ⟨⟨F, [0, 1, 2, 4 * n + 10]⟩, ?_, ?_⟩
  · rw [run_cons s1, run_cons (step_drop rfl), s2]; rfl
  · refine ⟨by dsimp only; rw [Nat.mul_succ], by dsimp only; rw [fL]; omega, ?_, ?_, ?_, ?_, ?_, ?_, ?_⟩ <;> dsimp only
    · rw [fl _ (by omega) (by omega) (by omega) (by omega), hwords]
    · rw [fl _ (by omega) (by omega) (by omega) (by omega), hkey]
    · rw [show 4 * (n + 1) + 3 = 4 * n + 7 + 0 by omega, fr, ← hZ]; rfl
    · rw [show 4 * (n + 1) + 4 = 4 * n + 7 + 1 by omega, fr, ← hZ]; rfl
    · rw [fl _ (by omega) (by omega) (by omega) (by omega), hfirst]
    · intro i hi
      by_cases hin : i < n
      · rw [fl _ (by omega) (by omega) (by omega) (by omega), hblocks i hin]
      · have : i = n := by omega
        subst this
        rw [show 4 * i + 9 = 4 * i + 7 + 2 by omega, fr, ← hZ]; rfl
    · rw [show 4 * (n + 1) + 6 = 4 * n + 7 + 3 by omega, fr, ← hZ]; rfl

theorem CtrAt.nexts {data : List W64} {s : State} {m : Nat} (a : CtrAt data s m) (n : Nat)
    (hd : 2 * (m + n) + 1 < data.length) :
    ∃ t, s.run (List.replicate n [.next 3, .drop 3]).flatten = .ok t ∧ CtrAt data t (m + n) := by
  induction n generalizing s m with
  | zero => exact ⟨s, rfl, a⟩
  | succ n ih =>
    obtain ⟨t, e, a⟩ := a.next (by omega)
    obtain ⟨u, e', a⟩ := ih a (by omega)
    exact ⟨u, by rw [List.replicate_succ, List.flatten_cons, run_append', e]; exact e',
      by rw [show m + (n + 1) = m + 1 + n by omega]; exact a⟩

theorem ctrOps_at {data : List W64} {n : Nat} (hd : 2 * n + 1 < data.length) :
    ∃ s, State.empty.run (ctrOps data n) = .ok s ∧ CtrAt data s n := by
  obtain ⟨s, e, a⟩ := CtrAt.start (data := data) (by omega)
  obtain ⟨t, e', a⟩ := a.nexts n (by omega)
  exact ⟨t, by rw [ctrOps, run_append', e]; exact e', by rw [Nat.zero_add] at a; exact a⟩

theorem CtrAt.depth (ho : IsOrder order) {data : List W64} {s : State} {n : Nat} (a : CtrAt data s n)
    (g : Good s.heap s.held) : s.dropDepth order 3 = max 3 (n + 2) := by
  have hk : s.held[3]? = some (4 * n + 6) := by rw [a.held]; rfl
  have ob : ∀ {p : Nat} {o : Obj} {c : Nat}, s.heap[p]? = some (⟨o, c⟩ : Cell) → (objs s.heap)[p]? = some o := by
    intro p o c e; simp [objs, e]
  apply Nat.le_antisymm
  · refine dropDepth_rank ho hk (.intro (ob a.top) ?_ (by omega))
    have hb : ∀ i ≤ n, Rank (objs s.heap) (4 * i + 5) (i + 1) := by
      intro i
      induction i with
      | zero => intro _; exact .intro (ob a.first) (by simp [Obj.members]) (by omega)
      | succ i ih =>
        intro hi
        refine .intro (ob (a.blocks i (by omega))) ?_ (by omega)
        intro m hm
        simp [Obj.members] at hm
        subst hm
        exact ⟨i + 1, by omega, ih (by omega)⟩
    intro m hm
    simp [Obj.members] at hm
    rcases hm with rfl | rfl | rfl
    · refine ⟨2, by omega, .intro (ob a.it) ?_ (by omega)⟩
      intro m hm
      simp [Obj.members] at hm
      subst hm
      exact ⟨1, by omega, .intro (ob a.raw) (by simp [Obj.members]) (by omega)⟩
    · exact ⟨1, by omega, .intro (ob a.key) (by simp [Obj.members]) (by omega)⟩
    · exact ⟨n + 1, by omega, hb n (Nat.le_refl _)⟩
  · apply Nat.max_le.2
    constructor
    · exact dropDepth_owned ho g hk (.cons a.top rfl (q := 4 * n + 4) (by simp [Obj.members])
        (.cons a.it rfl (q := 4 * n + 3) (by simp [Obj.members]) (.one a.raw rfl)))
    · have hb : ∀ i ≤ n, Owned s.heap (4 * i + 5) (i + 1) := by
        intro i
        induction i with
        | zero => intro _; exact .one a.first rfl
        | succ i ih =>
          intro hi
          exact .cons (a.blocks i (by omega)) rfl (q := 4 * i + 5) (by simp [Obj.members]) (ih (by omega))
      exact dropDepth_owned ho g hk (.cons a.top rfl (q := 4 * n + 5) (by simp [Obj.members]) (hb n (Nat.le_refl _)))

end Goost.Mem
