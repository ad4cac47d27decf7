import Verif.Spec.Share
import Verif.Lemmas.Memory
import Verif.Lemmas.Release
/-
Helper lemmas: the reference counts are the numbers of pointers, whatever the schedule.
-/
namespace Goost.Share
open Goost.Mem Spec.Share

/-- All pointers that threads have. -/
def refs (ts : List Thread) : List Nat := ts.flatMap fun t => t.held ++ t.pending

theorem count_refs_set (ts : List Thread) : ∀ (t : Nat) (a b : Thread) (q : Nat), ts[t]? = some a →
    (refs (ts.set t b)).count q + (a.held ++ a.pending).count q =
      (refs ts).count q + (b.held ++ b.pending).count q := by
  induction ts with
  | nil => intro t a b q h; simp at h
  | cons x ts ih =>
    intro t a b q h
    cases t with
    | zero =>
      simp at h; subst h
      simp only [refs, List.set_cons_zero, List.flatMap_cons, List.count_append]
      omega
    | succ t =>
      simp at h
      have := ih t a b q h
      simp only [refs, List.set_cons_succ, List.flatMap_cons, List.count_append] at this ⊢
      omega

/-- The counts are right and the objects are well-formed. -/
abbrev Ok (s : Sys) : Prop := Good s.heap (refs s.threads)

theorem mem_refs {ts : List Thread} {t : Nat} {th : Thread} (h : ts[t]? = some th) {p : Nat}
    (hp : p ∈ th.held ∨ p ∈ th.pending) : p ∈ refs ts := by
  rw [refs, List.mem_flatMap]
  exact ⟨th, List.mem_of_getElem? h, List.mem_append.2 hp⟩

theorem alive_of_mem {s : Sys} (g : Ok s) {p : Nat} (hp : p ∈ refs s.threads) : s.heap.count p ≠ 0 :=
  (g.alive_iff p).2 (.ref hp)

/-- A pointer to an object that exists is copied. -/
theorem Ok.incr {s : Sys} (g : Ok s) {t p : Nat} {th : Thread} (ht : s.threads[t]? = some th)
    (hp : s.heap.count p ≠ 0) : Ok ⟨s.heap.incr p, s.threads.set t { th with held := th.held ++ [p] }⟩ := by
  refine ⟨by rw [objs_incr]; exact g.static, ?_⟩
  refine (g.inv.incr hp).perm fun q => ?_
  have := count_refs_set s.threads t th { th with held := th.held ++ [p] } q ht
  simp only [List.count_append, List.count_cons, List.count_nil] at this ⊢
  omega

/-- An object is made from pointers of the thread. -/
theorem Ok.make {s : Sys} (g : Ok s) {t : Nat} {th th' : Thread} (ht : s.threads[t]? = some th) {o : Obj}
    (hf : Fits (objs s.heap) s.heap.length o)
    (hc : ∀ q, (th.held ++ th.pending).count q + [s.heap.length].count q =
      (th'.held ++ th'.pending).count q + o.members.count q) :
    Ok ⟨s.heap ++ [⟨o, 1⟩], s.threads.set t th'⟩ := by
  refine ⟨?_, ?_⟩
  · show Static (objs (s.heap ++ [⟨o, 1⟩]))
    rw [show objs (s.heap ++ [⟨o, 1⟩]) = objs s.heap ++ [o] by simp [objs]]
    exact g.static.append (by rw [objs_length]; exact hf)
  · intro q
    have h1 := g.inv q
    have h2 := count_refs_set s.threads t th th' q ht
    have h3 := hc q
    show Heap.count (s.heap ++ [⟨o, 1⟩]) q = _
    rw [own_append]
    have h4 : Heap.count (s.heap ++ [⟨o, 1⟩]) q = s.heap.count q + [s.heap.length].count q := by
      unfold Heap.count
      by_cases hq : q < s.heap.length
      · rw [List.getElem?_append_left hq, List.count_eq_zero.2 (by simp; omega)]; simp
      · by_cases hq2 : q = s.heap.length
        · subst hq2; simp
        · rw [List.getElem?_eq_none (by simp; omega), List.getElem?_eq_none (by omega),
            List.count_eq_zero.2 (by simp; omega)]; simp
    have h5 : (if (⟨o, 1⟩ : Cell).count = 0 then 0 else o.members.count q) = o.members.count q := by simp
    rw [h4]
    simp only [h5] at *
    omega

theorem load_of_count {h : Heap} {p : Nat} (hp : h.count p ≠ 0) : ∃ c, h[p]? = some c ∧ h.load p = .ok c.obj := by
  obtain ⟨c, e, hc⟩ := exists_of_count hp
  exact ⟨c, e, by simp [Heap.load, e, hc]⟩

/-- What a step does to the state. -/
structure Next (s s' : Sys) : Prop where
  ok : Ok s'
  ext : objs s.heap <+: objs s'.heap
  dead : ∀ p c, s.heap[p]? = some c → c.count = 0 → s'.heap.count p = 0
  threads : s'.threads.length = s.threads.length

theorem dead_incr {h : Heap} {q p : Nat} (hq : h.count q ≠ 0) (hp : h.count p = 0) : (h.incr q).count p = 0 := by
  unfold Heap.incr
  rw [count_modify]
  split
  · subst_vars; exact absurd hp hq
  · exact hp

theorem dead_append {h : Heap} {c d : Cell} {p : Nat} (e : h[p]? = some c) (hc : c.count = 0) :
    Heap.count (h ++ [d]) p = 0 := by
  rw [count_eq (c := c) (by rw [List.getElem?_append_left (List.getElem?_eq_some_iff.1 e).1, e]), hc]

theorem Next.refl {s : Sys} (g : Ok s) : Next s s :=
  ⟨g, List.prefix_refl _, fun _ _ e hc => by rw [count_eq e, hc], rfl⟩

theorem Next.incr {s : Sys} (g : Ok s) {t p : Nat} {th : Thread} (ht : s.threads[t]? = some th)
    (hp : s.heap.count p ≠ 0) : Next s ⟨s.heap.incr p, s.threads.set t { th with held := th.held ++ [p] }⟩ :=
  ⟨g.incr ht hp, by rw [objs_incr]; exact List.prefix_refl _,
    fun _ _ e hc => dead_incr hp (by rw [count_eq e, hc]), by simp⟩

theorem Next.make {s : Sys} (g : Ok s) {t : Nat} {th th' : Thread} (ht : s.threads[t]? = some th) {o : Obj}
    (hf : Fits (objs s.heap) s.heap.length o)
    (hc : ∀ q, (th.held ++ th.pending).count q + [s.heap.length].count q =
      (th'.held ++ th'.pending).count q + o.members.count q) :
    Next s ⟨s.heap ++ [⟨o, 1⟩], s.threads.set t th'⟩ :=
  ⟨g.make ht hf hc, by simp [objs], fun _ _ e hc => dead_append e hc, by simp⟩

/-- What a thread has besides one of its variables. -/
theorem count_take_drop (l : List Nat) (i q : Nat) : l.count q = (l.take i).count q + (l.drop i).count q := by
  conv => lhs; rw [← List.take_append_drop i l]
  rw [List.count_append]

theorem dropLast_getLast {l : List Nat} {d : Nat} (h : l.getLast? = some d) (q : Nat) :
    l.count q = l.dropLast.count q + [d].count q := by
  rw [List.getLast?_eq_some_iff] at h
  obtain ⟨l', rfl⟩ := h
  simp

/-- A step that runs a destructor. -/
theorem destroy_spec {s : Sys} (g : Ok s) {t p : Nat} {th : Thread} {ps : List Nat}
    (ht : s.threads[t]? = some th) (hp : th.pending = p :: ps) :
    ∃ h ms, destroy s.heap p = .ok (h, ms) ∧ Next s ⟨h, s.threads.set t { th with pending := ms ++ ps }⟩ ∧
      objs h = objs s.heap ∧ (ms = [] ∨ ∃ o, (objs s.heap)[p]? = some o ∧ ms = o.members) := by
  have hc := alive_of_mem g (mem_refs ht (p := p) (.inr (by rw [hp]; simp)))
  obtain ⟨c, e, hc⟩ := exists_of_count hc
  refine ⟨s.heap.modify p dec, if c.count = 1 then c.obj.members else [], ?_, ⟨⟨?_, ?_⟩, ?_, ?_, ?_⟩, ?_, ?_⟩
  · simp [destroy, e, hc]
  · show Static (objs _); rw [objs_dec]; exact g.static
  · intro q
    have h1 := g.inv q
    have h2 := count_refs_set s.threads t th
      { th with pending := (if c.count = 1 then c.obj.members else []) ++ ps } q ht
    rw [hp] at h2
    show Heap.count (s.heap.modify p dec) q = _ + own (s.heap.modify p dec) q
    rw [count_modify]
    split at h2
    · rename_i h0
      have h3 := own_modify_dead s.heap p q dec c e (by simp [h0]) hc
      simp only [if_pos h0, List.count_append, List.count_cons] at h1 h2 h3 ⊢
      by_cases hq : p = q
      · subst q
        rw [count_eq e] at h1
        simp [e] at h1 h2 ⊢; omega
      · simp [hq] at h1 h2 ⊢; omega
    · rename_i h0
      have h3 := own_modify_same s.heap p q dec c e rfl (by simp; omega)
      rw [h3]
      simp only [if_neg h0, List.nil_append, List.count_append, List.count_cons] at h1 h2 ⊢
      by_cases hq : p = q
      · subst q
        rw [count_eq e] at h1
        simp [e] at h1 h2 ⊢; omega
      · simp [hq] at h1 h2 ⊢; omega
  · show objs _ <+: objs (s.heap.modify p dec); rw [objs_dec]; exact List.prefix_refl _
  · intro q c' e' hc'
    have := count_dec_le s.heap p q
    rw [count_eq e', hc'] at this
    exact Nat.le_zero.1 this
  · simp
  · exact objs_dec _ _
  · split
    · exact .inr ⟨c.obj, by simp [objs, e], rfl⟩
    · exact .inl rfl

theorem step_spec {s : Sys} (g : Ok s) (t : Nat) (a : Act) :
    (∃ s', s.step t a = .ok s' ∧ Next s s') ∨ (s.step t a = .ub .nullDeref ∧ ∃ k, a = .lock k) := by
  unfold Sys.step
  cases ht : s.threads[t]? with
  | none => exact .inl ⟨s, rfl, .refl g⟩
  | some th =>
    dsimp only
    cases hp : th.pending with
    | cons p ps =>
      obtain ⟨h, ms, e, n, -⟩ := destroy_spec g ht hp
      left
      dsimp only
      rw [e]
      exact ⟨_, rfl, n⟩
    | nil =>
      have hm : ∀ {p}, p ∈ th.held → s.heap.count p ≠ 0 := fun h => alive_of_mem g (mem_refs ht (.inl h))
      have hl : ∀ {p}, p ∈ th.held → p < s.heap.length := fun h => g.lt (.ref (mem_refs ht (.inl h)))
      cases a with
      | make n =>
        left
        refine ⟨_, rfl, .make g ht ⟨fun q hq => hl (List.mem_of_mem_drop hq), trivial⟩ fun q => ?_⟩
        have := count_take_drop th.held (th.held.length - n) q
        simp only [hp, List.count_append, Obj.members, List.append_nil] at this ⊢
        omega
      | stream data =>
        left
        refine ⟨_, rfl, .make g ht ⟨by simp [Obj.members], trivial⟩ fun q => ?_⟩
        simp only [hp, List.count_append, Obj.members, List.append_nil, List.count_nil]
        omega
      | iterator k offset =>
        left
        dsimp only
        cases hk : th.held.dropLast[k]? with
        | none => exact ⟨s, rfl, .refl g⟩
        | some p =>
          cases hd : th.held.getLast? with
          | none => exact ⟨s, rfl, .refl g⟩
          | some d =>
            have hpm : p ∈ th.held := (List.dropLast_sublist _).mem (List.mem_of_getElem? hk)
            have hdm : d ∈ th.held := List.mem_of_getLast? hd
            obtain ⟨c, e, l⟩ := load_of_count (hm hpm)
            dsimp only
            rw [l]
            rcases c with ⟨o, n⟩
            cases o with
            | stMemory data =>
              refine ⟨_, rfl, .make g ht ⟨by simp [Obj.members]; exact hl hdm, hl hpm, data, by simp [objs, e]⟩
                fun q => ?_⟩
              have := dropLast_getLast hd q
              simp only [hp, List.count_append, Obj.members, List.append_nil] at this ⊢
              omega
            | stCtr _ _ => exact ⟨s, rfl, .refl g⟩
            | itMemory _ _ _ => exact ⟨s, rfl, .refl g⟩
            | itCtr _ _ _ => exact ⟨s, rfl, .refl g⟩
            | other _ => exact ⟨s, rfl, .refl g⟩
      | copy k =>
        left
        dsimp only
        cases hk : th.held[k]? with
        | none => exact ⟨s, rfl, .refl g⟩
        | some p =>
          have hpc := hm (List.mem_of_getElem? hk)
          refine ⟨_, by simp only [acquire, if_neg hpc]; rfl, ?_⟩
          exact hp ▸ Next.incr g ht hpc
      | member k j =>
        left
        dsimp only
        cases hk : th.held[k]? with
        | none => exact ⟨s, rfl, .refl g⟩
        | some p =>
          obtain ⟨c, e, l⟩ := load_of_count (hm (List.mem_of_getElem? hk))
          dsimp only
          rw [l]
          cases hj : c.obj.members[j]? with
          | none => exact ⟨s, by simp [bind, Exec.bind, hj], .refl g⟩
          | some q =>
            have hq : s.heap.count q ≠ 0 := (g.alive_iff q).2 (.member
              (.ref (mem_refs ht (.inl (List.mem_of_getElem? hk)))) (by simp [objs, e]) (List.mem_of_getElem? hj))
            refine ⟨_, by simp only [bind, Exec.bind, hj, acquire, if_neg hq]; rfl, ?_⟩
            exact hp ▸ Next.incr g ht hq
      | give k u =>
        left
        dsimp only
        cases hk : th.held[k]? with
        | none => exact ⟨s, rfl, .refl g⟩
        | some p =>
          cases hu : s.threads[u]? with
          | none => exact ⟨s, rfl, .refl g⟩
          | some uh =>
            dsimp only
            split
            · exact ⟨s, rfl, .refl g⟩
            · rename_i hne
              refine ⟨_, rfl, ⟨g.static, g.inv.perm fun q => ?_⟩, List.prefix_refl _,
                fun _ _ e hc => by rw [count_eq e, hc], by simp⟩
              have h1 := count_refs_set s.threads t th { th with held := th.held.eraseIdx k } q ht
              have h2 := count_refs_set (s.threads.set t { th with held := th.held.eraseIdx k }) u uh
                { uh with held := uh.held ++ [p] } q (by rw [List.getElem?_set_ne (Ne.symm hne), hu])
              have h3 := count_eraseIdx th.held k p hk q
              rw [hp] at h1 h2
              simp only [List.count_append, List.count_cons, List.count_nil] at h1 h2 h3 ⊢
              omega
      | drop k =>
        left
        dsimp only
        cases hk : th.held[k]? with
        | none => exact ⟨s, rfl, .refl g⟩
        | some p =>
          refine ⟨_, rfl, ⟨g.static, g.inv.perm fun q => ?_⟩, List.prefix_refl _,
            fun _ _ e hc => by rw [count_eq e, hc], by simp⟩
          have h1 := count_refs_set s.threads t th ⟨th.held.eraseIdx k, [p]⟩ q ht
          have h3 := count_eraseIdx th.held k p hk q
          rw [hp] at h1
          simp only [List.count_append, List.count_cons, List.count_nil] at h1 h3 ⊢
          omega
      | lock k =>
        dsimp only
        cases hk : th.held[k]? with
        | none => exact .inl ⟨s, rfl, .refl g⟩
        | some p =>
          obtain ⟨c, e, l⟩ := load_of_count (hm (List.mem_of_getElem? hk))
          dsimp only
          rw [l]
          rcases c with ⟨o, n⟩
          cases o with
          | itMemory q off d =>
            by_cases hq : s.heap.count q = 0
            · right
              exact ⟨by simp [bind, Exec.bind, hq], k, rfl⟩
            · left
              refine ⟨_, by simp only [bind, Exec.bind, if_neg hq]; rfl, ?_⟩
              exact hp ▸ Next.incr g ht hq
          | stMemory _ => exact .inl ⟨s, rfl, .refl g⟩
          | stCtr _ _ => exact .inl ⟨s, rfl, .refl g⟩
          | itCtr _ _ _ => exact .inl ⟨s, rfl, .refl g⟩
          | other _ => exact .inl ⟨s, rfl, .refl g⟩
      | use k =>
        left
        dsimp only
        cases hk : th.held[k]? with
        | none => exact ⟨s, rfl, .refl g⟩
        | some p =>
          obtain ⟨c, e, l⟩ := load_of_count (hm (List.mem_of_getElem? hk))
          dsimp only
          rw [l]
          exact ⟨s, rfl, .refl g⟩

theorem get_of_lt {h : Heap} {p : Nat} (hp : p < h.length) (hc : h.count p = 0) : ∃ c, h[p]? = some c ∧ c.count = 0 :=
  ⟨h[p], by simp [hp], by rw [← count_eq (List.getElem?_eq_getElem hp)]; exact hc⟩

theorem Next.length {s s' : Sys} (n : Next s s') : s.heap.length ≤ s'.heap.length := by
  have := n.ext.length_le
  rwa [objs_length, objs_length] at this

theorem Next.trans {a b c : Sys} (h : Next a b) (k : Next b c) : Next a c := by
  refine ⟨k.ok, h.ext.trans k.ext, fun p x e hx => ?_, k.threads.trans h.threads⟩
  have hp : p < b.heap.length := Nat.lt_of_lt_of_le (List.getElem?_eq_some_iff.1 e).1 h.length
  obtain ⟨y, ey, hy⟩ := get_of_lt hp (h.dead p x e hx)
  exact k.dead p y ey hy

theorem run_spec : ∀ (l : List (Nat × Act)) {s : Sys}, Ok s →
    (∃ s', s.run l = .ok s' ∧ Next s s') ∨ (s.run l = .ub .nullDeref ∧ ∃ t k, (t, Act.lock k) ∈ l) := by
  intro l
  induction l with
  | nil => intro s g; exact .inl ⟨s, rfl, .refl g⟩
  | cons x l ih =>
    obtain ⟨t, a⟩ := x
    intro s g
    rcases step_spec g t a with ⟨s1, e, n⟩ | ⟨e, k, rfl⟩
    · rcases ih n.ok with ⟨s2, e2, n2⟩ | ⟨e2, u, k, hk⟩
      · exact .inl ⟨s2, by simp [Sys.run, e, e2, bind, Exec.bind], n.trans n2⟩
      · exact .inr ⟨by simp [Sys.run, e, e2, bind, Exec.bind], u, k, List.mem_cons_of_mem _ hk⟩
    · exact .inr ⟨by simp [Sys.run, e, bind, Exec.bind], t, k, by simp⟩

theorem run_cons_ok {s s' : Sys} {t : Nat} {a : Act} {l : List (Nat × Act)} (h : s.run ((t, a) :: l) = .ok s') :
    ∃ s1, s.step t a = .ok s1 ∧ s1.run l = .ok s' := by
  simp only [Sys.run, bind, Exec.bind] at h
  split at h <;> first | exact ⟨_, by assumption, h⟩ | simp at h

theorem run_cons {s s1 : Sys} {t : Nat} {a : Act} {l : List (Nat × Act)} (h : s.step t a = .ok s1) :
    s.run ((t, a) :: l) = s1.run l := by
  simp [Sys.run, h, bind, Exec.bind]

theorem run_next {l : List (Nat × Act)} {s s' : Sys} (g : Ok s) (h : s.run l = .ok s') : Next s s' := by
  rcases run_spec l g with ⟨s1, e, n⟩ | ⟨e, -⟩
  · rw [e] at h; cases h; exact n
  · rw [e] at h; cases h

theorem start_ok (n : Nat) : Ok (Sys.start n) := by
  refine ⟨fun i o h => by simp [Sys.start, objs] at h, fun q => ?_⟩
  have : refs (List.replicate n (⟨[], []⟩ : Thread)) = [] := by
    simp [refs, List.flatMap_eq_nil_iff]
  simp [Sys.start, this, Heap.count, own]

theorem reach_iff {s : Sys} {p : Nat} : Reach s p ↔ R (objs s.heap) (refs s.threads) p := by
  constructor
  · intro h
    induction h with
    | held ht hp => exact .ref (List.mem_flatMap.2 ⟨_, ht, List.mem_append.2 (.inl hp)⟩)
    | pending ht hp => exact .ref (List.mem_flatMap.2 ⟨_, ht, List.mem_append.2 (.inr hp)⟩)
    | member _ hc hq ih => exact .member ih (by simp [objs, hc]) hq
  · intro h
    induction h with
    | ref hr =>
      obtain ⟨th, ht, hp⟩ := List.mem_flatMap.1 hr
      rcases List.mem_append.1 hp with hp | hp
      · exact .held ht hp
      · exact .pending ht hp
    | member _ ho hq ih =>
      simp only [objs, List.getElem?_map, Option.map_eq_some_iff] at ho
      obtain ⟨c, hc, rfl⟩ := ho
      exact .member ih hc hq

theorem exists_iff_count {s : Sys} {p : Nat} : Exists s p ↔ s.heap.count p ≠ 0 := by
  constructor
  · rintro ⟨c, e, hc⟩; rwa [count_eq e]
  · exact exists_of_count

/-- What a step does to the objects. -/
inductive Eff (P : Prop) : Heap → Heap → Prop
  | same (h) : Eff P h h
  | incr (h : Heap) (p : Nat) (hp : h.count p ≠ 0) : Eff P h (h.incr p)
  | app (h : Heap) (c : Cell) (hc : ∀ d, c.obj = .stMemory d → P) : Eff P h (h ++ [c])
  | dec (h : Heap) (p : Nat) (c : Cell) (e : h[p]? = some c) (hc : c.count ≠ 0) : Eff P h (h.modify p dec)

theorem acquire_ok {h h' : Heap} {p : Nat} (e : acquire h p = .ok h') : h.count p ≠ 0 ∧ h' = h.incr p := by
  unfold acquire at e
  split at e
  · cases e
  · cases e; exact ⟨by assumption, rfl⟩

theorem destroy_ok {h h' : Heap} {p : Nat} {ms : List Nat} (e : destroy h p = .ok (h', ms)) :
    ∃ c, h[p]? = some c ∧ c.count ≠ 0 ∧ h' = h.modify p dec ∧ ms = if c.count = 1 then c.obj.members else [] := by
  unfold destroy at e
  split at e
  · cases e
  · rename_i c ec
    split at e
    · cases e
    · cases e; exact ⟨c, ec, by assumption, rfl, rfl⟩

theorem step_eff {s s' : Sys} {t : Nat} {a : Act} (h : s.step t a = .ok s') :
    Eff (∃ data, a = .stream data) s.heap s'.heap ∧ ∀ u th, u ≠ t → s.threads[u]? = some th →
      ∃ m, s'.threads[u]? = some ⟨th.held ++ m, th.pending⟩ := by
  have keep : ∀ {s : Sys} u th, u ≠ t → s.threads[u]? = some th →
      ∃ m, s.threads[u]? = some ⟨th.held ++ m, th.pending⟩ := fun u th _ h => ⟨[], by simpa using h⟩
  have hset : ∀ {x : Thread} {hp : Heap} u th, u ≠ t → s.threads[u]? = some th →
      ∃ m, (Sys.mk hp (s.threads.set t x)).threads[u]? = some ⟨th.held ++ m, th.pending⟩ := by
    intro x hp u th hu h
    exact ⟨[], by simp [List.getElem?_set_ne (Ne.symm hu), h]⟩
  unfold Sys.step at h
  split at h
  · cases h; exact ⟨.same _, keep⟩
  rename_i th ht
  split at h
  · rename_i p ps hp
    cases e : destroy s.heap p with
    | ok x =>
      obtain ⟨h', ms⟩ := x
      rw [e] at h
      cases h
      obtain ⟨c, ec, hc, rfl, -⟩ := destroy_ok e
      exact ⟨.dec _ p c ec hc, hset⟩
    | throw _ => rw [e] at h; cases h
    | ub _ => rw [e] at h; cases h
    | diverge => rw [e] at h; cases h
  rename_i hp
  split at h
  · cases h; exact ⟨.app _ _ (fun d e => by cases e), hset⟩
  · cases h; exact ⟨.app _ _ (fun d _ => ⟨_, rfl⟩), hset⟩
  · split at h
    · cases e : s.heap.load _ with
      | ok o =>
        rw [e] at h
        simp only [bind, Exec.bind] at h
        split at h
        · cases h; exact ⟨.app _ _ (fun d e => by cases e), hset⟩
        · cases h; exact ⟨.same _, keep⟩
      | throw _ => rw [e] at h; cases h
      | ub _ => rw [e] at h; cases h
      | diverge => rw [e] at h; cases h
    · cases h; exact ⟨.same _, keep⟩
  · split at h
    · cases h; exact ⟨.same _, keep⟩
    · cases e : acquire s.heap _ with
      | ok o =>
        rw [e] at h
        cases h
        obtain ⟨h1, rfl⟩ := acquire_ok e
        exact ⟨.incr _ _ h1, hset⟩
      | throw _ => rw [e] at h; cases h
      | ub _ => rw [e] at h; cases h
      | diverge => rw [e] at h; cases h
  · split at h
    · cases h; exact ⟨.same _, keep⟩
    · cases e : s.heap.load _ with
      | ok o =>
        rw [e] at h
        simp only [bind, Exec.bind] at h
        split at h
        · cases h; exact ⟨.same _, keep⟩
        · cases e : acquire s.heap _ with
          | ok o =>
            rw [e] at h
            cases h
            obtain ⟨h1, rfl⟩ := acquire_ok e
            exact ⟨.incr _ _ h1, hset⟩
          | throw _ => rw [e] at h; cases h
          | ub _ => rw [e] at h; cases h
          | diverge => rw [e] at h; cases h
      | throw _ => rw [e] at h; cases h
      | ub _ => rw [e] at h; cases h
      | diverge => rw [e] at h; cases h
  · split at h
    · rename_i p uh hk hu
      split at h
      · cases h; exact ⟨.same _, keep⟩
      · rename_i hne
        cases h
        refine ⟨.same _, fun v vh hv ev => ?_⟩
        dsimp only
        rename_i k u _ _
        by_cases hvu : v = u
        · subst hvu
          rw [hu] at ev; cases ev
          have : v < s.threads.length := (List.getElem?_eq_some_iff.1 hu).1
          exact ⟨[p], by simp [this]⟩
        · exact ⟨[], by rw [List.getElem?_set_ne (Ne.symm hvu), List.getElem?_set_ne (Ne.symm hv)]; simpa using ev⟩
    · cases h; exact ⟨.same _, keep⟩
  · split at h
    · cases h; exact ⟨.same _, keep⟩
    · cases h; exact ⟨.same _, hset⟩
  · split at h
    · cases h; exact ⟨.same _, keep⟩
    · cases e : s.heap.load _ with
      | ok o =>
        rw [e] at h
        simp only [bind, Exec.bind] at h
        split at h
        · split at h
          · cases h
          · cases h; exact ⟨.incr _ _ (by assumption), hset⟩
        · cases h; exact ⟨.same _, keep⟩
      | throw _ => rw [e] at h; cases h
      | ub _ => rw [e] at h; cases h
      | diverge => rw [e] at h; cases h
  · split at h
    · cases h; exact ⟨.same _, keep⟩
    · cases e : s.heap.load _ with
      | ok o => rw [e] at h; cases h; exact ⟨.same _, keep⟩
      | throw _ => rw [e] at h; cases h
      | ub _ => rw [e] at h; cases h
      | diverge => rw [e] at h; cases h

theorem step_pending {s s' : Sys} {t p : Nat} {ps : List Nat} {a : Act} {th : Thread} (ht : s.threads[t]? = some th)
    (hp : th.pending = p :: ps) (h : s.step t a = .ok s') :
    ∃ c, s.heap[p]? = some c ∧ c.count ≠ 0 ∧ s'.heap = s.heap.modify p dec ∧
      s'.threads[t]? = some { th with pending := (if c.count = 1 then c.obj.members else []) ++ ps } := by
  unfold Sys.step at h
  rw [ht] at h
  simp only [hp] at h
  cases e : destroy s.heap p with
  | ok x =>
    obtain ⟨h', ms⟩ := x
    rw [e] at h
    cases h
    obtain ⟨c, ec, hc, rfl, rfl⟩ := destroy_ok e
    have : t < s.threads.length := (List.getElem?_eq_some_iff.1 ht).1
    exact ⟨c, ec, hc, rfl, by simp [this]⟩
  | throw _ => rw [e] at h; cases h
  | ub _ => rw [e] at h; cases h
  | diverge => rw [e] at h; cases h

/-- The number of pointers in the objects that exist. -/
def inner (h : Heap) : Nat := (h.map fun c => if c.count = 0 then 0 else c.obj.members.length).sum

theorem inner_modify_incr : ∀ (h : Heap) (p : Nat), h.count p ≠ 0 → inner (h.incr p) = inner h := by
  intro h
  induction h with
  | nil => intro p hp; simp [Heap.count] at hp
  | cons c h ih =>
    intro p hp
    cases p with
    | zero =>
      simp only [Heap.count, List.getElem?_cons_zero] at hp
      simp [Heap.incr, inner]
      intro h0; simp [h0] at hp
    | succ p =>
      have := ih p (by simpa [Heap.count] using hp)
      simp only [Heap.incr, inner, List.modify_succ_cons, List.map_cons, List.sum_cons] at this ⊢
      omega

theorem inner_dec : ∀ (h : Heap) (p : Nat) (c : Cell), h[p]? = some c → c.count ≠ 0 →
    inner (h.modify p dec) + (if c.count = 1 then c.obj.members else []).length = inner h := by
  intro h
  induction h with
  | nil => intro p c e; simp at e
  | cons x h ih =>
    intro p c e hc
    cases p with
    | zero =>
      simp at e; subst e
      simp only [inner, List.modify_zero_cons, List.map_cons, List.sum_cons, dec]
      by_cases h1 : x.count = 1
      · simp [h1]; omega
      · have : x.count - 1 ≠ 0 := by omega
        simp [h1, hc, this]
    | succ p =>
      have := ih p c (by simpa using e) hc
      simp only [inner, List.modify_succ_cons, List.map_cons, List.sum_cons] at this ⊢
      omega

theorem inner_append (h k : Heap) : inner (h ++ k) = inner h + inner k := by simp [inner]

theorem inner_take_eff {h h' : Heap} {P : Prop} (e : Eff P h h') {L : Nat} (hL : L ≤ h.length) :
    inner (h'.take L) ≤ inner (h.take L) ∧ L ≤ h'.length := by
  cases e with
  | same => exact ⟨Nat.le_refl _, hL⟩
  | incr p hp =>
    refine ⟨?_, by simpa [Heap.incr] using hL⟩
    unfold Heap.incr
    rw [List.take_modify]
    by_cases hpl : p < L
    · refine Nat.le_of_eq (inner_modify_incr (h.take L) p ?_)
      unfold Heap.count at hp ⊢
      rwa [List.getElem?_take_of_lt hpl]
    · rw [List.modify_eq_self (by simp; omega)]; exact Nat.le_refl _
  | app c _ =>
    refine ⟨?_, by simp; omega⟩
    rw [List.take_append_of_le_length hL]; exact Nat.le_refl _
  | dec p c ec hc =>
    refine ⟨?_, by simpa using hL⟩
    rw [List.take_modify]
    by_cases hpl : p < L
    · have := inner_dec (h.take L) p c (by rw [List.getElem?_take_of_lt hpl, ec]) hc
      omega
    · rw [List.modify_eq_self (by simp; omega)]; exact Nat.le_refl _

/-- Destructors come to an end after so many steps of their thread, whatever other threads do in between. -/
theorem finishes (t : Nat) : ∀ (l : List (Nat × Act)) (L : Nat) {s s' : Sys} {th : Thread}, Ok s →
    s.threads[t]? = some th → (∀ p ∈ th.pending, p < L) → L ≤ s.heap.length → s.run l = .ok s' →
    th.pending.length + inner (s.heap.take L) ≤ (l.filter (·.1 = t)).length →
    ∃ l1 l2 s1 th1, l = l1 ++ l2 ∧ s.run l1 = .ok s1 ∧ s1.threads[t]? = some th1 ∧ th1.pending = [] := by
  intro l
  induction l with
  | nil =>
    intro L s s' th g ht hp hL hr hn
    refine ⟨[], [], s, th, rfl, rfl, ht, ?_⟩
    simp at hn
    exact hn.1
  | cons x l ih =>
    intro L s s' th g ht hp hL hr hn
    obtain ⟨u, a⟩ := x
    cases hpe : th.pending with
    | nil => exact ⟨[], _, s, th, rfl, rfl, ht, hpe⟩
    | cons p ps =>
    obtain ⟨s1, e1, hr1⟩ := run_cons_ok hr
    have n1 : Next s s1 := by
      rcases step_spec g u a with ⟨s2, e, n⟩ | ⟨e, -⟩
      · rw [e] at e1; cases e1; exact n
      · rw [e] at e1; cases e1
    have fin : ∀ th1, s1.threads[t]? = some th1 → (∀ p ∈ th1.pending, p < L) → L ≤ s1.heap.length →
        th1.pending.length + inner (s1.heap.take L) ≤ (l.filter (·.1 = t)).length →
        ∃ l1 l2 s2 th2, (u, a) :: l = l1 ++ l2 ∧ s.run l1 = .ok s2 ∧ s2.threads[t]? = some th2 ∧ th2.pending = [] := by
      intro th1 h1 h2 h3 h4
      obtain ⟨l1, l2, s2, th2, rfl, e2, h5, h6⟩ := ih L n1.ok h1 h2 h3 hr1 h4
      exact ⟨(u, a) :: l1, l2, s2, th2, rfl, by rw [run_cons e1, e2], h5, h6⟩
    by_cases hu : u = t
    · subst hu
      obtain ⟨c, ec, hc, eh, et⟩ := step_pending ht hpe e1
      have hpl : p < L := hp p (by simp [hpe])
      have hd := inner_dec (s.heap.take L) p c (by rw [List.getElem?_take_of_lt hpl, ec]) hc
      refine fin _ et (fun q hq => ?_) (by rw [eh]; simpa using hL) ?_
      · rcases List.mem_append.1 hq with hq | hq
        · split at hq
          · have := (g.static p c.obj (by simp [objs, ec])).1 q hq
            omega
          · simp at hq
        · exact hp q (by simp [hpe, hq])
      · rw [eh, List.take_modify]
        simp only [hpe, List.length_cons, List.length_append] at hn ⊢
        simp at hn
        omega
    · obtain ⟨ef, hk⟩ := step_eff e1
      obtain ⟨m, et⟩ := hk t th (Ne.symm hu) ht
      obtain ⟨h1, h2⟩ := inner_take_eff ef hL
      refine fin _ et hp h2 ?_
      simp [hu] at hn
      exact Nat.le_trans (Nat.add_le_add_left h1 _) hn

theorem eff_stream {P : Prop} (hP : ¬ P) {h h' : Heap} (e : Eff P h h') {p : Nat} {d : List W64}
    (hp : (objs h')[p]? = some (.stMemory d)) : (objs h)[p]? = some (.stMemory d) := by
  cases e with
  | same => exact hp
  | incr q _ => rwa [objs_incr] at hp
  | dec q c _ _ => rwa [objs_dec] at hp
  | app c hc =>
    rw [show objs (h ++ [c]) = objs h ++ [c.obj] by simp [objs]] at hp
    rw [List.getElem?_append] at hp
    split at hp
    · exact hp
    · rename_i hl
      have h1 := (List.getElem?_eq_some_iff.1 hp).1
      have h2 : p - (objs h).length = 0 := by simp at h1; omega
      rw [h2] at hp
      simp at hp
      exact absurd (hc d hp) hP

theorem lock_step {s : Sys} {t k p q off d n : Nat} {held : List Nat} (ht : s.threads[t]? = some ⟨held, []⟩)
    (hk : held[k]? = some p) (hp : s.heap[p]? = some ⟨.itMemory q off d, n⟩) (hn : n ≠ 0) :
    s.step t (.lock k) = if s.heap.count q = 0 then .ub .nullDeref
      else .ok ⟨s.heap.incr q, s.threads.set t ⟨held ++ [q], []⟩⟩ := by
  have hl : s.heap.load p = .ok (.itMemory q off d) := by simp [Heap.load, hp, hn]
  simp only [Sys.step, ht, hk, hl, bind, Exec.bind, pure]

theorem lock_ub {s : Sys} (g : Ok s) {t : Nat} {a : Act} (h : s.step t a = .ub .nullDeref) :
    ∃ q d, (objs s.heap)[q]? = some (.stMemory d) ∧ s.heap.count q = 0 := by
  rcases step_spec g t a with ⟨s', e, -⟩ | ⟨-, k, rfl⟩
  · rw [e] at h; cases h
  unfold Sys.step at h
  split at h
  · cases h
  rename_i th ht
  split at h
  · rename_i p ps hp
    obtain ⟨h', ms, e, -⟩ := destroy_spec g ht hp
    rw [e] at h; cases h
  dsimp only at h
  split at h
  · cases h
  rename_i p hk
  obtain ⟨c, e, l⟩ := load_of_count (alive_of_mem g (mem_refs ht (.inl (List.mem_of_getElem? hk))))
  rw [l] at h
  simp only [bind, Exec.bind] at h
  split at h
  · rename_i q off d ho
    split at h
    · rename_i hq
      have := g.static p c.obj (by simp [objs, e])
      rw [ho] at this
      obtain ⟨-, -, x, hx⟩ := this
      exact ⟨q, x, hx, hq⟩
    · cases h
  · cases h

/-- A thread that holds on to all streams makes everything safe that the others do. -/
theorem keeper (u : Nat) : ∀ (l : List (Nat × Act)) {s : Sys} {th : Thread}, Ok s → s.threads[u]? = some th →
    (∀ p d, (objs s.heap)[p]? = some (.stMemory d) → p ∈ th.held) →
    (∀ t a, (t, a) ∈ l → t ≠ u ∧ ∀ d, a ≠ .stream d) → ∃ s', s.run l = .ok s' := by
  intro l
  induction l with
  | nil => intro s th _ _ _ _; exact ⟨s, rfl⟩
  | cons x l ih =>
    intro s th g ht hk hl
    obtain ⟨t, a⟩ := x
    obtain ⟨htu, ha⟩ := hl t a (by simp)
    rcases step_spec g t a with ⟨s1, e, n⟩ | ⟨e, -⟩
    · obtain ⟨ef, hm⟩ := step_eff e
      obtain ⟨m, hm⟩ := hm u th (Ne.symm htu) ht
      obtain ⟨s2, e2⟩ := ih n.ok hm (fun p d hp => by
        have := hk p d (eff_stream (fun ⟨d, e⟩ => ha d e) ef hp)
        simp [this]) (fun t a h => hl t a (List.mem_cons_of_mem _ h))
      exact ⟨s2, by rw [run_cons e, e2]⟩
    · obtain ⟨q, d, hq, hc⟩ := lock_ub g e
      exact absurd hc (alive_of_mem g (mem_refs ht (.inl (hk q d hq))))

end Goost.Share
