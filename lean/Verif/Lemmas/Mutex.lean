import Verif.Spec.Mutex
import Verif.Lemmas.WeakMemory
import Verif.Lemmas.KuzCache
/-
Lemmas for C117.
-/
namespace Goost.Conc
open Spec

section
variable {Loc Val α β : Type} [DecidableEq Loc]

/-! ### A thread that runs alone for a while, without a mutex -/

/-- What thread `t` is given, if it is always given the value chosen by `c`. -/
def History.given (h : History Loc Val) (t : Nat) (c : Loc → Nat) (l : Loc) : Val := h.value l (h.pick t l (c l))

theorem History.given_look (h : History Loc Val) (t : Nat) (c : Loc → Nat) (l : Loc) :
    (h.look t l (h.pick t l (c l))).given t c = h.given t c := by
  funext l'
  simp only [given, look, pick]
  by_cases e : l' = l
  · subst e; simp only [and_self, if_true]; congr 1; omega
  · simp [e]

theorem History.given_store (h : History Loc Val) (t : Nat) (c : Loc → Nat) (l : Loc) (v : Val) :
    (h.store t l v).given t c = fun l' => if l' = l then v else h.given t c l' := by
  funext l'
  simp only [given, store, pick]
  by_cases e : l' = l
  · subst e
    simp only [and_self, if_true]
    rw [if_pos ⟨trivial, by omega⟩]
  · simp [e]

theorem Free.run_append (s : Free Loc Val α) (a b : List (Nat × Nat)) : s.run (a ++ b) = (s.run a).run b := by
  simp [Free.run]

/-- What is left as it was while thread `t` runs. -/
structure Kept (t : Nat) (h h' : History Loc Val) : Prop where
  first : ∀ l, h'.value l 0 = h.value l 0
  others : ∀ u, u ≠ t → h'.view u = h.view u
  uptodate : (∀ l, h.view t l = h.count l) → ∀ l, h'.view t l = h'.count l

omit [DecidableEq Loc] in
theorem Kept.trans {t : Nat} {a b c : History Loc Val} (h : Kept t a b) (k : Kept t b c) : Kept t a c :=
  ⟨fun l => (k.first l).trans (h.first l), fun u hu => (k.others u hu).trans (h.others u hu),
    fun q => k.uptodate (h.uptodate q)⟩

theorem Kept.look (h : History Loc Val) (t : Nat) (l : Loc) (n : Nat) :
    Kept t h (h.look t l (h.pick t l n)) := by
  refine ⟨fun _ => rfl, fun u hu => ?_, fun q l' => ?_⟩
  · funext l'; simp [History.look, hu]
  · simp only [History.look, History.pick, true_and]
    by_cases e : l' = l
    · subst e; have := q l'; simp only [if_true]; omega
    · simpa [e] using q l'

theorem Kept.store (h : History Loc Val) (t : Nat) (l : Loc) (v : Val) : Kept t h (h.store t l v) := by
  refine ⟨fun l' => ?_, fun u hu => ?_, fun q l' => ?_⟩
  · simp [History.store]
  · funext l'; simp [History.store, hu]
  · simp only [History.store, true_and]
    by_cases e : l' = l
    · simp [e]
    · simpa [e] using q l'

/-- Thread `t` runs `p`, and is given the values chosen by `c`. -/
theorem Free.alone_for_a_while (t : Nat) (c : Loc → Nat) (p : MemProg Loc Val β) (f : β → MemProg Loc Val α) :
    ∀ s : Free Loc Val α, s.threads t = p.bind f → ∃ events,
      (s.run events).threads = (fun u => if u = t then f (runAlone p (s.hist.given t c)).1 else s.threads u) ∧
      (s.run events).hist.given t c = (runAlone p (s.hist.given t c)).2 ∧ Kept t s.hist (s.run events).hist := by
  induction p with
  | ret a =>
    intro s hs
    refine ⟨[], funext fun u => ?_, rfl, ⟨fun _ => rfl, fun _ _ => rfl, fun h => h⟩⟩
    by_cases q : u = t
    · simp only [q, if_true]; exact hs
    · simp only [q, if_false]; rfl
  | op o k ih =>
    intro s hs
    cases o with
    | load l =>
      have e : s.step (t, c l) = ⟨fun u => if u = t then (k (s.hist.given t c l)).bind f else s.threads u,
          s.hist.look t l (s.hist.pick t l (c l))⟩ := by
        simp only [Free.step]; rw [hs]; rfl
      obtain ⟨ev, h1, h2, h3⟩ := ih (s.hist.given t c l) (s.step (t, c l)) (by simp [e])
      refine ⟨(t, c l) :: ev, ?_, ?_, ?_⟩
      · show ((s.step (t, c l)).run ev).threads = _
        rw [h1, e]
        funext u
        by_cases q : u = t
        · simp only [q, if_true, History.given_look, runAlone]
        · simp [q]
      · show ((s.step (t, c l)).run ev).hist.given t c = _
        rw [h2, e, History.given_look]; rfl
      · refine Kept.trans ?_ h3
        rw [e]; exact Kept.look _ _ _ _
    | store l v =>
      have e : s.step (t, 0) = ⟨fun u => if u = t then (k v).bind f else s.threads u, s.hist.store t l v⟩ := by
        simp only [Free.step]; rw [hs]; rfl
      obtain ⟨ev, h1, h2, h3⟩ := ih v (s.step (t, 0)) (by simp [e])
      refine ⟨(t, 0) :: ev, ?_, ?_, ?_⟩
      · show ((s.step (t, 0)).run ev).threads = _
        rw [h1, e]
        funext u
        by_cases q : u = t
        · simp only [q, if_true, History.given_store, runAlone]
        · simp [q]
      · show ((s.step (t, 0)).run ev).hist.given t c = _
        rw [h2, e, History.given_store]; rfl
      · refine Kept.trans ?_ h3
        rw [e]; exact Kept.store _ _ _ _

/-- Thread `t` runs `p` from the start. After that another thread can be given the new value of one location, and the
first values of all others. -/
theorem Free.one_new [OfNat Val 0] (programs : Nat → MemProg Loc Val α) (t u : Nat) (htu : t ≠ u)
    (p : MemProg Loc Val β) (f : β → MemProg Loc Val α) (hp : programs t = p.bind f) (l : Loc) :
    ∃ events c, ((Free.start programs).run events).threads =
        (fun w => if w = t then f (runAlone p fun _ => 0).1 else programs w) ∧
      ((Free.start programs).run events).hist.given u c =
        Buffered.put (fun _ => 0) (l, (runAlone p fun _ => 0).2 l) := by
  obtain ⟨ev, h1, h2, h3⟩ := Free.alone_for_a_while t (fun _ => 0) p f (Free.start programs) hp
  have e0 : (Free.start programs).hist.given t (fun _ => 0) = fun _ => 0 := rfl
  rw [e0] at h1 h2
  refine ⟨ev, fun l' => if l' = l then ((Free.start programs).run ev).hist.count l else 0, h1, ?_⟩
  funext l'
  have hv : ((Free.start programs).run ev).hist.view u l' = 0 := by rw [h3.others u (Ne.symm htu)]; rfl
  by_cases e : l' = l
  · subst e
    have h4 := congrFun h2 l'
    simp only [History.given, History.pick] at h4
    rw [h3.uptodate (fun _ => rfl) l'] at h4
    simp only [History.given, History.pick, hv, Buffered.put, if_true]
    rw [← h4]
    congr 1
    omega
  · simp only [History.given, History.pick, hv, Buffered.put, e, if_false]
    rw [show max 0 (min 0 (((Free.start programs).run ev).hist.count l')) = 0 by omega]
    exact h3.first l'

/-- Threads that only read a memory of which all know the last values. -/
theorem Free.reads_run {mem : Loc → Val} (events : List (Nat × Nat)) : ∀ {s : Free Loc Val α},
    (∀ l i, s.hist.value l i = mem l) → (∀ t, ReadsOnly mem (s.threads t)) → ∀ t a,
      (s.run events).threads t = .ret a → a = (runAlone (s.threads t) mem).1 := by
  induction events with
  | nil => intro s _ _ t a e; rw [show s.threads t = .ret a from e]; rfl
  | cons e es ih =>
    intro s hm h t a hr
    obtain ⟨w, n⟩ := e
    have hw := h w
    have key : (∀ l i, (s.step (w, n)).hist.value l i = mem l) ∧ (∀ t, ReadsOnly mem ((s.step (w, n)).threads t)) ∧
        ∀ t, (runAlone ((s.step (w, n)).threads t) mem).1 = (runAlone (s.threads t) mem).1 := by
      simp only [Free.step]
      match hp : s.threads w with
      | .ret a => exact ⟨hm, h, fun _ => rfl⟩
      | .op (.store l v) k => rw [hp] at hw; exact hw.elim
      | .op (.load l) k =>
        rw [hp] at hw
        refine ⟨hm, fun u => ?_, fun u => ?_⟩
        · by_cases hu : u = w
          · simp only [hu, if_true, hm]; exact hw
          · simpa [hu] using h u
        · by_cases hu : u = w
          · simp only [hu, if_true, hp, runAlone, hm]
          · simp [hu]
    rw [← key.2.2 t]
    exact ih key.1 key.2.1 t a hr

end

/-! ### With a mutex -/

section
variable {Loc Val Req Ans α : Type} [DecidableEq Loc]

/-- The last values. -/
def History.last (h : History Loc Val) (l : Loc) : Val := h.value l (h.count l)

/-- Invariant of threads that lock a mutex around every request. `I` holds of the memory between requests, `J` of what
is left of the program of a thread. -/
structure Locked.InvOf (I : (Loc → Val) → Prop) (J : Nat → Prog Req Ans α → Prop)
    (s : Locked Loc Val Req Ans α) : Prop where
  outside : ∀ t p, s.threads t = .outside p → J t p
  inside : ∀ t q k, s.threads t = .inside q k → s.owner = some t ∧ I (runAlone q s.hist.last).2 ∧
    J t (k (runAlone q s.hist.last).1)
  owned : ∀ t, s.owner = some t → (∃ q k, s.threads t = .inside q k) ∧ ∀ l, s.hist.view t l = s.hist.count l
  free : s.owner = none → I s.hist.last ∧ ∀ l, s.passed l = s.hist.count l
  views : ∀ t l, s.hist.view t l ≤ s.hist.count l

theorem History.last_store (h : History Loc Val) (t : Nat) (l : Loc) (v : Val) :
    (h.store t l v).last = fun l' => if l' = l then v else h.last l' := by
  funext l'
  by_cases e : l' = l <;> simp [last, store, e]

theorem Locked.InvOf.step {I : (Loc → Val) → Prop} {J : Nat → Prog Req Ans α → Prop}
    {handler : Req → MemProg Loc Val Ans}
    (hh : ∀ t o k, J t (.op o k) → ∀ mem, I mem →
      J t (k (runAlone (handler o) mem).1) ∧ I (runAlone (handler o) mem).2)
    {s : Locked Loc Val Req Ans α} (h : s.InvOf I J) (e : Nat × Nat) : (s.step handler e).InvOf I J := by
  obtain ⟨t, n⟩ := e
  have only : ∀ u, s.owner = some t → u ≠ t → ∀ q k, s.threads u ≠ .inside q k := by
    intro u ho hu q k hq
    have := (h.inside u q k hq).1
    rw [ho] at this
    exact hu (Option.some.inj this).symm
  simp only [Locked.step]
  match hp : s.threads t with
  | .outside (.ret a) => exact h
  | .outside (.op o k) =>
    simp only
    match ho : s.owner with
    | some u => simp only; exact h
    | none =>
      simp only
      obtain ⟨hI, hv⟩ := h.free ho
      obtain ⟨r1, r2⟩ := hh t o k (h.outside t _ hp) _ hI
      refine ⟨fun u p hu => ?_, fun u q k' hu => ?_, fun u hu => ?_, fun q => by simp at q, fun u l => ?_⟩
      · by_cases q : u = t
        · simp [q] at hu
        · simp only [q, if_false] at hu; exact h.outside u p hu
      · by_cases q : u = t
        · subst q
          simp only [if_true, Guarded.inside.injEq] at hu
          obtain ⟨rfl, rfl⟩ := hu
          exact ⟨rfl, r2, r1⟩
        · simp only [q, if_false] at hu
          have := (h.inside u _ _ hu).1
          rw [ho] at this; cases this
      · simp only [Option.some.injEq] at hu
        subst hu
        refine ⟨⟨_, _, by simp; exact ⟨rfl, rfl⟩⟩, fun l => ?_⟩
        have := h.views t l
        have := hv l
        simp only [if_true]
        omega
      · have := h.views u l
        have := hv l
        simp only
        split <;> omega
  | .inside (.ret a) k =>
    simp only
    obtain ⟨ho, hI, hr⟩ := h.inside t _ _ hp
    refine ⟨fun u p hu => ?_, fun u q k' hu => ?_, fun u hu => by simp at hu, fun _ => ⟨hI, (h.owned t ho).2⟩, h.views⟩
    · by_cases q : u = t
      · subst q
        simp only [if_true, Guarded.outside.injEq] at hu
        subst hu
        exact hr
      · simp only [q, if_false] at hu; exact h.outside u p hu
    · by_cases q : u = t
      · simp [q] at hu
      · simp only [q, if_false] at hu
        exact (only u ho q _ _ hu).elim
  | .inside (.op (.load l) q) k =>
    simp only
    obtain ⟨ho, hI, hr⟩ := h.inside t _ _ hp
    have hv := (h.owned t ho).2
    have hpick : s.hist.pick t l n = s.hist.count l := by
      have := hv l; simp only [History.pick]; omega
    rw [hpick]
    refine ⟨fun u p hu => ?_, fun u q' k' hu => ?_, fun u hu => ?_, fun q => ?_, fun u l' => ?_⟩
    · by_cases q : u = t
      · simp [q] at hu
      · simp only [q, if_false] at hu; exact h.outside u p hu
    · by_cases q : u = t
      · subst q
        simp only [if_true, Guarded.inside.injEq] at hu
        obtain ⟨rfl, rfl⟩ := hu
        exact ⟨ho, hI, hr⟩
      · simp only [q, if_false] at hu
        exact (only u ho q _ _ hu).elim
    · have e : u = t := by rw [ho] at hu; exact (Option.some.inj hu).symm
      subst e
      refine ⟨⟨_, _, by simp; exact ⟨rfl, rfl⟩⟩, fun l' => ?_⟩
      simp only [History.look, true_and]
      split
      · next e => rw [e]
      · exact hv l'
    · rw [ho] at q; cases q
    · simp only [History.look]
      split
      · next e => rw [e.2]; omega
      · exact h.views u l'
  | .inside (.op (.store l v) q) k =>
    simp only
    obtain ⟨ho, hI, hr⟩ := h.inside t _ _ hp
    have hv := (h.owned t ho).2
    refine ⟨fun u p hu => ?_, fun u q' k' hu => ?_, fun u hu => ?_, fun q => ?_, fun u l' => ?_⟩
    · by_cases q : u = t
      · simp [q] at hu
      · simp only [q, if_false] at hu; exact h.outside u p hu
    · by_cases q : u = t
      · subst q
        simp only [if_true, Guarded.inside.injEq] at hu
        obtain ⟨rfl, rfl⟩ := hu
        simp only [History.last_store]
        exact ⟨ho, hI, hr⟩
      · simp only [q, if_false] at hu
        exact (only u ho q _ _ hu).elim
    · have e : u = t := by rw [ho] at hu; exact (Option.some.inj hu).symm
      subst e
      refine ⟨⟨_, _, by simp; exact ⟨rfl, rfl⟩⟩, fun l' => ?_⟩
      simp only [History.store, true_and]
      split
      · rfl
      · exact hv l'
    · rw [ho] at q; cases q
    · have := h.views u l'
      simp only [History.store]
      by_cases e : l' = l
      · subst e; simp only [and_true, if_true]; split <;> omega
      · simpa [e] using this

theorem Locked.InvOf.run {I : (Loc → Val) → Prop} {J : Nat → Prog Req Ans α → Prop}
    {handler : Req → MemProg Loc Val Ans}
    (hh : ∀ t o k, J t (.op o k) → ∀ mem, I mem →
      J t (k (runAlone (handler o) mem).1) ∧ I (runAlone (handler o) mem).2)
    (events : List (Nat × Nat)) : ∀ {s : Locked Loc Val Req Ans α}, s.InvOf I J → (s.run handler events).InvOf I J := by
  induction events with
  | nil => exact fun h => h
  | cons e es ih => exact fun h => ih (h.step hh e)

theorem Locked.InvOf.start [OfNat Val 0] {I : (Loc → Val) → Prop} {J : Nat → Prog Req Ans α → Prop}
    (h0 : I fun _ => 0) (programs : Nat → Prog Req Ans α) (h : ∀ t, J t (programs t)) :
    (Locked.start (Loc := Loc) (Val := Val) programs).InvOf I J := by
  refine ⟨fun t p hp => ?_, fun t q k hp => by simp [Locked.start] at hp, fun t ho => by simp [Locked.start] at ho,
    fun _ => ⟨h0, fun _ => rfl⟩, fun _ _ => Nat.le_refl _⟩
  simp only [Locked.start, Guarded.outside.injEq] at hp
  subst hp
  exact h t

/-- The same if every request has one answer. -/
abbrev Locked.Inv (I : (Loc → Val) → Prop) (P : Req → Prop) (answer : Req → Ans) (result : Nat → α)
    (s : Locked Loc Val Req Ans α) : Prop :=
  s.InvOf I fun t p => AllRequests P answer p ∧ alone answer p = result t

theorem Locked.Inv.run {I : (Loc → Val) → Prop} {P : Req → Prop} {answer : Req → Ans} {result : Nat → α}
    {handler : Req → MemProg Loc Val Ans}
    (hh : ∀ o, P o → ∀ mem, I mem → (runAlone (handler o) mem).1 = answer o ∧ I (runAlone (handler o) mem).2)
    (events : List (Nat × Nat)) {s : Locked Loc Val Req Ans α} (h : s.Inv I P answer result) :
    (s.run handler events).Inv I P answer result := by
  refine Locked.InvOf.run (fun t o k hj mem hm => ?_) events h
  obtain ⟨r1, r2⟩ := hh o hj.1.1 mem hm
  rw [r1]
  exact ⟨⟨hj.1.2, hj.2⟩, r2⟩

theorem Locked.Inv.start [OfNat Val 0] {I : (Loc → Val) → Prop} {P : Req → Prop} {answer : Req → Ans}
    (h0 : I fun _ => 0) (programs : Nat → Prog Req Ans α) (h : ∀ t, AllRequests P answer (programs t)) :
    (Locked.start (Loc := Loc) (Val := Val) programs).Inv I P answer fun t => alone answer (programs t) :=
  Locked.InvOf.start h0 programs fun t => ⟨h t, rfl⟩

/-! ### Who owns the mutex -/

/-- The owner of the mutex is inside, and nobody else. -/
def Locked.Owns (s : Locked Loc Val Req Ans α) : Prop := ∀ t, Inside (s.threads t) ↔ s.owner = some t

theorem Locked.Owns.step {handler : Req → MemProg Loc Val Ans} {s : Locked Loc Val Req Ans α} (h : s.Owns)
    (e : Nat × Nat) : (s.step handler e).Owns := by
  obtain ⟨t, n⟩ := e
  have out : ∀ p : Prog Req Ans α, ¬ Inside (.outside p : Guarded Loc Val Req Ans α) := by
    rintro p ⟨q, k, e⟩; cases e
  have inn : ∀ (q : MemProg Loc Val Ans) (k : Ans → Prog Req Ans α), Inside (.inside q k) := fun q k => ⟨q, k, rfl⟩
  have ht := h t
  simp only [Locked.step]
  match hp : s.threads t with
  | .outside (.ret a) => exact h
  | .outside (.op o k) =>
    simp only
    match ho : s.owner with
    | some u => simp only; exact h
    | none =>
      intro u
      simp only
      by_cases q : u = t
      · simp [q, inn]
      · have := h u
        rw [ho] at this
        simp only [q, if_false, Option.some.injEq, this]
        simp [Ne.symm q]
  | .inside (.ret a) k =>
    rw [hp] at ht
    have ho := ht.1 (inn _ _)
    intro u
    simp only
    by_cases q : u = t
    · simp [q, out]
    · have := h u
      rw [ho] at this
      simp only [q, if_false, this]
      simp [Ne.symm q]
  | .inside (.op (.load l) q) k =>
    rw [hp] at ht
    intro u
    simp only
    by_cases e : u = t
    · simp only [e, if_true, inn, true_iff]; exact ht.1 (inn _ _)
    · simp only [e, if_false]; exact h u
  | .inside (.op (.store l v) q) k =>
    rw [hp] at ht
    intro u
    simp only
    by_cases e : u = t
    · simp only [e, if_true, inn, true_iff]; exact ht.1 (inn _ _)
    · simp only [e, if_false]; exact h u

theorem Locked.Owns.run {handler : Req → MemProg Loc Val Ans} (events : List (Nat × Nat)) :
    ∀ {s : Locked Loc Val Req Ans α}, s.Owns → (s.run handler events).Owns := by
  induction events with
  | nil => exact fun h => h
  | cons e es ih => exact fun h => ih (h.step e)

omit [DecidableEq Loc] in
theorem Locked.Owns.start [OfNat Val 0] (programs : Nat → Prog Req Ans α) :
    (Locked.start (Loc := Loc) (Val := Val) programs).Owns := by
  intro t
  simp [Locked.start, Inside]

theorem Locked.run_append (handler : Req → MemProg Loc Val Ans) (s : Locked Loc Val Req Ans α)
    (a b : List (Nat × Nat)) : s.run handler (a ++ b) = (s.run handler a).run handler b := by
  simp [Locked.run]

/-- The owner can always go on to unlock the mutex. -/
theorem Locked.unlocks (handler : Req → MemProg Loc Val Ans) (t : Nat) (q : MemProg Loc Val Ans)
    (k : Ans → Prog Req Ans α) : ∀ s : Locked Loc Val Req Ans α, s.threads t = .inside q k →
      ∃ events a, (s.run handler events).owner = none ∧
        (s.run handler events).threads = fun u => if u = t then .outside (k a) else s.threads u := by
  induction q with
  | ret a =>
    intro s hs
    refine ⟨[(t, 0)], a, ?_⟩
    simp only [Locked.run, List.foldl_cons, List.foldl_nil, Locked.step, hs]
    exact ⟨trivial, trivial⟩
  | op o q ih =>
    intro s hs
    have key : ∃ x, (s.step handler (t, 0)).threads = fun u => if u = t then .inside (q x) k else s.threads u := by
      cases o with
      | load l => exact ⟨_, by simp only [Locked.step, hs]; rfl⟩
      | store l v => exact ⟨_, by simp only [Locked.step, hs]; rfl⟩
    obtain ⟨x, hx⟩ := key
    obtain ⟨ev, a, h1, h2⟩ := ih x (s.step handler (t, 0)) (by rw [hx]; simp)
    refine ⟨(t, 0) :: ev, a, h1, ?_⟩
    refine h2.trans ?_
    rw [hx]
    funext u
    by_cases e : u = t <;> simp [e]

theorem Locked.returns (handler : Req → MemProg Loc Val Ans) (t : Nat) (p : Prog Req Ans α) :
    ∀ s : Locked Loc Val Req Ans α, s.owner = none → s.threads t = .outside p →
      ∃ events a, Returned ((s.run handler events).threads t) a := by
  induction p with
  | ret a => exact fun s _ hs => ⟨[], a, hs⟩
  | op o k ih =>
    intro s ho hs
    have e : (s.step handler (t, 0)).threads t = .inside (handler o) k := by
      simp only [Locked.step, hs, ho, if_true]
    obtain ⟨ev, a, h1, h2⟩ := Locked.unlocks handler t _ _ _ e
    obtain ⟨ev', b, h3⟩ := ih a ((s.step handler (t, 0)).run handler ev) h1 (by rw [h2]; simp)
    refine ⟨(t, 0) :: (ev ++ ev'), b, ?_⟩
    show Returned (((s.step handler (t, 0)).run handler (ev ++ ev')).threads t) b
    rw [Locked.run_append]
    exact h3

theorem Locked.no_deadlock (handler : Req → MemProg Loc Val Ans) {s : Locked Loc Val Req Ans α} (h : s.Owns) (t : Nat) :
    ∃ events a, Returned ((s.run handler events).threads t) a := by
  have key : ∃ events, (s.run handler events).owner = none := by
    match ho : s.owner with
    | none => exact ⟨[], ho⟩
    | some u =>
      obtain ⟨q, k, e⟩ := (h u).2 ho
      obtain ⟨ev, _, h1, _⟩ := Locked.unlocks handler u q k s e
      exact ⟨ev, h1⟩
  obtain ⟨ev, ho⟩ := key
  have h2 : (s.run handler ev).Owns := h.run ev
  match hp : (s.run handler ev).threads t with
  | .inside q k =>
    have := (h2 t).1 ⟨q, k, hp⟩
    rw [ho] at this; cases this
  | .outside p =>
    obtain ⟨ev', a, h3⟩ := Locked.returns handler t p _ ho hp
    exact ⟨ev ++ ev', a, by rw [Locked.run_append]; exact h3⟩

end

/-! ### A key of the 128-bit cipher that has been used -/

section
open Goost.Kuz

theorem warm_first (mem : CacheLoc → W64) {b : Blk} (high low : Blk)
    (h : Warm mem (BlkEncrypted b (Key.ofBlocks high low))) : mem (.loaded 1) ≠ 0 := by
  unfold BlkEncrypted Key.encrypt Key.ofBlocks at h
  simp only [Warm, warm_step] at h
  simpa using h.1.1.1.1.1.1.1.1.1.2

attribute [local irreducible] Safe BlkEncrypted in
theorem reads_after_first {α : Type} (m : Machine) (high low : Blk) (hh : Plain high) (hl : Plain low)
    (first r : W64 × W64) (mem : CacheLoc → W64)
    (hfirst : runAlone (evalBlk m (BlkEncrypted (BlkRaw.ofPair first) (Key.ofBlocks high low)))
      (fun _ => 0) = (.ok r, mem))
    (program : Prog Blk (Exec (W64 × W64)) α)
    (h : AllRequests (fun b => ∃ p, Plain p ∧ b = BlkEncrypted p (Key.ofBlocks high low)) (Blk.value m) program) :
    ReadsOnly mem (program.handle (evalBlk m)) ∧
      (runAlone (program.handle (evalBlk m)) mem).1 = alone (Blk.value m) program := by
  have own : ∀ p, Plain p → Owned (keyOwn (Key.ofBlocks high low) 0 fun _ => high)
      (BlkEncrypted p (Key.ofBlocks high low)) := fun p hp =>
    Owned.encrypted 0 hh.owned hl.owned hp.owned
  have hw := warm_after m _ (strict_encrypted (BlkRaw.ofPair first) trivial high low 0)
    (fun _ => 0) r (congrArg Prod.fst hfirst)
  have hsafe : ∀ p, Plain p → ∀ K, Safe (cacheDiscipline m (keyOwn (Key.ofBlocks high low) 0 fun _ => high))
      K (evalBlk m (BlkEncrypted p (Key.ofBlocks high low)))
      (· = (BlkEncrypted p (Key.ofBlocks high low)).value m) := by
    intro p hp
    exact evalBlk_safe m _ _ (own p hp)
  have hgood := (Safe.run_alone (hsafe (BlkRaw.ofPair first) trivial (fun _ => False)) (good_fresh m _)
    (fun _ h => h.elim)).2
  rw [hfirst] at hgood
  replace hw : Warm mem (BlkEncrypted (BlkRaw.ofPair first) (Key.ofBlocks high low)) := by
    have e : (runAlone (evalBlk m (BlkEncrypted (BlkRaw.ofPair first) (Key.ofBlocks high low)))
      (fun _ => 0)).2 = mem := by rw [hfirst]
    rw [← e]; exact hw
  have hwarm : ∀ p, Plain p → Warm mem (BlkEncrypted p (Key.ofBlocks high low)) := fun p hp =>
    (warm_encrypted mem p _).2 ⟨warm_plain mem p hp, ((warm_encrypted mem _ _).1 hw).2⟩
  constructor
  · induction program with
    | ret a => trivial
    | op o k ih =>
      obtain ⟨⟨p, hp, rfl⟩, hk⟩ := h
      refine ReadsOnly.bind (evalBlk_readsOnly m mem _ (hwarm p hp)) ?_
      rw [(Safe.run_alone (hsafe p hp (fun _ => False)) hgood (fun _ h => h.elim)).1]
      exact ih _ hk
  · have hall := Safe.handle (D := cacheDiscipline m (keyOwn (Key.ofBlocks high low) 0 fun _ => high))
      (P := fun b => ∃ p, Plain p ∧ b = BlkEncrypted p (Key.ofBlocks high low)) (answer := Blk.value m)
      (h := evalBlk m) (by rintro o ⟨p, hp, rfl⟩ K; exact hsafe p hp K) program h (fun _ => False)
    exact (Safe.run_alone hall hgood (fun _ h => h.elim)).1

end
end Goost.Conc
