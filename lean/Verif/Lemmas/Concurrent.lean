import Verif.Spec.Concurrent
import Verif.Spec.Caches
/-
Threads over shared memory: a discipline under which every location is either untouched or holds its
final value.
-/
namespace Goost.Conc
open Spec

variable {Loc Val α β : Type} {Op Res : Type}

/-! ### programs -/

theorem bindE_ret (r : Exec α) (f : α → Prog Op Res (Exec β)) :
    (Prog.ret r).bindE f = match r with
      | .ok a => f a
      | .throw e => .ret (.throw e)
      | .ub u => .ret (.ub u)
      | .diverge => .ret .diverge := rfl

theorem alone_bind (answer : Op → Res) (p : Prog Op Res α) (f : α → Prog Op Res β) :
    alone answer (p.bind f) = alone answer (f (alone answer p)) := by
  induction p with
  | ret a => rfl
  | op o k ih => exact ih (answer o)

theorem alone_bindE (answer : Op → Res) (p : Prog Op Res (Exec α))
    (f : α → Prog Op Res (Exec β)) :
    alone answer (p.bindE f) = (alone answer p >>= fun a => alone answer (f a)) := by
  rw [Prog.bindE, alone_bind]
  cases alone answer p <;> rfl

/-! ### the discipline -/

/-- Every location has an initial and possibly a final value; a location that has left its initial
value guarantees that the locations it guards hold their final values. -/
structure Discipline (Loc Val : Type) where
  init : Loc → Val
  final : Loc → Option Val
  guards : Loc → Loc → Prop

/-- Whatever the other threads do by the discipline, the program keeps it and ends with `post`; `K` are
the locations known to hold their final values. -/
def Safe (D : Discipline Loc Val) : (Loc → Prop) → MemProg Loc Val α → (α → Prop) → Prop
  | _, .ret a, post => post a
  | K, .op (.load l) k, post =>
    ∀ x, (¬ K l ∧ x = D.init l ∨ D.final l = some x) →
      Safe D (fun l' => K l' ∨ (x ≠ D.init l ∧ D.guards l l')) (k x) post
  | K, .op (.store l x) k, post =>
    D.final l = some x ∧ (∀ l', D.guards l l' → K l') ∧ Safe D (fun l' => K l' ∨ l' = l) (k x) post

theorem Safe.bind {D : Discipline Loc Val} {p : MemProg Loc Val α} {f : α → MemProg Loc Val β}
    {post : α → Prop} {post' : β → Prop} {K : Loc → Prop} (h : Safe D K p post)
    (hf : ∀ a, post a → ∀ K, Safe D K (f a) post') : Safe D K (p.bind f) post' := by
  induction p generalizing K with
  | ret a => exact hf a h K
  | op o k ih =>
    cases o with
    | load l => exact fun x hx => ih x (h x hx)
    | store l x => exact ⟨h.1, h.2.1, ih x h.2.2⟩

theorem Safe.bindE {D : Discipline Loc Val} {p : MemProg Loc Val (Exec α)}
    {f : α → MemProg Loc Val (Exec β)} {x : Exec α} {y : α → Exec β} {K : Loc → Prop}
    (h : Safe D K p (· = x))
    (hf : ∀ a, x = .ok a → ∀ K, Safe D K (f a) (· = y a)) :
    Safe D K (p.bindE f) (· = (x >>= y)) := by
  refine h.bind ?_
  rintro a rfl K
  cases a with
  | ok a => exact hf a rfl K
  | throw e => exact rfl
  | ub u => exact rfl
  | diverge => exact rfl

theorem Safe.handle {D : Discipline Loc Val} {h : Op → MemProg Loc Val Res} {answer : Op → Res}
    {P : Op → Prop} (hh : ∀ o, P o → ∀ K, Safe D K (h o) (· = answer o))
    (p : Prog Op Res α) (hp : AllRequests P answer p) :
    ∀ K, Safe D K (p.handle h) (· = alone answer p) := by
  induction p with
  | ret a => intro K; exact rfl
  | op o k ih =>
    intro K
    refine (hh o hp.1 K).bind ?_
    rintro a rfl K
    exact ih (answer o) hp.2 K

/-- The memory keeps the discipline. -/
structure Good (D : Discipline Loc Val) (mem : Loc → Val) : Prop where
  value : ∀ l, mem l = D.init l ∨ D.final l = some (mem l)
  guard : ∀ l l', D.guards l l' → mem l ≠ D.init l → D.final l' = some (mem l')

theorem Good.init (D : Discipline Loc Val) : Good D D.init :=
  ⟨fun _ => .inl rfl, fun _ _ _ h => absurd rfl h⟩

variable [DecidableEq Loc]

/-- Everything is by the discipline, thread `t` being about to end with `post t`. -/
def SysSafe (D : Discipline Loc Val) (post : Nat → α → Prop) (s : Sys Loc Val α) : Prop :=
  Good D s.mem ∧ ∀ t, ∃ K, (∀ l, K l → D.final l = some (s.mem l)) ∧ Safe D K (s.threads t) (post t)

theorem SysSafe.step {D : Discipline Loc Val} {post : Nat → α → Prop} {s : Sys Loc Val α}
    (h : SysSafe D post s) (t : Nat) : SysSafe D post (s.step t) := by
  obtain ⟨hg, hall⟩ := h
  obtain ⟨K, hK, hs⟩ := hall t
  unfold Sys.step
  match hp : s.threads t with
  | .ret a => exact ⟨hg, hall⟩
  | .op (.load l) k =>
    rw [hp] at hs
    refine ⟨hg, fun u => ?_⟩
    by_cases hu : u = t
    · subst hu
      simp only [if_true]
      refine ⟨_, ?_, hs (s.mem l) ?_⟩
      · rintro l' (h' | ⟨h1, h2⟩)
        · exact hK l' h'
        · exact hg.guard l l' h2 h1
      · by_cases hkl : K l
        · exact .inr (hK l hkl)
        · rcases hg.value l with h1 | h1
          · exact .inl ⟨hkl, h1⟩
          · exact .inr h1
    · simp only [hu, if_false]
      exact hall u
  | .op (.store l x) k =>
    rw [hp] at hs
    obtain ⟨hf, hgd, hs⟩ := hs
    have stable : ∀ l', D.final l' = some (s.mem l') →
        D.final l' = some (if l' = l then x else s.mem l') := by
      intro l' h'
      by_cases e : l' = l
      · rw [if_pos e, e, hf]
      · rw [if_neg e, h']
    refine ⟨⟨fun l' => ?_, fun l1 l2 hgu hne => ?_⟩, fun u => ?_⟩
    · by_cases e : l' = l
      · right; simp only [e, if_true, hf]
      · simp only [e, if_false]; exact hg.value l'
    · by_cases e : l1 = l
      · subst e
        exact stable l2 (hK l2 (hgd l2 hgu))
      · simp only [e, if_false] at hne
        exact stable l2 (hg.guard l1 l2 hgu hne)
    · by_cases hu : u = t
      · subst hu
        simp only [if_true]
        refine ⟨_, ?_, hs⟩
        rintro l' (h' | rfl)
        · exact stable l' (hK l' h')
        · simp [hf]
      · simp only [hu, if_false]
        obtain ⟨K', hK', hs'⟩ := hall u
        exact ⟨K', fun l' h' => stable l' (hK' l' h'), hs'⟩

theorem SysSafe.run {D : Discipline Loc Val} {post : Nat → α → Prop} {s : Sys Loc Val α}
    (h : SysSafe D post s) (schedule : List Nat) : SysSafe D post (s.run schedule) := by
  induction schedule generalizing s with
  | nil => exact h
  | cons t ts ih => exact ih (h.step t)

theorem SysSafe.result {D : Discipline Loc Val} {post : Nat → α → Prop} {s : Sys Loc Val α}
    (h : SysSafe D post s) (schedule : List Nat) {t : Nat} {a : α}
    (hr : (s.run schedule).threads t = .ret a) : post t a := by
  obtain ⟨-, hall⟩ := h.run schedule
  obtain ⟨K, -, hs⟩ := hall t
  rw [hr] at hs
  exact hs

/-! ### every thread that gets enough turns returns -/

theorem step_other {s : Sys Loc Val α} {t u : Nat} (h : u ≠ t) :
    (s.step t).threads u = s.threads u := by
  unfold Sys.step
  split <;> simp [h]

theorem run_append (s : Sys Loc Val α) (a b : List Nat) : s.run (a ++ b) = (s.run a).run b := by
  simp [Sys.run]

theorem run_other {s : Sys Loc Val α} {t : Nat} (schedule : List Nat) (h : t ∉ schedule) :
    (s.run schedule).threads t = s.threads t := by
  induction schedule generalizing s with
  | nil => rfl
  | cons u us ih =>
    simp only [List.mem_cons, not_or] at h
    exact (ih (s := s.step u) h.2).trans (step_other h.1)

theorem firstTurns_succ (schedule : Nat → Nat) (n : Nat) :
    firstTurns schedule (n + 1) = firstTurns schedule n ++ [schedule n] := by
  simp [firstTurns, List.range_succ]

theorem returns_from (schedule : Nat → Nat) (t : Nat) (h : InfinitelyOften t schedule)
    (s : Sys Loc Val α) (p : MemProg Loc Val α) :
    ∀ n, (s.run (firstTurns schedule n)).threads t = p →
      ∃ n' a, (s.run (firstTurns schedule n')).threads t = .ret a := by
  induction p with
  | ret a => exact fun n hn => ⟨n, a, hn⟩
  | op o k ih =>
    intro n hn
    obtain ⟨i, hi, hti⟩ := h n
    -- the first turn of `t` from `n` on
    have hex : ∃ j, n ≤ j ∧ schedule j = t ∧ (s.run (firstTurns schedule j)).threads t = .op o k := by
      have aux : ∀ d n, n + d = i → (s.run (firstTurns schedule n)).threads t = .op o k →
          ∃ j, n ≤ j ∧ schedule j = t ∧ (s.run (firstTurns schedule j)).threads t = .op o k := by
        intro d
        induction d with
        | zero => intro n e hn; exact ⟨n, Nat.le_refl _, by rw [← hti, ← e]; rfl, hn⟩
        | succ d ihd =>
          intro n e hn
          by_cases hs : schedule n = t
          · exact ⟨n, Nat.le_refl _, hs, hn⟩
          · obtain ⟨j, h1, h2, h3⟩ := ihd (n + 1) (by omega) (by
              rw [firstTurns_succ, run_append]
              exact (step_other (fun e => hs e.symm)).trans hn)
            exact ⟨j, by omega, h2, h3⟩
      exact aux (i - n) n (by omega) hn
    obtain ⟨j, -, hsj, hj⟩ := hex
    have hstep : s.run (firstTurns schedule (j + 1)) = (s.run (firstTurns schedule j)).step t := by
      rw [firstTurns_succ, run_append, hsj]; rfl
    cases o with
    | load l =>
      refine ih ((s.run (firstTurns schedule j)).mem l) (j + 1) ?_
      rw [hstep, Sys.step, hj]
      simp
    | store l v =>
      refine ih v (j + 1) ?_
      rw [hstep, Sys.step, hj]
      simp

/-! ### a thread running alone -/

theorem runAlone_bind (p : MemProg Loc Val α) (f : α → MemProg Loc Val β) (mem : Loc → Val) :
    runAlone (p.bind f) mem = runAlone (f (runAlone p mem).1) (runAlone p mem).2 := by
  induction p generalizing mem with
  | ret a => rfl
  | op o k ih =>
    cases o with
    | load l => exact ih _ mem
    | store l v => exact ih _ _

theorem runAlone_bindE (p : MemProg Loc Val (Exec α)) (f : α → MemProg Loc Val (Exec β))
    (mem : Loc → Val) :
    runAlone (p.bindE f) mem = match (runAlone p mem).1 with
      | .ok a => runAlone (f a) (runAlone p mem).2
      | .throw e => (.throw e, (runAlone p mem).2)
      | .ub u => (.ub u, (runAlone p mem).2)
      | .diverge => (.diverge, (runAlone p mem).2) := by
  rw [Prog.bindE, runAlone_bind]
  cases (runAlone p mem).1 <;> rfl

/-- A thread whose program starts with `p` gets to the end of `p` in some number of own turns. -/
theorem run_own_turns (t : Nat) (p : MemProg Loc Val β) (f : β → MemProg Loc Val α) :
    ∀ s : Sys Loc Val α, s.threads t = p.bind f →
      ∃ n, (s.run (List.replicate n t)).threads t = f (runAlone p s.mem).1 ∧
        (s.run (List.replicate n t)).mem = (runAlone p s.mem).2 := by
  induction p with
  | ret a => exact fun s hs => ⟨0, hs, rfl⟩
  | op o k ih =>
    intro s hs
    cases o with
    | load l =>
      have e : s.step t = ⟨fun u => if u = t then (k (s.mem l)).bind f else s.threads u, s.mem⟩ := by
        rw [Sys.step, hs]; rfl
      obtain ⟨n, h1, h2⟩ := ih (s.mem l) (s.step t) (by simp [e])
      refine ⟨n + 1, ?_, ?_⟩
      · rw [List.replicate_succ]
        show ((s.step t).run _).threads t = _
        rw [h1, e]; rfl
      · rw [List.replicate_succ]
        show ((s.step t).run _).mem = _
        rw [h2, e]; rfl
    | store l v =>
      have e : s.step t = ⟨fun u => if u = t then (k v).bind f else s.threads u,
          fun l' => if l' = l then v else s.mem l'⟩ := by
        rw [Sys.step, hs]; rfl
      obtain ⟨n, h1, h2⟩ := ih v (s.step t) (by simp [e])
      refine ⟨n + 1, ?_, ?_⟩
      · rw [List.replicate_succ]
        show ((s.step t).run _).threads t = _
        rw [h1, e]; rfl
      · rw [List.replicate_succ]
        show ((s.step t).run _).mem = _
        rw [h2, e]; rfl

/-- A program that keeps the discipline keeps it when it runs alone. -/
theorem Safe.run_alone {D : Discipline Loc Val} {post : α → Prop} {p : MemProg Loc Val α} :
    ∀ {K : Loc → Prop} {mem : Loc → Val}, Safe D K p post → Good D mem →
      (∀ l, K l → D.final l = some (mem l)) →
      post (Spec.runAlone p mem).1 ∧ Good D (Spec.runAlone p mem).2 := by
  intro K mem h hg hK
  let s : Sys Loc Val α := ⟨fun _ => p, mem⟩
  have hs : SysSafe D (fun _ => post) ⟨fun t => if t = 0 then p.bind .ret else p, mem⟩ := by
    refine ⟨hg, fun t => ⟨K, hK, ?_⟩⟩
    by_cases e : t = 0
    · simp only [e, if_true]
      exact h.bind fun a ha K => ha
    · simp only [e, if_false]; exact h
  obtain ⟨n, h1, h2⟩ := run_own_turns 0 p .ret
    ⟨fun t => if t = 0 then p.bind .ret else p, mem⟩ rfl
  have hr := hs.run (List.replicate n 0)
  refine ⟨hs.result _ h1, ?_⟩
  have := hr.1
  rwa [h2] at this

/-! ### programs that only read -/

/-- The program makes no store, the memory being as it is. -/
def ReadsOnly (mem : Loc → Val) : MemProg Loc Val α → Prop
  | .ret _ => True
  | .op (.load l) k => ReadsOnly mem (k (mem l))
  | .op (.store _ _) _ => False

theorem ReadsOnly.bind {mem : Loc → Val} {p : MemProg Loc Val α} {f : α → MemProg Loc Val β}
    (h : ReadsOnly mem p) (hf : ReadsOnly mem (f (Spec.runAlone p mem).1)) :
    ReadsOnly mem (p.bind f) := by
  induction p with
  | ret a => exact hf
  | op o k ih =>
    cases o with
    | load l => exact ih _ h hf
    | store l v => exact h.elim

theorem readsOnly_step {s : Sys Loc Val α} (h : ∀ t, ReadsOnly s.mem (s.threads t)) (t : Nat) :
    (s.step t).mem = s.mem ∧ ∀ u, ReadsOnly (s.step t).mem ((s.step t).threads u) := by
  have ht := h t
  unfold Sys.step
  match hp : s.threads t with
  | .ret a => exact ⟨rfl, h⟩
  | .op (.load l) k =>
    rw [hp] at ht
    refine ⟨rfl, fun u => ?_⟩
    by_cases hu : u = t
    · simp only [hu, if_true]; exact ht
    · simpa [hu] using h u
  | .op (.store l v) k => rw [hp] at ht; exact ht.elim

theorem readsOnly_run {s : Sys Loc Val α} (h : ∀ t, ReadsOnly s.mem (s.threads t))
    (schedule : List Nat) :
    (s.run schedule).mem = s.mem ∧ ∀ u, ReadsOnly (s.run schedule).mem ((s.run schedule).threads u) := by
  induction schedule generalizing s with
  | nil => exact ⟨rfl, h⟩
  | cons t ts ih =>
    obtain ⟨h1, h2⟩ := readsOnly_step h t
    obtain ⟨h3, h4⟩ := ih h2
    exact ⟨h3.trans h1, h4⟩

omit [DecidableEq Loc] in
theorem readsOnly_no_race {s : Sys Loc Val α} (h : ∀ t, ReadsOnly s.mem (s.threads t)) :
    ¬ s.Race := by
  rintro ⟨t, u, l, w1, w2, -, h1, h2, h3⟩
  have aux : ∀ t w, Sys.next (s.threads t) = some (l, w) → w = false := by
    intro t w hw
    have ht := h t
    match hp : s.threads t with
    | .ret a => rw [hp] at hw; simp [Sys.next] at hw
    | .op (.load l') k => rw [hp] at hw; simp [Sys.next] at hw; first | exact hw.2 | exact hw.2.symm
    | .op (.store l' v) k => rw [hp] at ht; exact ht.elim
  rcases h3 with h3 | h3
  · rw [aux t w1 h1] at h3; cases h3
  · rw [aux u w2 h2] at h3; cases h3

end Goost.Conc
