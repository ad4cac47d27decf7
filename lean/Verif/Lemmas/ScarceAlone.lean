import Verif.Lemmas.ScarceThreads
import Verif.Lemmas.KuzConc
import Verif.Lemmas.KuzToken
import Verif.Model.ScarceKuz
/-
A thread that is alone: its accesses to shared memory are the caches of Model/ScarceKuz.
-/
namespace Goost.Conc
open Spec Goost.Kuz ScarceProg

variable {α β W : Type}

/-- The outcome of a program alone and that of the sequential model. -/
def SameEnd (w : W) (r : Exec (α × Nat) × (CacheLoc → W64)) (q : Exec α × (Nat × (Caches × W))) : Prop :=
  q.2.2 = (cachesOf r.2, w) ∧
  match r.1 with
  | .ok v => q.1 = .ok v.1 ∧ q.2.1 = v.2
  | .throw e => q.1 = .throw e
  | .ub u => q.1 = .ub u
  | .diverge => q.1 = .diverge

/-- They do the same when started in the same state. -/
def SimAlone (p : ScarceProg CacheLoc W64 α) (q : Io (Nat × (Caches × W)) α) : Prop :=
  ∀ n mem w, SameEnd w (runAlone (p n) mem) (q (n, (cachesOf mem, w)))

theorem SimAlone.result (r : Exec α) : SimAlone (W := W) (result r) (Io.lift r) := by
  intro n mem w
  cases r with
  | ok a => exact ⟨rfl, rfl, rfl⟩
  | throw e => exact ⟨rfl, rfl⟩
  | ub u => exact ⟨rfl, rfl⟩
  | diverge => exact ⟨rfl, rfl⟩

theorem SimAlone.request {p : ScarceProg CacheLoc W64 α} {q : Io (Nat × (Caches × W)) α} (h : SimAlone p q) :
    SimAlone (request p) (Scarce.alloc >>= fun _ => q) := by
  intro n mem w
  cases n with
  | zero => exact ⟨rfl, rfl⟩
  | succ n => exact h n mem w

theorem SimAlone.andThen {p : ScarceProg CacheLoc W64 α} {q : Io (Nat × (Caches × W)) α}
    {f : α → ScarceProg CacheLoc W64 β} {g : α → Io (Nat × (Caches × W)) β} (h : SimAlone p q)
    (hf : ∀ a, SimAlone (f a) (g a)) : SimAlone (p.andThen f) (q >>= g) := by
  intro n mem w
  have h := h n mem w
  rw [ScarceProg.andThen, runAlone_bindE, Io.bind_def, Io.bind]
  rcases hq : q (n, (cachesOf mem, w)) with ⟨r, n', c⟩
  rw [hq] at h
  obtain ⟨h1, h2⟩ := h
  cases h3 : (runAlone (p n) mem).1 with
  | ok v =>
    rw [h3] at h2
    obtain ⟨e1, e2⟩ := h2
    simp only at e1 e2 h1
    subst e1 e2 h1
    exact hf v.1 v.2 _ w
  | throw e => rw [h3] at h2; simp only at h2 h1; subst h2 h1; exact ⟨rfl, rfl⟩
  | ub e => rw [h3] at h2; simp only at h2 h1; subst h2 h1; exact ⟨rfl, rfl⟩
  | diverge => rw [h3] at h2; simp only at h2 h1; subst h2 h1; exact ⟨rfl, rfl⟩

theorem evalBlkScarce_alone (m : Machine) (b : Kuz.Blk) :
    SimAlone (evalBlkScarce m b) (ScarceKuz.Blk.value m (still W b)) := by
  induction b with
  | raw low high => exact (SimAlone.result _).request
  | str s => exact (SimAlone.result _).request
  | xored a b iha ihb => exact (iha.andThen fun va => ihb.andThen fun vb => SimAlone.result _).request
  | blkS b ih => exact (ih.andThen fun v => SimAlone.result _).request
  | blkR b ih => exact (ih.andThen fun v => SimAlone.result _).request
  | incremented b ih => exact (ih.andThen fun v => SimAlone.result _).request
  | shifted b n ih => exact (ih.andThen fun v => SimAlone.result _).request
  | xoredIfHighBit a b iha ihb =>
    refine (iha.andThen fun va => ?_).request
    refine SimAlone.request ?_
    split
    · exact iha.andThen fun v => SimAlone.result _
    · exact iha.andThen fun v => (SimAlone.result _).andThen fun s => ihb.andThen fun vb => SimAlone.result _
  | cached id b ih =>
    intro n mem w
    simp only [evalBlkScarce, access, runAlone, ScarceKuz.Blk.value, still]
    by_cases h0 : mem (.loaded id) = 0
    · have hc : cachesOf mem id = none := by simp [cachesOf, h0]
      rw [if_neg (by simpa using h0), hc]
      simp only [ScarceProg.andThen, runAlone_bindE]
      have h := ih n mem w
      rcases hq : ScarceKuz.Blk.value m (still W b) (n, (cachesOf mem, w)) with ⟨r, n', c⟩
      rw [hq] at h
      obtain ⟨h1, h2⟩ := h
      cases h3 : (runAlone (evalBlkScarce m b n) mem).1 with
      | ok v =>
        rw [h3] at h2
        obtain ⟨e1, e2⟩ := h2
        simp only at e1 e2 h1
        subst e1 e2 h1
        refine ⟨?_, ?_⟩
        · simp only [access, runAlone, readState, plain, Prog.bindE, Prog.bind]
          refine Prod.ext ?_ rfl
          funext i
          by_cases e : i = id
          · subst e; simp [cachesOf]
          · simp [cachesOf, e]
        · simp [access, runAlone, readState, plain, Prog.bindE, Prog.bind]
      | throw e => rw [h3] at h2; simp only at h2 h1; subst h2 h1; exact ⟨rfl, rfl⟩
      | ub e => rw [h3] at h2; simp only at h2 h1; subst h2 h1; exact ⟨rfl, rfl⟩
      | diverge => rw [h3] at h2; simp only at h2 h1; subst h2 h1; exact ⟨rfl, rfl⟩
    · have hc : cachesOf mem id = some (mem (.low id), mem (.high id)) := by
        simp only [cachesOf, ne_eq, h0, not_false_eq_true, if_true]
      rw [if_pos (by simpa using h0), hc]
      exact ⟨rfl, rfl, rfl⟩
  | user v => exact (SimAlone.result _).request

end Goost.Conc
