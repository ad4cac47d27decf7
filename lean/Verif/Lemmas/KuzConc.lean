import Verif.Lemmas.Concurrent
import Verif.Lemmas.KuzStream
/-
Threads sharing kuznyechik caches.
-/
namespace Goost.Conc
open Spec Goost.Kuz

/-- Every cache is untouched or holds the value of its block. -/
def cacheDiscipline (m : Machine) (own : Nat → Blk) : Discipline CacheLoc W64 where
  init _ := 0
  final l :=
    match l with
    | .loaded id => match (own id).value m with
      | .ok _ => some 1
      | _ => none
    | .low id => match (own id).value m with
      | .ok v => some v.1
      | _ => none
    | .high id => match (own id).value m with
      | .ok v => some v.2
      | _ => none
  guards l l' :=
    match l with
    | .loaded id => l' = .low id ∨ l' = .high id
    | _ => False

theorem readState_safe (m : Machine) (own : Nat → Blk) (id : Nat) {K : CacheLoc → Prop}
    (h1 : K (.low id)) (h2 : K (.high id)) :
    Safe (cacheDiscipline m own) K (readState id) (· = (own id).value m) := by
  intro x hx
  rcases hx with ⟨hx, -⟩ | hx
  · exact absurd h1 hx
  intro y hy
  rcases hy with ⟨hy, -⟩ | hy
  · exact absurd (.inl h2) hy
  simp only [cacheDiscipline] at hx hy
  show Exec.ok (x, y) = _
  cases hv : (own id).value m with
  | ok v =>
    rw [hv] at hx hy
    simp only [Option.some.injEq] at hx hy
    rw [← hx, ← hy]
  | throw e => rw [hv] at hx; simp at hx
  | ub u => rw [hv] at hx; simp at hx
  | diverge => rw [hv] at hx; simp at hx

theorem evalBlk_safe (m : Machine) (own : Nat → Blk) (b : Blk) (hb : Owned own b) :
    ∀ K, Safe (cacheDiscipline m own) K (evalBlk m b) (· = b.value m) := by
  induction b with
  | raw low high => intro K; exact rfl
  | str s => intro K; exact rfl
  | xored a b iha ihb =>
    intro K
    simp only [evalBlk, Blk.value]
    exact (iha hb.1 K).bindE fun va _ K => (ihb hb.2 K).bindE fun vb _ K => rfl
  | blkS b ih =>
    intro K
    simp only [evalBlk, Blk.value]
    exact (ih hb K).bindE fun v _ K => rfl
  | blkR b ih =>
    intro K
    simp only [evalBlk, Blk.value]
    exact (ih hb K).bindE fun v _ K => rfl
  | incremented b ih =>
    intro K
    simp only [evalBlk, Blk.value]
    exact (ih hb K).bindE fun v _ K => rfl
  | shifted b n ih =>
    intro K
    simp only [evalBlk, Blk.value]
    exact (ih hb K).bindE fun v _ K => rfl
  | xoredIfHighBit a b iha ihb =>
    intro K
    simp only [evalBlk, Blk.value]
    refine (iha hb.1 K).bindE fun va _ K => ?_
    split
    · exact (iha hb.1 K).bindE fun v _ K => rfl
    · refine (iha hb.1 K).bindE fun v _ K => ?_
      refine Safe.bindE (x := shiftValue v 1) (K := K) rfl fun s _ K => ?_
      exact (ihb hb.2 K).bindE fun v _ K => rfl
  | cached id b ih =>
    intro K
    simp only [evalBlk, Blk.value]
    intro x hx
    show Safe _ _ (if x ≠ 0 then _ else _) _
    by_cases h0 : x = 0
    · rw [if_neg (by simpa using h0)]
      have hr : b.value m = (b.value m >>= fun v => .ok v) := by cases b.value m <;> rfl
      rw [hr]
      refine (ih hb.2 _).bindE fun v hv K => ?_
      have hv' : (own id).value m = .ok v := by rw [hb.1]; exact hv
      have e1 : (cacheDiscipline m own).final (.low id) = some v.1 := by
        simp only [cacheDiscipline, hv']
      have e2 : (cacheDiscipline m own).final (.high id) = some v.2 := by
        simp only [cacheDiscipline, hv']
      have e3 : (cacheDiscipline m own).final (.loaded id) = some 1 := by
        simp only [cacheDiscipline, hv']
      refine ⟨e1, fun l h => h.elim, e2, fun l h => h.elim, e3, ?_, ?_⟩
      · rintro l (rfl | rfl)
        · exact .inl (.inr rfl)
        · exact .inr rfl
      · rw [← hv']
        exact readState_safe m own id (.inl (.inl (.inr rfl))) (.inl (.inr rfl))
    · rw [if_pos (by simpa using h0), ← hb.1]
      exact readState_safe m own id (.inr ⟨h0, .inl rfl⟩) (.inr ⟨h0, .inr rfl⟩)
  | user v => intro K; exact rfl

/-- The memory of fresh caches. -/
theorem good_fresh (m : Machine) (own : Nat → Blk) :
    Good (cacheDiscipline m own) (fun _ => 0) := Good.init (cacheDiscipline m own)

/-! ### a thread running alone: the sequential model -/

/-- The caches as the sequential model has them. -/
def cachesOf (mem : CacheLoc → W64) : Caches := fun id =>
  if mem (.loaded id) ≠ 0 then some (mem (.low id), mem (.high id)) else none

theorem runAlone_valueS (m : Machine) (b : Blk) :
    ∀ mem, b.valueS m (cachesOf mem) =
      ((runAlone (evalBlk m b) mem).1, cachesOf (runAlone (evalBlk m b) mem).2) := by
  induction b with
  | raw low high => intro mem; rfl
  | str s => intro mem; rfl
  | xored a b iha ihb =>
    intro mem
    simp only [Blk.valueS, evalBlk, runAlone_bindE, iha mem]
    cases (runAlone (evalBlk m a) mem).1 with
    | ok va =>
      simp only [ihb]
      cases (runAlone (evalBlk m b) (runAlone (evalBlk m a) mem).2).1 <;> rfl
    | throw e => rfl
    | ub u => rfl
    | diverge => rfl
  | blkS b ih =>
    intro mem
    simp only [Blk.valueS, evalBlk, runAlone_bindE, ih mem]
    cases (runAlone (evalBlk m b) mem).1 <;> rfl
  | blkR b ih =>
    intro mem
    simp only [Blk.valueS, evalBlk, runAlone_bindE, ih mem]
    cases (runAlone (evalBlk m b) mem).1 <;> rfl
  | incremented b ih =>
    intro mem
    simp only [Blk.valueS, evalBlk, runAlone_bindE, ih mem]
    cases (runAlone (evalBlk m b) mem).1 <;> rfl
  | shifted b n ih =>
    intro mem
    simp only [Blk.valueS, evalBlk, runAlone_bindE, ih mem]
    cases (runAlone (evalBlk m b) mem).1 <;> rfl
  | xoredIfHighBit a b iha ihb =>
    intro mem
    simp only [Blk.valueS, evalBlk, runAlone_bindE, iha mem]
    cases (runAlone (evalBlk m a) mem).1 with
    | ok va =>
      simp only [iha]
      cases h : (runAlone (evalBlk m a) (runAlone (evalBlk m a) mem).2).1 with
      | ok v =>
        simp only
        split
        · rw [runAlone_bindE, h]; rfl
        · rw [runAlone_bindE, h]
          simp only [bindE_ret]
          cases shiftValue v 1 with
          | ok s =>
            simp only [runAlone_bindE, ihb]
            cases (runAlone (evalBlk m b) _).1 <;> rfl
          | throw e => rfl
          | ub u => rfl
          | diverge => rfl
      | throw e => simp only; split <;> rw [runAlone_bindE, h]
      | ub e => simp only; split <;> rw [runAlone_bindE, h]
      | diverge => simp only; split <;> rw [runAlone_bindE, h]
    | throw e => rfl
    | ub u => rfl
    | diverge => rfl
  | cached id b ih =>
    intro mem
    simp only [Blk.valueS, evalBlk, runAlone]
    by_cases h0 : mem (.loaded id) = 0
    · rw [if_neg (by simpa using h0), runAlone_bindE]
      have hc : cachesOf mem id = none := by simp [cachesOf, h0]
      rw [hc]
      simp only [ih mem]
      cases h : (runAlone (evalBlk m b) mem).1 with
      | ok v =>
        simp only [runAlone, readState]
        refine Prod.ext (by simp) ?_
        funext i
        by_cases e : i = id
        · subst e; simp [cachesOf]
        · simp [cachesOf, e]
      | throw e => rfl
      | ub u => rfl
      | diverge => rfl
    · rw [if_pos (by simpa using h0)]
      simp only [cachesOf, ne_eq, h0, not_false_eq_true, if_true, readState, runAlone]
  | user v => intro mem; rfl

/-! ### races -/

theorem race_of_fresh (m : Machine) {α : Type} (s : Sys CacheLoc W64 α) (t u : Nat) (htu : t ≠ u)
    (id : Nat) (b : Blk) (f g : Exec (W64 × W64) → MemProg CacheLoc W64 α)
    (ht : s.threads t = (evalBlk m (.cached id b)).bind f)
    (hu : s.threads u = (evalBlk m (.cached id b)).bind g)
    (h0 : s.mem (.loaded id) = 0) (v : W64 × W64)
    (hv : (runAlone (evalBlk m b) s.mem).1 = .ok v) :
    ∃ n, (s.run (List.replicate n t)).Race := by
  have hu' : ∀ n, (s.run (List.replicate n t)).threads u = s.threads u := fun n =>
    run_other _ (by simp [List.mem_replicate]; exact fun _ h => htu h.symm)
  -- the program of `t` up to the store of `loaded`
  let p : MemProg CacheLoc W64 (Exec (W64 × W64)) :=
    .op (.load (.loaded id)) fun _ => evalBlk m b
  let rest : Exec (W64 × W64) → MemProg CacheLoc W64 (Exec (W64 × W64)) := fun r =>
    (Prog.ret r).bindE fun v => .op (.store (.low id) v.1) fun _ =>
      .op (.store (.high id) v.2) fun _ => .op (.store (.loaded id) 1) fun _ => readState id
  have hstep : s.step t = ⟨fun w => if w = t then
      ((evalBlk m b).bind rest).bind f else s.threads w, s.mem⟩ := by
    rw [Sys.step, ht]
    simp only [evalBlk, Prog.bind, h0, ne_eq, not_true_eq_false, if_false]
    rfl
  have assoc : ∀ (q : MemProg CacheLoc W64 (Exec (W64 × W64))),
      (q.bind rest).bind f = q.bind fun r => (rest r).bind f := by
    intro q
    induction q with
    | ret a => rfl
    | op o k ih => simp only [Prog.bind, ih]
  rw [assoc] at hstep
  obtain ⟨n, h1, h2⟩ := run_own_turns t (evalBlk m b) (fun r => (rest r).bind f) (s.step t)
    (by simp [hstep])
  have e : s.run (List.replicate (n + 1) t) = (s.step t).run (List.replicate n t) := by
    rw [List.replicate_succ]; rfl
  have hm : (s.step t).mem = s.mem := by rw [hstep]
  rw [hm, hv] at h1
  -- two more own turns: `low` and `high`
  refine ⟨n + 3, t, u, .loaded id, true, false, htu, ?_, ?_, .inl rfl⟩
  · have e3 : s.run (List.replicate (n + 3) t) =
        ((s.run (List.replicate (n + 1) t)).step t).step t := by
      rw [show n + 3 = (n + 1) + 1 + 1 by omega, List.replicate_succ', run_append,
        List.replicate_succ', run_append]
      rfl
    rw [e3, e]
    have s1 : ((s.step t).run (List.replicate n t)).step t = ⟨fun w => if w = t then
        (Prog.op (.store (.high id) v.2) fun _ => Prog.op (.store (.loaded id) 1) fun _ =>
          (readState id).bind f)
        else ((s.step t).run (List.replicate n t)).threads w,
        fun l' => if l' = .low id then v.1 else ((s.step t).run (List.replicate n t)).mem l'⟩ := by
      rw [Sys.step, h1]
      rfl
    rw [s1]
    simp [Sys.step, Sys.next]
  · rw [hu', hu]
    rfl

/-! ### no races once the caches are loaded -/

/-- The outermost caches of the block are loaded. -/
def Warm (mem : CacheLoc → W64) : Blk → Prop
  | .raw _ _ => True
  | .str _ => True
  | .xored a b => Warm mem a ∧ Warm mem b
  | .blkS b => Warm mem b
  | .blkR b => Warm mem b
  | .incremented b => Warm mem b
  | .shifted b _ => Warm mem b
  | .xoredIfHighBit a b => Warm mem a ∧ Warm mem b
  | .cached id _ => mem (.loaded id) ≠ 0
  | .user _ => True

theorem ReadsOnly.bindE {Loc Val α β : Type} [DecidableEq Loc] {mem : Loc → Val}
    {p : MemProg Loc Val (Exec α)} {f : α → MemProg Loc Val (Exec β)} (h : ReadsOnly mem p)
    (hf : ∀ a, ReadsOnly mem (f a)) : ReadsOnly mem (p.bindE f) := by
  refine ReadsOnly.bind h ?_
  cases (Spec.runAlone p mem).1 with
  | ok a => exact hf a
  | throw e => trivial
  | ub u => trivial
  | diverge => trivial

theorem evalBlk_readsOnly (m : Machine) (mem : CacheLoc → W64) (b : Blk) (h : Warm mem b) :
    ReadsOnly mem (evalBlk m b) := by
  induction b with
  | raw low high => trivial
  | str s => trivial
  | xored a b iha ihb =>
    exact ReadsOnly.bindE (iha h.1) fun _ => ReadsOnly.bindE (ihb h.2) fun _ => trivial
  | blkS b ih => exact ReadsOnly.bindE (ih h) fun _ => trivial
  | blkR b ih => exact ReadsOnly.bindE (ih h) fun _ => trivial
  | incremented b ih => exact ReadsOnly.bindE (ih h) fun _ => trivial
  | shifted b n ih => exact ReadsOnly.bindE (ih h) fun _ => trivial
  | xoredIfHighBit a b iha ihb =>
    refine ReadsOnly.bindE (iha h.1) fun va => ?_
    split
    · exact ReadsOnly.bindE (iha h.1) fun _ => trivial
    · refine ReadsOnly.bindE (iha h.1) fun _ => ?_
      refine ReadsOnly.bindE (p := Prog.ret _) trivial fun _ => ?_
      exact ReadsOnly.bindE (ihb h.2) fun _ => trivial
  | cached id b ih =>
    simp only [evalBlk, ReadsOnly]
    rw [if_pos (show mem (.loaded id) ≠ 0 from h)]
    trivial
  | user v => trivial

theorem readsOnly_handle (m : Machine) (mem : CacheLoc → W64) {α : Type}
    (p : Prog Blk (Exec (W64 × W64)) α)
    (answer : Blk → Exec (W64 × W64))
    (ha : ∀ b, Warm mem b → (runAlone (evalBlk m b) mem).1 = answer b)
    (hp : AllRequests (Warm mem) answer p) :
    ReadsOnly mem (p.handle (evalBlk m)) := by
  induction p with
  | ret a => trivial
  | op o k ih =>
    refine ReadsOnly.bind (evalBlk_readsOnly m mem o hp.1) ?_
    rw [ha o hp.1]
    exact ih _ hp.2

/-! ### the caches after an evaluation -/

/-- The value of the block depends on all its parts in all cases. -/
def Strict : Blk → Prop
  | .raw _ _ => True
  | .str _ => True
  | .xored a b => Strict a ∧ Strict b
  | .blkS b => Strict b
  | .blkR b => Strict b
  | .incremented b => Strict b
  | .shifted b _ => Strict b
  | .xoredIfHighBit _ _ => False
  | .cached _ _ => True
  | .user _ => True

theorem loaded_stays (m : Machine) (b : Blk) (id : Nat) :
    ∀ mem : CacheLoc → W64, mem (.loaded id) ≠ 0 →
      (runAlone (evalBlk m b) mem).2 (.loaded id) ≠ 0 := by
  induction b with
  | raw low high => exact fun _ h => h
  | str s => exact fun _ h => h
  | xored a b iha ihb =>
    intro mem h
    simp only [evalBlk, runAlone_bindE]
    have ha := iha mem h
    split
    · have hb := ihb _ ha
      split <;> exact hb
    all_goals exact ha
  | blkS b ih =>
    intro mem h
    simp only [evalBlk, runAlone_bindE]
    split <;> exact ih mem h
  | blkR b ih =>
    intro mem h
    simp only [evalBlk, runAlone_bindE]
    split <;> exact ih mem h
  | incremented b ih =>
    intro mem h
    simp only [evalBlk, runAlone_bindE]
    split <;> exact ih mem h
  | shifted b n ih =>
    intro mem h
    simp only [evalBlk, runAlone_bindE]
    split <;> exact ih mem h
  | xoredIfHighBit a b iha ihb =>
    intro mem h
    simp only [evalBlk, runAlone_bindE]
    have ha := iha mem h
    split
    · have ha2 := iha _ ha
      split
      · rw [runAlone_bindE]
        split <;> exact ha2
      · rw [runAlone_bindE]
        split
        · rw [bindE_ret]
          split
          · rw [runAlone_bindE]
            have hb := ihb _ ha2
            split <;> exact hb
          all_goals exact ha2
        all_goals exact ha2
    all_goals exact ha
  | cached id' b ih =>
    intro mem h
    simp only [evalBlk, runAlone]
    split
    · exact h
    · rw [runAlone_bindE]
      have hb := ih mem h
      split
      · simp only [readState, runAlone]
        by_cases e : id = id'
        · simp [e]
        · simpa [e] using hb
      all_goals exact hb
  | user v => exact fun _ h => h

theorem Warm.mono {mem mem' : CacheLoc → W64} (h : ∀ id, mem (.loaded id) ≠ 0 → mem' (.loaded id) ≠ 0)
    {b : Blk} (hb : Warm mem b) : Warm mem' b := by
  induction b with
  | xored a b iha ihb => exact ⟨iha hb.1, ihb hb.2⟩
  | xoredIfHighBit a b iha ihb => exact ⟨iha hb.1, ihb hb.2⟩
  | blkS b ih => exact ih hb
  | blkR b ih => exact ih hb
  | incremented b ih => exact ih hb
  | shifted b n ih => exact ih hb
  | cached id b ih => exact h id hb
  | raw _ _ => trivial
  | str _ => trivial
  | user _ => trivial

theorem warm_after (m : Machine) (b : Blk) (hs : Strict b) :
    ∀ (mem : CacheLoc → W64) (v : W64 × W64), (runAlone (evalBlk m b) mem).1 = .ok v →
      Warm (runAlone (evalBlk m b) mem).2 b := by
  induction b with
  | raw low high => intros; trivial
  | str s => intros; trivial
  | user v => intros; trivial
  | xoredIfHighBit a b iha ihb => exact hs.elim
  | xored a b iha ihb =>
    intro mem v h
    simp only [evalBlk, runAlone_bindE] at h ⊢
    cases ha : (runAlone (evalBlk m a) mem).1 with
    | ok va =>
      simp only [ha] at h ⊢
      cases hb : (runAlone (evalBlk m b) (runAlone (evalBlk m a) mem).2).1 with
      | ok vb =>
        exact ⟨(iha hs.1 mem va ha).mono fun id => loaded_stays m b id _, ihb hs.2 _ vb hb⟩
      | throw e => rw [hb] at h; cases h
      | ub u => rw [hb] at h; cases h
      | diverge => rw [hb] at h; cases h
    | throw e => rw [ha] at h; cases h
    | ub u => rw [ha] at h; cases h
    | diverge => rw [ha] at h; cases h
  | blkS b ih =>
    intro mem v h
    simp only [evalBlk, runAlone_bindE] at h ⊢
    cases hb : (runAlone (evalBlk m b) mem).1 with
    | ok vb => exact ih hs mem vb hb
    | throw e => rw [hb] at h; cases h
    | ub u => rw [hb] at h; cases h
    | diverge => rw [hb] at h; cases h
  | blkR b ih =>
    intro mem v h
    simp only [evalBlk, runAlone_bindE] at h ⊢
    cases hb : (runAlone (evalBlk m b) mem).1 with
    | ok vb => exact ih hs mem vb hb
    | throw e => rw [hb] at h; cases h
    | ub u => rw [hb] at h; cases h
    | diverge => rw [hb] at h; cases h
  | incremented b ih =>
    intro mem v h
    simp only [evalBlk, runAlone_bindE] at h ⊢
    cases hb : (runAlone (evalBlk m b) mem).1 with
    | ok vb => exact ih hs mem vb hb
    | throw e => rw [hb] at h; cases h
    | ub u => rw [hb] at h; cases h
    | diverge => rw [hb] at h; cases h
  | shifted b n ih =>
    intro mem v h
    simp only [evalBlk, runAlone_bindE] at h ⊢
    cases hb : (runAlone (evalBlk m b) mem).1 with
    | ok vb => exact ih hs mem vb hb
    | throw e => rw [hb] at h; cases h
    | ub u => rw [hb] at h; cases h
    | diverge => rw [hb] at h; cases h
  | cached id b ih =>
    intro mem v h
    simp only [evalBlk, runAlone] at h ⊢
    by_cases h0 : mem (.loaded id) = 0
    · rw [if_neg (by simpa using h0), runAlone_bindE] at h ⊢
      cases hb : (runAlone (evalBlk m b) mem).1 with
      | ok vb => simp [Warm, readState, runAlone]
      | throw e => rw [hb] at h; cases h
      | ub u => rw [hb] at h; cases h
      | diverge => rw [hb] at h; cases h
    · rw [if_pos (by simpa using h0)]
      exact h0

/-! ### the block of an encryption -/

theorem warm_transform (mem : CacheLoc → W64) (b : Blk) (n : Nat) :
    Warm mem (BlkL.transform b n) ↔ Warm mem b := by
  induction n generalizing b with
  | zero => rfl
  | succ n ih => exact ih (.blkR b)

theorem warm_step (mem : CacheLoc → W64) (a k : Blk) :
    Warm mem (Key.encryptStep a k) ↔ Warm mem a ∧ Warm mem k :=
  warm_transform mem (.blkS (.xored a k)) 16

theorem strict_transform (b : Blk) (n : Nat) : Strict (BlkL.transform b n) ↔ Strict b := by
  induction n generalizing b with
  | zero => rfl
  | succ n ih => exact ih (.blkR b)

theorem strict_step (a k : Blk) : Strict (Key.encryptStep a k) ↔ Strict a ∧ Strict k :=
  strict_transform (.blkS (.xored a k)) 16

theorem warm_encrypted (mem : CacheLoc → W64) (b : Blk) (key : Key) :
    Warm mem (BlkEncrypted b key) ↔ Warm mem b ∧ Warm mem (BlkEncrypted (.raw 0 0) key) := by
  have h0 : Warm mem (.raw 0 0) := trivial
  unfold BlkEncrypted Key.encrypt
  simp only [Warm, warm_step]
  constructor
  · rintro ⟨⟨⟨⟨⟨⟨⟨⟨⟨⟨h, k1⟩, k2⟩, k3⟩, k4⟩, k5⟩, k6⟩, k7⟩, k8⟩, k9⟩, k10⟩
    exact ⟨h, ⟨⟨⟨⟨⟨⟨⟨⟨⟨h0, k1⟩, k2⟩, k3⟩, k4⟩, k5⟩, k6⟩, k7⟩, k8⟩, k9⟩, k10⟩
  · rintro ⟨h, ⟨⟨⟨⟨⟨⟨⟨⟨⟨-, k1⟩, k2⟩, k3⟩, k4⟩, k5⟩, k6⟩, k7⟩, k8⟩, k9⟩, k10⟩
    exact ⟨⟨⟨⟨⟨⟨⟨⟨⟨⟨h, k1⟩, k2⟩, k3⟩, k4⟩, k5⟩, k6⟩, k7⟩, k8⟩, k9⟩, k10⟩

theorem strict_encrypted (b : Blk) (hb : Strict b) (high low : Blk) (base : Nat) :
    Strict (BlkEncrypted b (Key.ofBlocks high low base)) := by
  unfold BlkEncrypted Key.encrypt Key.ofBlocks
  simp only [Strict, strict_step, hb, and_self]

theorem warm_plain (mem : CacheLoc → W64) (b : Blk) (h : Plain b) : Warm mem b := by
  induction b with
  | xored a b iha ihb => exact ⟨iha h.1, ihb h.2⟩
  | xoredIfHighBit a b iha ihb => exact ⟨iha h.1, ihb h.2⟩
  | blkS b ih => exact ih h
  | blkR b ih => exact ih h
  | incremented b ih => exact ih h
  | shifted b n ih => exact ih h
  | cached id b ih => exact h.elim
  | raw _ _ => trivial
  | str _ => trivial
  | user _ => trivial

/-! ### the first access of an encryption -/

/-- The program begins with the program `q`. -/
def Starts {α : Type} (q : MemProg CacheLoc W64 (Exec (W64 × W64))) (p : MemProg CacheLoc W64 α) :
    Prop := ∃ f, p = q.bind f

theorem bind_assoc' {Loc Val α β γ : Type} (p : MemProg Loc Val α) (f : α → MemProg Loc Val β)
    (g : β → MemProg Loc Val γ) : (p.bind f).bind g = p.bind fun a => (f a).bind g := by
  induction p with
  | ret a => rfl
  | op o k ih => simp only [Prog.bind, ih]

theorem Starts.bind {α β : Type} {q : MemProg CacheLoc W64 (Exec (W64 × W64))}
    {p : MemProg CacheLoc W64 α} (h : Starts q p) (f : α → MemProg CacheLoc W64 β) :
    Starts q (p.bind f) := by
  obtain ⟨g, rfl⟩ := h
  exact ⟨_, bind_assoc' _ _ _⟩

theorem Starts.transform {m : Machine} {q : MemProg CacheLoc W64 (Exec (W64 × W64))} {b : Blk}
    (h : Starts q (evalBlk m b)) (n : Nat) : Starts q (evalBlk m (BlkL.transform b n)) := by
  induction n generalizing b with
  | zero => exact h
  | succ n ih => exact ih (b := .blkR b) (h.bind _)

theorem Starts.step {m : Machine} {q : MemProg CacheLoc W64 (Exec (W64 × W64))} {a k : Blk}
    (h : Starts q (evalBlk m a)) : Starts q (evalBlk m (Key.encryptStep a k)) :=
  Starts.transform (b := .blkS (.xored a k)) ((h.bind _).bind _) 16

theorem Starts.xored {m : Machine} {q : MemProg CacheLoc W64 (Exec (W64 × W64))} {a : Blk}
    (h : Starts q (evalBlk m a)) (k : Blk) : Starts q (evalBlk m (.xored a k)) := by
  rw [evalBlk]
  exact h.bind _

theorem evalBlk_plain (m : Machine) (b : Blk) (h : Plain b) : evalBlk m b = .ret (b.value m) := by
  induction b with
  | xored a b iha ihb =>
    simp only [evalBlk, iha h.1, ihb h.2, Blk.value]
    cases a.value m <;> cases b.value m <;> rfl
  | xoredIfHighBit a b iha ihb =>
    simp only [evalBlk, iha h.1, ihb h.2, Blk.value]
    cases a.value m with
    | ok v =>
      simp only [bindE_ret, Exec.ok_bind]
      split
      · rfl
      · cases shiftValue v 1 <;> cases b.value m <;> rfl
    | throw e => rfl
    | ub u => rfl
    | diverge => rfl
  | blkS b ih => simp only [evalBlk, ih h, Blk.value]; cases b.value m <;> rfl
  | blkR b ih => simp only [evalBlk, ih h, Blk.value]; cases b.value m <;> rfl
  | incremented b ih => simp only [evalBlk, ih h, Blk.value]; cases b.value m <;> rfl
  | shifted b n ih => simp only [evalBlk, ih h, Blk.value]; cases b.value m <;> rfl
  | cached id b ih => exact h.elim
  | raw _ _ => rfl
  | str _ => rfl
  | user _ => rfl

attribute [local irreducible] Key.encryptStep in
theorem Starts.encrypted {m : Machine} {q : MemProg CacheLoc W64 (Exec (W64 × W64))} {b : Blk}
    {key : Key} (h : Starts q (evalBlk m (Key.encryptStep b key.k1))) :
    Starts q (evalBlk m (BlkEncrypted b key)) := by
  unfold BlkEncrypted Key.encrypt
  exact Starts.xored
    (Starts.step (Starts.step (Starts.step (Starts.step (Starts.step (Starts.step
      (Starts.step (Starts.step h)))))))) _

theorem starts_encrypted (m : Machine) (b : Blk) (hb : Plain b) (v : W64 × W64)
    (hv : b.value m = .ok v) (key : Key) :
    Starts (evalBlk m key.k1) (evalBlk m (BlkEncrypted b key)) := by
  have h1 : Starts (evalBlk m key.k1) (evalBlk m (Blk.xored b key.k1)) := by
    refine ⟨fun r => (Prog.ret r).bindE fun vb => .ret (.ok (v.1 ^^^ vb.1, v.2 ^^^ vb.2)), ?_⟩
    simp only [evalBlk, evalBlk_plain m b hb, hv, bindE_ret]
    rfl
  have h2 : Starts (evalBlk m key.k1) (evalBlk m (Key.encryptStep b key.k1)) :=
    Starts.transform (b := .blkS (.xored b key.k1)) (h1.bind _) 16
  exact h2.encrypted

end Goost.Conc
