import Verif.Model.Threads
import Verif.Lemmas.KeyCache
/-
Helper lemmas: invariants of threads over the caches.
-/
namespace Goost.Threads
open Goost.Magma
variable {L M Loc : Type}

theorem Program.run_append (P : Program L M Loc) (s : State L M) (a b : List Nat) :
    P.run s (a ++ b) = P.run (P.run s a) b := List.foldl_append

/-- An invariant kept by every step of every thread holds after every schedule. -/
theorem Program.invariant (P : Program L M Loc) (I : State L M → Prop)
    (hstep : ∀ s t, I s → I (P.run1 s t)) {s : State L M} (h : I s) (schedule : List Nat) :
    I (P.run s schedule) := by
  induction schedule generalizing s with
  | nil => exact h
  | cons t ts ih => exact ih (hstep s t h)

/-! ### KeyCachedData -/

/-- The first `n` words are in the cache. -/
def Filled (kd : KeyData) (m : CachedData) (n : Nat) : Prop :=
  ∀ i < n, ∃ w, kd (i : Int) = .ok w ∧ m.key[i]? = some w

structure KeyInv (kd : KeyData) (index : Nat → Int) (s : State KeyThread CachedData) : Prop where
  len : s.mem.key.length = 8
  cached : s.mem.cached = true → Filled kd s.mem 8
  idx : ∀ t, (s.locals t).index = index t
  fill : ∀ t i, (s.locals t).pc = .fill i → i ≤ 8 ∧ Filled kd s.mem i
  load : ∀ t, (s.locals t).pc = .load → Filled kd s.mem 8
  done : ∀ t r, (s.locals t).pc = .done r → r = KeyCachedData kd (index t)

theorem Filled.mono {kd : KeyData} {m m' : CachedData} {n : Nat} (h : Filled kd m n)
    (hm : ∀ (i : Nat) (w : W32), kd (i : Int) = .ok w → m.key[i]? = some w → m'.key[i]? = some w) :
    Filled kd m' n := by
  intro i hi
  obtain ⟨w, h1, h2⟩ := h i hi
  exact ⟨w, h1, hm i w h1 h2⟩

/-- A full cache answers as the first call does. -/
theorem Filled.answer {kd : KeyData} {m : CachedData} (hl : m.key.length = 8) (h : Filled kd m 8)
    (i : Int) : vgetI m.key i = KeyCachedData kd i := by
  rw [KeyCachedData_mapM]
  match hk : m.key, hl with
  | [k0, k1, k2, k3, k4, k5, k6, k7], _ =>
    have g : ∀ (j : Nat) (hj : j < 8), kd (j : Int) = .ok ([k0, k1, k2, k3, k4, k5, k6, k7][j]'hj) := by
      intro j hj
      obtain ⟨w, h1, h2⟩ := h j hj
      rw [hk, List.getElem?_eq_getElem (by simpa using hj)] at h2
      rw [h1, ← Option.some.inj h2]
    have g0 : kd 0 = .ok k0 := g 0 (by decide)
    have g1 : kd 1 = .ok k1 := g 1 (by decide)
    have g2 : kd 2 = .ok k2 := g 2 (by decide)
    have g3 : kd 3 = .ok k3 := g 3 (by decide)
    have g4 : kd 4 = .ok k4 := g 4 (by decide)
    have g5 : kd 5 = .ok k5 := g 5 (by decide)
    have g6 : kd 6 = .ok k6 := g 6 (by decide)
    have g7 : kd 7 = .ok k7 := g 7 (by decide)
    simp [g0, g1, g2, g3, g4, g5, g6, g7]

theorem KeyCachedData_fail {kd : KeyData} {m : CachedData} {n : Nat} (hn : n < 8)
    (h : Filled kd m n) {r : Exec W32} (hr : kd (n : Int) = r) (hf : ∀ w, r ≠ .ok w) (i : Int) :
    r = KeyCachedData kd i := by
  have go : ∀ (is : List Int) (js : List Int) (j : Int) (_ : is ++ j :: js = [0, 1, 2, 3, 4, 5, 6, 7])
      (_ : ∀ x ∈ is, ∃ w, kd x = .ok w) (_ : kd j = r), r = KeyCachedData kd i := by
    intro is js j he hall hj
    rw [KeyCachedData_mapM, ← he]
    have : ∀ (f : List W32 → Exec W32), ((is ++ j :: js).mapM kd >>= f) = r := by
      intro f
      clear he
      induction is generalizing f with
      | nil =>
        rw [List.nil_append, List.mapM_cons, hj]
        cases r with
        | ok w => exact absurd rfl (hf w)
        | throw e => rfl
        | ub u => rfl
        | diverge => rfl
      | cons x is ih =>
        obtain ⟨w, hw⟩ := hall x (by simp)
        rw [List.cons_append, List.mapM_cons, hw, Exec.ok_bind, bind_assoc]
        exact ih (fun y hy => hall y (by simp [hy])) _
    exact (this _).symm
  have hx : ∀ x : Nat, x < n → ∃ w, kd (x : Int) = .ok w := by
    intro x hx
    obtain ⟨w, h1, _⟩ := h x hx
    exact ⟨w, h1⟩
  match n, hn, hr, hx with
  | 0, _, hr, hx => exact go [] [1, 2, 3, 4, 5, 6, 7] 0 rfl (by simp) hr
  | 1, _, hr, hx =>
    exact go [0] [2, 3, 4, 5, 6, 7] 1 rfl (by simpa using hx 0 (by decide)) hr
  | 2, _, hr, hx =>
    exact go [0, 1] [3, 4, 5, 6, 7] 2 rfl
      (by simpa using ⟨hx 0 (by decide), hx 1 (by decide)⟩) hr
  | 3, _, hr, hx =>
    exact go [0, 1, 2] [4, 5, 6, 7] 3 rfl
      (by simpa using ⟨hx 0 (by decide), hx 1 (by decide), hx 2 (by decide)⟩) hr
  | 4, _, hr, hx =>
    exact go [0, 1, 2, 3] [5, 6, 7] 4 rfl
      (by simpa using ⟨hx 0 (by decide), hx 1 (by decide), hx 2 (by decide), hx 3 (by decide)⟩) hr
  | 5, _, hr, hx =>
    exact go [0, 1, 2, 3, 4] [6, 7] 5 rfl
      (by simpa using ⟨hx 0 (by decide), hx 1 (by decide), hx 2 (by decide), hx 3 (by decide),
        hx 4 (by decide)⟩) hr
  | 6, _, hr, hx =>
    exact go [0, 1, 2, 3, 4, 5] [7] 6 rfl
      (by simpa using ⟨hx 0 (by decide), hx 1 (by decide), hx 2 (by decide), hx 3 (by decide),
        hx 4 (by decide), hx 5 (by decide)⟩) hr
  | 7, _, hr, hx =>
    exact go [0, 1, 2, 3, 4, 5, 6] [] 7 rfl
      (by simpa using ⟨hx 0 (by decide), hx 1 (by decide), hx 2 (by decide), hx 3 (by decide),
        hx 4 (by decide), hx 5 (by decide), hx 6 (by decide)⟩) hr

/-- Updating one thread without touching the memory. -/
theorem KeyInv.update {kd : KeyData} {index : Nat → Int} {s : State KeyThread CachedData}
    (h : KeyInv kd index s) (t : Nat) (pc : KeyPc) (m : CachedData) (hl : m.key.length = 8)
    (hm : ∀ (i : Nat) (w : W32), kd (i : Int) = .ok w → s.mem.key[i]? = some w → m.key[i]? = some w)
    (hc : m.cached = true → Filled kd m 8)
    (hf : ∀ i, pc = .fill i → i ≤ 8 ∧ Filled kd m i) (hld : pc = .load → Filled kd m 8)
    (hd : ∀ r, pc = .done r → r = KeyCachedData kd (index t)) :
    KeyInv kd index ⟨fun u => if u = t then ⟨(s.locals t).index, pc⟩ else s.locals u, m⟩ where
  len := hl
  cached := hc
  idx u := by
    by_cases e : u = t
    · simp only [e, if_true]; exact h.idx t
    · simp only [e, if_false]; exact h.idx u
  fill u i := by
    by_cases e : u = t
    · simp only [e, if_true]; exact hf i
    · simp only [e, if_false]
      intro hp
      exact ⟨(h.fill u i hp).1, (h.fill u i hp).2.mono hm⟩
  load u := by
    by_cases e : u = t
    · simp only [e, if_true]; exact hld
    · simp only [e, if_false]
      intro hp
      exact (h.load u hp).mono hm
  done u r := by
    by_cases e : u = t
    · simp only [e, if_true]; exact hd r
    · simp only [e, if_false]; exact h.done u r

theorem keyInv_step (kd : KeyData) (index : Nat → Int) (s : State KeyThread CachedData) (t : Nat)
    (h : KeyInv kd index s) : KeyInv kd index ((keyProgram kd).run1 s t) := by
  unfold Program.run1
  cases hpc : (s.locals t).pc with
  | test =>
    simp only [keyProgram, hpc]
    refine h.update t _ s.mem h.len (fun _ _ _ hw => hw) h.cached ?_ ?_ ?_
    · intro i hi
      split at hi
      · simp at hi
      · cases hi; exact ⟨by omega, fun i hi => absurd hi (by omega)⟩
    · intro hi
      split at hi
      · rename_i hc; exact h.cached hc
      · simp at hi
    · intro r hi
      split at hi <;> simp at hi
  | fill i =>
    obtain ⟨hi8, hfill⟩ := h.fill t i hpc
    simp only [keyProgram, hpc]
    by_cases hlt : i < s.mem.key.length
    · simp only [hlt, if_true]
      have hi : i < 8 := by rw [← h.len]; exact hlt
      cases hk : kd (i : Int) with
      | ok k =>
        simp only
        have hm : ∀ (j : Nat) (w : W32), kd (j : Int) = .ok w → s.mem.key[j]? = some w →
            (s.mem.key.set i k)[j]? = some w := by
          intro j w hj hw
          by_cases e : i = j
          · subst e
            rw [hk] at hj
            rw [List.getElem?_set_self hlt, Exec.ok.inj hj]
          · rw [List.getElem?_set_ne e, hw]
        refine h.update t _ { s.mem with key := s.mem.key.set i k } (by simp [h.len]) hm ?_ ?_ ?_ ?_
        · intro hc; exact (h.cached hc).mono hm
        · intro j hj
          cases hj
          refine ⟨by omega, ?_⟩
          intro j hj
          by_cases e : j = i
          · subst e
            exact ⟨k, hk, by simp [List.getElem?_set_self hlt]⟩
          · exact (hfill.mono hm) j (by omega)
        · intro hj; simp at hj
        · intro r hj; simp at hj
      | throw e =>
        simp only
        refine h.update t _ s.mem h.len (fun _ _ _ hw => hw) h.cached (by simp) (by simp) ?_
        intro r hr
        cases hr
        exact KeyCachedData_fail hi hfill hk (by simp) _
      | ub e =>
        simp only
        refine h.update t _ s.mem h.len (fun _ _ _ hw => hw) h.cached (by simp) (by simp) ?_
        intro r hr
        cases hr
        exact KeyCachedData_fail hi hfill hk (by simp) _
      | diverge =>
        simp only
        refine h.update t _ s.mem h.len (fun _ _ _ hw => hw) h.cached (by simp) (by simp) ?_
        intro r hr
        cases hr
        exact KeyCachedData_fail hi hfill hk (by simp) _
    · simp only [hlt, if_false]
      have hi : i = 8 := by have := h.len; omega
      subst hi
      have hm : ∀ (j : Nat) (w : W32), kd (j : Int) = .ok w → s.mem.key[j]? = some w →
          s.mem.key[j]? = some w := fun _ _ _ hw => hw
      exact h.update t _ { s.mem with cached := true } h.len hm
        (fun _ => hfill.mono hm) (by simp) (fun _ => hfill.mono hm) (by simp)
  | load =>
    have hf := h.load t hpc
    simp only [keyProgram, hpc]
    refine h.update t _ s.mem h.len (fun _ _ _ hw => hw) h.cached (by simp) (by simp) ?_
    intro r hr
    cases hr
    rw [hf.answer h.len, h.idx]
  | done r =>
    simp only [keyProgram, hpc]
    have e : (fun u => if u = t then s.locals t else s.locals u) = s.locals := by
      funext u; split <;> simp_all
    rw [e]
    exact h

theorem keyInv_start (kd : KeyData) (index : Nat → Int) : KeyInv kd index (keyStart index) where
  len := rfl
  cached := by simp [keyStart]
  idx _ := rfl
  fill := by simp [keyStart]
  load := by simp [keyStart]
  done := by simp [keyStart]

/-- Steps a thread has left at most. -/
def KeyPc.left : KeyPc → Nat
  | .test => 11
  | .fill i => 10 - i
  | .load => 1
  | .done _ => 0

/-! ### BlkCached -/

structure BlkInv (v : Exec (W64 × W64)) (s : State BlkPc BlkMem) : Prop where
  loaded : s.mem.loaded = true → v = .ok (s.mem.low, s.mem.high)
  store1 : ∀ t, s.locals t = .store1 → ∃ a, v = .ok a
  store2 : ∀ t, s.locals t = .store2 → ∃ a, v = .ok a ∧ s.mem.low = a.1
  mark : ∀ t, s.locals t = .mark → v = .ok (s.mem.low, s.mem.high)
  load1 : ∀ t, s.locals t = .load1 → v = .ok (s.mem.low, s.mem.high)
  load2 : ∀ t low, s.locals t = .load2 low → v = .ok (low, s.mem.high)
  done : ∀ t r, s.locals t = .done r → r = v

theorem BlkInv.update {v : Exec (W64 × W64)} {s : State BlkPc BlkMem} (h : BlkInv v s) (t : Nat)
    (pc : BlkPc) (m : BlkMem)
    (hlow : ∀ a, v = .ok a → s.mem.low = a.1 → m.low = a.1)
    (hhigh : ∀ a, v = .ok a → s.mem.high = a.2 → m.high = a.2)
    (h1 : m.loaded = true → v = .ok (m.low, m.high))
    (h2 : pc = .store1 → ∃ a, v = .ok a)
    (h3 : pc = .store2 → ∃ a, v = .ok a ∧ m.low = a.1)
    (h4 : pc = .mark → v = .ok (m.low, m.high))
    (h5 : pc = .load1 → v = .ok (m.low, m.high))
    (h6 : ∀ low, pc = .load2 low → v = .ok (low, m.high))
    (h7 : ∀ r, pc = .done r → r = v) :
    BlkInv v ⟨fun u => if u = t then pc else s.locals u, m⟩ := by
  have keep : v = .ok (s.mem.low, s.mem.high) → v = .ok (m.low, m.high) := by
    intro hv
    rw [hlow _ hv rfl, hhigh _ hv rfl, hv]
  refine ⟨h1, ?_, ?_, ?_, ?_, ?_, ?_⟩ <;> intro u <;> by_cases e : u = t <;>
    simp only [e, if_true, if_false]
  · exact h2
  · exact h.store1 u
  · exact h3
  · intro hp
    obtain ⟨a, ha, hl⟩ := h.store2 u hp
    exact ⟨a, ha, hlow a ha hl⟩
  · exact h4
  · exact fun hp => keep (h.mark u hp)
  · exact h5
  · exact fun hp => keep (h.load1 u hp)
  · exact h6
  · intro low hp
    have hv := h.load2 u low hp
    rw [hhigh _ hv rfl]
    exact hv
  · exact h7
  · exact h.done u

theorem blkInv_step (v : Exec (W64 × W64)) (s : State BlkPc BlkMem) (t : Nat) (h : BlkInv v s) :
    BlkInv v ((blkProgram v).run1 s t) := by
  unfold Program.run1
  cases hpc : s.locals t with
  | test =>
    simp only [blkProgram]
    refine h.update t _ s.mem (fun _ _ x => x) (fun _ _ x => x) h.loaded ?_ ?_ ?_ ?_ ?_ ?_
    all_goals (by_cases hl : s.mem.loaded = true)
    all_goals (try simp only [hl, if_true])
    all_goals (try (cases v <;> simp_all))
    all_goals (try (have := h.loaded hl; simp_all))
  | store1 =>
    obtain ⟨a, ha⟩ := h.store1 t hpc
    subst ha
    simp only [blkProgram]
    refine h.update t _ _ ?_ (fun _ _ x => x) ?_ (by simp) ?_ (by simp) (by simp) (by simp) (by simp)
    · intro b hb _; cases hb; rfl
    · intro hl
      have := h.loaded hl
      cases this
      rfl
    · intro _; exact ⟨a, rfl, rfl⟩
  | store2 =>
    obtain ⟨a, ha, hlow⟩ := h.store2 t hpc
    subst ha
    simp only [blkProgram]
    refine h.update t _ _ (fun _ _ x => x) ?_ ?_ (by simp) (by simp) ?_ (by simp) (by simp) (by simp)
    · intro b hb _; cases hb; rfl
    · intro hl; simp only [hlow]
    · intro _; simp only [hlow]
  | mark =>
    have hv := h.mark t hpc
    simp only [blkProgram]
    exact h.update t _ _ (fun _ _ x => x) (fun _ _ x => x) (fun _ => hv) (by simp) (by simp) (by simp)
      (fun _ => hv) (by simp) (by simp)
  | load1 =>
    have hv := h.load1 t hpc
    simp only [blkProgram]
    refine h.update t _ s.mem (fun _ _ x => x) (fun _ _ x => x) h.loaded (by simp) (by simp) (by simp)
      (by simp) ?_ (by simp)
    intro low hl; cases hl; exact hv
  | load2 low =>
    have hv := h.load2 t low hpc
    simp only [blkProgram]
    refine h.update t _ s.mem (fun _ _ x => x) (fun _ _ x => x) h.loaded (by simp) (by simp) (by simp)
      (by simp) (by simp) ?_
    intro r hr; cases hr; exact hv.symm
  | done r =>
    have hv := h.done t r hpc
    simp only [blkProgram]
    refine h.update t _ s.mem (fun _ _ x => x) (fun _ _ x => x) h.loaded (by simp) (by simp) (by simp)
      (by simp) (by simp) ?_
    intro r' hr; cases hr; exact hv

theorem blkInv_start (v : Exec (W64 × W64)) : BlkInv v blkStart := by
  constructor <;> simp [blkStart]

/-- Steps a thread has left at most. -/
def BlkPc.left : BlkPc → Nat
  | .test => 6
  | .store1 => 5
  | .store2 => 4
  | .mark => 3
  | .load1 => 2
  | .load2 _ => 1
  | .done _ => 0

theorem blk_left_step (v : Exec (W64 × W64)) (s : State BlkPc BlkMem) (u t : Nat) :
    (((blkProgram v).run1 s u).locals t).left ≤
      (s.locals t).left - (if u = t then 1 else 0) := by
  unfold Program.run1
  by_cases e : u = t
  · subst e
    simp only [if_true]
    cases hpc : s.locals u with
    | test =>
      simp only [blkProgram]
      split
      · simp [BlkPc.left]
      · cases v <;> simp [BlkPc.left]
    | store1 => cases v <;> simp [blkProgram, BlkPc.left]
    | store2 => cases v <;> simp [blkProgram, BlkPc.left]
    | mark => simp [blkProgram, BlkPc.left]
    | load1 => simp [blkProgram, BlkPc.left]
    | load2 low => simp [blkProgram, BlkPc.left]
    | done r => simp [blkProgram, BlkPc.left]
  · have e' : ¬ t = u := fun h => e h.symm
    simp [e, e']

/-- The cache is loaded and no thread is about to store. -/
structure BlkQuiet (s : State BlkPc BlkMem) : Prop where
  loaded : s.mem.loaded = true
  pcs : ∀ t, s.locals t ≠ .store1 ∧ s.locals t ≠ .store2 ∧ s.locals t ≠ .mark

theorem blkQuiet_step (v : Exec (W64 × W64)) (s : State BlkPc BlkMem) (u : Nat) (h : BlkQuiet s) :
    BlkQuiet ((blkProgram v).run1 s u) := by
  have keep : ∀ l m, m.loaded = true → (l ≠ .store1 ∧ l ≠ .store2 ∧ l ≠ .mark) →
      BlkQuiet ⟨fun t => if t = u then l else s.locals t, m⟩ := by
    intro l m hm hl
    refine ⟨hm, fun t => ?_⟩
    by_cases e : t = u
    · simp only [e, if_true]; exact hl
    · simp only [e, if_false]; exact h.pcs t
  have hu := h.pcs u
  unfold Program.run1
  cases hpc : s.locals u with
  | test =>
    have e : (blkProgram v).step .test s.mem = (.load1, s.mem) := by
      simp [blkProgram, h.loaded]
    rw [e]
    exact keep .load1 s.mem h.loaded (by simp)
  | store1 => rw [hpc] at hu; exact absurd rfl hu.1
  | store2 => rw [hpc] at hu; exact absurd rfl hu.2.1
  | mark => rw [hpc] at hu; exact absurd rfl hu.2.2
  | load1 => exact keep _ _ h.loaded (by simp [blkProgram])
  | load2 low => exact keep _ _ h.loaded (by simp [blkProgram])
  | done r => exact keep _ _ h.loaded (by simp [blkProgram])

theorem BlkQuiet.no_race (v : Exec (W64 × W64)) {s : State BlkPc BlkMem} (h : BlkQuiet s) :
    ¬ (blkProgram v).Race s := by
  have rd : ∀ t loc w, (blkProgram v).access (s.locals t) s.mem = some (loc, w) → w = false := by
    intro t loc w ha
    have ht := h.pcs t
    cases hpc : s.locals t <;> rw [hpc] at ha ht <;> simp_all [blkProgram]
  rintro ⟨t, u, loc, w1, w2, _, h1, h2, hw⟩
  rw [rd t loc w1 h1, rd u loc w2 h2] at hw
  simp at hw

/-- While only the thread `first` has run, the others are at the beginning, and when it is past its
stores the cache is loaded. -/
theorem blkAlone_run (v : Exec (W64 × W64)) (first n : Nat) :
    (∀ t, t ≠ first → ((blkProgram v).run blkStart (List.replicate n first)).locals t = .test) ∧
    ((((blkProgram v).run blkStart (List.replicate n first)).locals first = .load1 ∨
      (∃ low, ((blkProgram v).run blkStart (List.replicate n first)).locals first = .load2 low) ∨
      ∃ r, ((blkProgram v).run blkStart (List.replicate n first)).locals first = .done (.ok r)) →
      ((blkProgram v).run blkStart (List.replicate n first)).mem.loaded = true) := by
  have hstep : ∀ s : State BlkPc BlkMem,
      ((∀ t, t ≠ first → s.locals t = .test) ∧
        ((s.locals first = .load1 ∨ (∃ low, s.locals first = .load2 low) ∨
          ∃ r, s.locals first = .done (.ok r)) → s.mem.loaded = true)) →
      ((∀ t, t ≠ first → ((blkProgram v).run1 s first).locals t = .test) ∧
        ((((blkProgram v).run1 s first).locals first = .load1 ∨
          (∃ low, ((blkProgram v).run1 s first).locals first = .load2 low) ∨
          ∃ r, ((blkProgram v).run1 s first).locals first = .done (.ok r)) →
          ((blkProgram v).run1 s first).mem.loaded = true)) := by
    rintro s ⟨h1, h2⟩
    unfold Program.run1
    refine ⟨fun t ht => ?_, ?_⟩
    · simp only [ht, if_false]; exact h1 t ht
    · simp only [if_true]
      cases hpc : s.locals first with
      | test =>
        simp only [blkProgram]
        by_cases hl : s.mem.loaded = true
        · intro _; exact hl
        · cases v <;> simp [hl]
      | store1 => cases v <;> simp [blkProgram]
      | store2 => cases v <;> simp [blkProgram]
      | mark => simp [blkProgram]
      | load1 => intro _; exact h2 (Or.inl hpc)
      | load2 low => intro _; exact h2 (Or.inr (Or.inl ⟨low, hpc⟩))
      | done r =>
        simp only [blkProgram]
        rintro (h | ⟨_, h⟩ | ⟨a, h⟩)
        · simp at h
        · simp at h
        · exact h2 (Or.inr (Or.inr ⟨a, by rw [hpc, h]⟩))
  have all : ∀ (n : Nat) (s : State BlkPc BlkMem),
      ((∀ t, t ≠ first → s.locals t = .test) ∧
        ((s.locals first = .load1 ∨ (∃ low, s.locals first = .load2 low) ∨
          ∃ r, s.locals first = .done (.ok r)) → s.mem.loaded = true)) →
      ((∀ t, t ≠ first → ((blkProgram v).run s (List.replicate n first)).locals t = .test) ∧
        ((((blkProgram v).run s (List.replicate n first)).locals first = .load1 ∨
          (∃ low, ((blkProgram v).run s (List.replicate n first)).locals first = .load2 low) ∨
          ∃ r, ((blkProgram v).run s (List.replicate n first)).locals first = .done (.ok r)) →
          ((blkProgram v).run s (List.replicate n first)).mem.loaded = true)) := by
    intro n
    induction n with
    | zero => intro s h; exact h
    | succ n ih => intro s h; exact ih _ (hstep s h)
  exact all n blkStart ⟨fun t _ => rfl, by simp [blkStart]⟩

end Goost.Threads
