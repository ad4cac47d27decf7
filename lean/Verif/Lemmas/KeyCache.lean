import Verif.Lemmas.Keys
/-
Helper lemmas: the cache of `KeyCachedData` is the ideal memo.
-/
namespace Goost.Magma
open Spec
variable {Ω : Type}

/-- Reading eight words and then taking one of them. -/
def idealKey (kd : Ω → Int → Exec W32 × Ω) (i : Int) (s : Option (List W32) × Ω) :
    Exec W32 × (Option (List W32) × Ω) :=
  let (r, s) := memo (readEight kd) s
  (r >>= fun ws => vgetI ws i, s)

theorem fill_eq (kd : Ω → Int → Exec W32 × Ω) (n i : Nat) (key : List W32)
    (hl : key.length = i + n) (o : Ω) :
    ∃ key', key'.length = key.length ∧
      KeyCachedData.fill kd n i key o =
        (match (readEight.go kd ((List.range' i n).map fun (j : Nat) => (j : Int)) o) with
          | (.ok ws, o') => (.ok (), key.take i ++ ws, o')
          | (.throw e, o') => (.throw e, key', o')
          | (.ub u, o') => (.ub u, key', o')
          | (.diverge, o') => (.diverge, key', o')) := by
  induction n generalizing i key o with
  | zero =>
    refine ⟨key, rfl, ?_⟩
    simp only [List.range'_zero, List.map_nil, readEight.go, KeyCachedData.fill]
    rw [List.append_nil, List.take_of_length_le (by omega)]
  | succ n ih =>
    simp only [List.range'_succ, List.map_cons, readEight.go, KeyCachedData.fill]
    rcases hk : kd o (i : Int) with ⟨r, o'⟩
    cases r with
    | ok k =>
      obtain ⟨key', hl', e⟩ := ih (i + 1) (key.set i k) (by simp; omega) o'
      refine ⟨key', by simpa using hl', ?_⟩
      simp only
      rw [e]
      rcases readEight.go kd ((List.range' (i + 1) n).map fun (j : Nat) => (j : Int)) o' with ⟨r2, o2⟩
      have ht : List.take (i + 1) (key.set i k) = List.take i key ++ [k] := by
        rw [List.take_succ_eq_append_getElem (by simp; omega), List.getElem_set_self,
          List.take_set_of_le (Nat.le_refl i)]
      cases r2 <;> simp [ht]
    | throw e => exact ⟨key, rfl, rfl⟩
    | ub u => exact ⟨key, rfl, rfl⟩
    | diverge => exact ⟨key, rfl, rfl⟩

/-- The state of the cache that stands for a state of the memo. -/
def CacheRel (c : CachedData) (s : Option (List W32)) : Prop :=
  c.key.length = 8 ∧
    match s with
    | none => c.cached = false
    | some ws => c.cached = true ∧ c.key = ws

theorem go_length (kd : Ω → Int → Exec W32 × Ω) (is : List Int) (o : Ω) {ws : List W32} {o' : Ω}
    (h : readEight.go kd is o = (.ok ws, o')) : ws.length = is.length := by
  induction is generalizing o ws o' with
  | nil => simp only [readEight.go, Prod.mk.injEq, Exec.ok.injEq] at h; simp [← h.1]
  | cons i is ih =>
    simp only [readEight.go] at h
    rcases hk : kd o i with ⟨r, o1⟩
    rw [hk] at h
    cases r with
    | ok k =>
      simp only at h
      rcases hg : readEight.go kd is o1 with ⟨r2, o2⟩
      rw [hg] at h
      cases r2 with
      | ok w2 =>
        simp only [Exec.ok_bind, Prod.mk.injEq, Exec.ok.injEq] at h
        rw [← h.1, List.length_cons, ih o1 hg, List.length_cons]
      | throw e => simp at h
      | ub u => simp at h
      | diverge => simp at h
    | throw e => simp at h
    | ub u => simp at h
    | diverge => simp at h

theorem key_step (kd : Ω → Int → Exec W32 × Ω) (i : Int) (c : CachedData) (s : Option (List W32))
    (h : CacheRel c s) (o : Ω) :
    ∃ c' s' o' r, KeyCachedData.key kd i c o = (r, c', o') ∧ idealKey kd i (s, o) = (r, s', o') ∧
      CacheRel c' s' := by
  obtain ⟨hl, hs⟩ := h
  cases s with
  | some ws =>
    obtain ⟨hc, hk⟩ := hs
    refine ⟨c, some ws, o, vgetI ws i, ?_, ?_, hl, hc, hk⟩
    · simp [KeyCachedData.key, hc, hk]
    · simp [idealKey, memo]
  | none =>
    simp only at hs
    obtain ⟨key', hl', e⟩ := fill_eq kd c.key.length 0 c.key (by omega) o
    have hr : (List.range' 0 c.key.length).map (fun (j : Nat) => (j : Int)) =
        [0, 1, 2, 3, 4, 5, 6, 7] := by rw [hl]; rfl
    rw [hr] at e
    rcases hg : readEight.go kd [0, 1, 2, 3, 4, 5, 6, 7] o with ⟨r, o'⟩
    rw [hg] at e
    cases r with
    | ok ws =>
      refine ⟨⟨true, ws⟩, some ws, o', vgetI ws i, ?_, ?_, ?_, rfl, rfl⟩
      · simp only [KeyCachedData.key, hs, e]; simp
      · simp [idealKey, memo, readEight, hg]
      · exact go_length kd _ o hg
    | throw x =>
      refine ⟨⟨false, key'⟩, none, o', .throw x, ?_, ?_, by simpa [hl] using hl', rfl⟩
      · simp only [KeyCachedData.key, hs, e]; simp
      · simp [idealKey, memo, readEight, hg]
    | ub x =>
      refine ⟨⟨false, key'⟩, none, o', .ub x, ?_, ?_, by simpa [hl] using hl', rfl⟩
      · simp only [KeyCachedData.key, hs, e]; simp
      · simp [idealKey, memo, readEight, hg]
    | diverge =>
      refine ⟨⟨false, key'⟩, none, o', .diverge, ?_, ?_, by simpa [hl] using hl', rfl⟩
      · simp only [KeyCachedData.key, hs, e]; simp
      · simp [idealKey, memo, readEight, hg]

theorem runCalls_length {γ S α : Type} (call : γ → S → Exec α × S) (cs : List γ) (s : S) :
    (runCalls call cs s).1.length = cs.length := by
  induction cs generalizing s with
  | nil => rfl
  | cons c cs ih => simp only [runCalls, List.length_cons, ih]

theorem history_eq (kd : Ω → Int → Exec W32 × Ω) (hist : List Int) (c : CachedData)
    (s : Option (List W32)) (h : CacheRel c s) (o : Ω) :
    ∃ c' s' o' rs,
      runCalls (fun i s => KeyCachedData.key kd i s.1 s.2) hist (c, o) = (rs, c', o') ∧
      runCalls (idealKey kd) hist (s, o) = (rs, s', o') ∧ CacheRel c' s' := by
  induction hist generalizing c s o with
  | nil => exact ⟨c, s, o, [], rfl, rfl, h⟩
  | cons i is ih =>
    obtain ⟨c1, s1, o1, r, e1, e2, h1⟩ := key_step kd i c s h o
    obtain ⟨c2, s2, o2, rs, e3, e4, h2⟩ := ih c1 s1 h1 o1
    refine ⟨c2, s2, o2, r :: rs, ?_, ?_, h2⟩
    · simp only [runCalls, e1, e3]
    · simp only [runCalls, e2, e4]

theorem fresh_rel : CacheRel {} none := ⟨by decide, rfl⟩

/-- A wrapped object whose answers do not change. -/
def constData (kd : KeyData) : Ω → Int → Exec W32 × Ω := fun o i => (kd i, o)

theorem go_const (kd : KeyData) (is : List Int) (o : Ω) :
    readEight.go (constData kd) is o = (is.mapM kd, o) := by
  induction is with
  | nil => rfl
  | cons i is ih =>
    simp only [readEight.go, List.mapM_cons]
    have : constData kd o i = (kd i, o) := rfl
    rw [this]
    cases hk : kd i with
    | ok k => simp [ih]
    | throw e => simp
    | ub u => simp
    | diverge => simp

theorem KeyCachedData_mapM (kd : KeyData) (i : Int) :
    KeyCachedData kd i = ([0, 1, 2, 3, 4, 5, 6, 7].mapM kd >>= fun ws => vgetI ws i) := by
  simp only [KeyCachedData, List.mapM_cons, List.mapM_nil, bind_assoc, pure_bind]

theorem ideal_const (kd : KeyData) (i : Int) (s : Option (List W32))
    (h : ∀ ws, s = some ws → [0, 1, 2, 3, 4, 5, 6, 7].mapM kd = .ok ws) (o : Ω) :
    ∃ s', idealKey (constData kd) i (s, o) = (KeyCachedData kd i, s', o) ∧
      ∀ ws, s' = some ws → [0, 1, 2, 3, 4, 5, 6, 7].mapM kd = .ok ws := by
  cases s with
  | some ws =>
    refine ⟨some ws, ?_, h⟩
    simp [idealKey, memo, KeyCachedData_mapM, h ws rfl]
  | none =>
    have hg := go_const kd [0, 1, 2, 3, 4, 5, 6, 7] o
    cases hm : [0, 1, 2, 3, 4, 5, 6, 7].mapM kd with
    | ok ws =>
      rw [hm] at hg
      exact ⟨some ws, by simp [idealKey, memo, readEight, hg, KeyCachedData_mapM, hm], by simp⟩
    | throw e =>
      rw [hm] at hg
      exact ⟨none, by simp [idealKey, memo, readEight, hg, KeyCachedData_mapM, hm], by simp⟩
    | ub e =>
      rw [hm] at hg
      exact ⟨none, by simp [idealKey, memo, readEight, hg, KeyCachedData_mapM, hm], by simp⟩
    | diverge =>
      rw [hm] at hg
      exact ⟨none, by simp [idealKey, memo, readEight, hg, KeyCachedData_mapM, hm], by simp⟩

theorem ideal_const_history (kd : KeyData) (hist : List Int) (s : Option (List W32))
    (h : ∀ ws, s = some ws → [0, 1, 2, 3, 4, 5, 6, 7].mapM kd = .ok ws) (o : Ω) :
    (runCalls (idealKey (constData kd)) hist (s, o)).1 = hist.map (KeyCachedData kd) := by
  induction hist generalizing s with
  | nil => rfl
  | cons i is ih =>
    obtain ⟨s', e, h'⟩ := ideal_const kd i s h o
    simp only [runCalls, e, List.map_cons, ih s' h']

end Goost.Magma
