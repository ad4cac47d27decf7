import Verif.Lemmas.Concurrent
import Verif.Spec.Keys
/-
Threads sharing a magma key.
-/
namespace Goost.Conc
open Spec Goost.Magma

/-- All eight words can be read. -/
def AllOk (kd : KeyData) : Prop := ∀ i : Nat, i < 8 → ∃ k, kd i = .ok k

open Classical in
/-- Every field of the cache is untouched or final; the flag guards the words. -/
noncomputable def keyDiscipline (kd : KeyData) : Discipline KeyLoc W32 where
  init _ := 0
  final l :=
    match l with
    | .cached => if AllOk kd then some 1 else none
    | .key i => if i < 8 then
        match kd i with
        | .ok k => some k
        | _ => none
      else none
  guards l l' :=
    match l with
    | .cached => ∃ i, i < 8 ∧ l' = .key i
    | _ => False

theorem KeyCachedData_all {kd : KeyData} (h : AllOk kd) (index : Int) :
    KeyCachedData kd index =
      if 0 ≤ index ∧ index < 8 then kd index else .ub .oobRead := by
  obtain ⟨k0, h0⟩ := h 0 (by omega)
  obtain ⟨k1, h1⟩ := h 1 (by omega)
  obtain ⟨k2, h2⟩ := h 2 (by omega)
  obtain ⟨k3, h3⟩ := h 3 (by omega)
  obtain ⟨k4, h4⟩ := h 4 (by omega)
  obtain ⟨k5, h5⟩ := h 5 (by omega)
  obtain ⟨k6, h6⟩ := h 6 (by omega)
  obtain ⟨k7, h7⟩ := h 7 (by omega)
  have e : KeyCachedData kd index = vgetI [k0, k1, k2, k3, k4, k5, k6, k7] index := by
    simp only [KeyCachedData]
    simp only [show kd 0 = .ok k0 from h0, show kd 1 = .ok k1 from h1, show kd 2 = .ok k2 from h2,
      show kd 3 = .ok k3 from h3, show kd 4 = .ok k4 from h4, show kd 5 = .ok k5 from h5,
      show kd 6 = .ok k6 from h6, show kd 7 = .ok k7 from h7, Exec.ok_bind]
  rw [e]
  by_cases hi : 0 ≤ index ∧ index < 8
  · rw [if_pos hi]
    obtain ⟨n, rfl⟩ : ∃ n : Nat, index = n := ⟨index.toNat, by omega⟩
    have hn : n < 8 := by omega
    have : n = 0 ∨ n = 1 ∨ n = 2 ∨ n = 3 ∨ n = 4 ∨ n = 5 ∨ n = 6 ∨ n = 7 := by omega
    rcases this with rfl | rfl | rfl | rfl | rfl | rfl | rfl | rfl
    · exact h0.symm
    · exact h1.symm
    · exact h2.symm
    · exact h3.symm
    · exact h4.symm
    · exact h5.symm
    · exact h6.symm
    · exact h7.symm
  · rw [if_neg hi, vgetI]
    split
    · rfl
    · rw [vget, List.getElem?_eq_none]
      simp only [List.length_cons, List.length_nil]
      omega

/-- The first word that cannot be read decides. -/
theorem KeyCachedData_bad {kd : KeyData} (index : Int) (j : Nat) (hj : j < 8)
    (hok : ∀ i : Nat, i < j → ∃ k, kd i = .ok k) :
    (∀ e, kd j = .throw e → KeyCachedData kd index = .throw e) ∧
    (∀ u, kd j = .ub u → KeyCachedData kd index = .ub u) ∧
    (kd j = .diverge → KeyCachedData kd index = .diverge) := by
  have hb : ∀ i : Nat, i < j → ∃ k, kd (i : Int) = .ok k := hok
  have aux : ∀ r : Exec W32, kd j = r → (∀ k, r ≠ .ok k) →
      KeyCachedData kd index = (r >>= fun _ => .diverge) := by
    intro r hr hne
    have : j = 0 ∨ j = 1 ∨ j = 2 ∨ j = 3 ∨ j = 4 ∨ j = 5 ∨ j = 6 ∨ j = 7 := by omega
    have get : ∀ i : Nat, i < j → ∃ k, kd (i : Int) = .ok k := hok
    have step : ∀ (x : Exec W32) (f : W32 → Exec W32), x = r →
        (x >>= f) = (r >>= fun _ => .diverge) := by
      rintro x f rfl
      cases x with
      | ok k => exact absurd rfl (hne k)
      | throw e => rfl
      | ub u => rfl
      | diverge => rfl
    simp only [KeyCachedData]
    rcases this with rfl | rfl | rfl | rfl | rfl | rfl | rfl | rfl
    · exact step _ _ hr
    · obtain ⟨k0, e0⟩ := get 0 (by omega)
      rw [show kd 0 = .ok k0 from e0, Exec.ok_bind]; exact step _ _ hr
    · obtain ⟨k0, e0⟩ := get 0 (by omega); obtain ⟨k1, e1⟩ := get 1 (by omega)
      rw [show kd 0 = .ok k0 from e0, Exec.ok_bind, show kd 1 = .ok k1 from e1, Exec.ok_bind]
      exact step _ _ hr
    · obtain ⟨k0, e0⟩ := get 0 (by omega); obtain ⟨k1, e1⟩ := get 1 (by omega)
      obtain ⟨k2, e2⟩ := get 2 (by omega)
      rw [show kd 0 = .ok k0 from e0, Exec.ok_bind, show kd 1 = .ok k1 from e1, Exec.ok_bind,
        show kd 2 = .ok k2 from e2, Exec.ok_bind]
      exact step _ _ hr
    · obtain ⟨k0, e0⟩ := get 0 (by omega); obtain ⟨k1, e1⟩ := get 1 (by omega)
      obtain ⟨k2, e2⟩ := get 2 (by omega); obtain ⟨k3, e3⟩ := get 3 (by omega)
      rw [show kd 0 = .ok k0 from e0, Exec.ok_bind, show kd 1 = .ok k1 from e1, Exec.ok_bind,
        show kd 2 = .ok k2 from e2, Exec.ok_bind, show kd 3 = .ok k3 from e3, Exec.ok_bind]
      exact step _ _ hr
    · obtain ⟨k0, e0⟩ := get 0 (by omega); obtain ⟨k1, e1⟩ := get 1 (by omega)
      obtain ⟨k2, e2⟩ := get 2 (by omega); obtain ⟨k3, e3⟩ := get 3 (by omega)
      obtain ⟨k4, e4⟩ := get 4 (by omega)
      rw [show kd 0 = .ok k0 from e0, Exec.ok_bind, show kd 1 = .ok k1 from e1, Exec.ok_bind,
        show kd 2 = .ok k2 from e2, Exec.ok_bind, show kd 3 = .ok k3 from e3, Exec.ok_bind,
        show kd 4 = .ok k4 from e4, Exec.ok_bind]
      exact step _ _ hr
    · obtain ⟨k0, e0⟩ := get 0 (by omega); obtain ⟨k1, e1⟩ := get 1 (by omega)
      obtain ⟨k2, e2⟩ := get 2 (by omega); obtain ⟨k3, e3⟩ := get 3 (by omega)
      obtain ⟨k4, e4⟩ := get 4 (by omega); obtain ⟨k5, e5⟩ := get 5 (by omega)
      rw [show kd 0 = .ok k0 from e0, Exec.ok_bind, show kd 1 = .ok k1 from e1, Exec.ok_bind,
        show kd 2 = .ok k2 from e2, Exec.ok_bind, show kd 3 = .ok k3 from e3, Exec.ok_bind,
        show kd 4 = .ok k4 from e4, Exec.ok_bind, show kd 5 = .ok k5 from e5, Exec.ok_bind]
      exact step _ _ hr
    · obtain ⟨k0, e0⟩ := get 0 (by omega); obtain ⟨k1, e1⟩ := get 1 (by omega)
      obtain ⟨k2, e2⟩ := get 2 (by omega); obtain ⟨k3, e3⟩ := get 3 (by omega)
      obtain ⟨k4, e4⟩ := get 4 (by omega); obtain ⟨k5, e5⟩ := get 5 (by omega)
      obtain ⟨k6, e6⟩ := get 6 (by omega)
      rw [show kd 0 = .ok k0 from e0, Exec.ok_bind, show kd 1 = .ok k1 from e1, Exec.ok_bind,
        show kd 2 = .ok k2 from e2, Exec.ok_bind, show kd 3 = .ok k3 from e3, Exec.ok_bind,
        show kd 4 = .ok k4 from e4, Exec.ok_bind, show kd 5 = .ok k5 from e5, Exec.ok_bind,
        show kd 6 = .ok k6 from e6, Exec.ok_bind]
      exact step _ _ hr
  refine ⟨fun e h => ?_, fun u h => ?_, fun h => ?_⟩
  · rw [aux _ h (by simp)]; rfl
  · rw [aux _ h (by simp)]; rfl
  · rw [aux _ h (by simp)]; rfl

theorem readKey_safe (kd : KeyData) (hall : AllOk kd) (index : Int) {K : KeyLoc → Prop}
    (hK : ∀ i : Nat, i < 8 → K (.key i)) :
    Safe (keyDiscipline kd) K (readKey index) (· = KeyCachedData kd index) := by
  rw [KeyCachedData_all hall, readKey]
  by_cases hi : 0 ≤ index ∧ index < 8
  · rw [if_pos hi, if_pos hi]
    obtain ⟨n, rfl⟩ : ∃ n : Nat, index = n := ⟨index.toNat, by omega⟩
    have hn : n < 8 := by omega
    intro x hx
    rw [show ((n : Int)).toNat = n from rfl] at hx
    rcases hx with ⟨hx, -⟩ | hx
    · exact absurd (hK n hn) hx
    · obtain ⟨k, hk⟩ := hall n hn
      simp only [keyDiscipline, hn, if_true, hk, Option.some.injEq] at hx
      show Exec.ok x = _
      rw [hk, hx]
  · rw [if_neg hi, if_neg hi]
    exact rfl

theorem fillKey_safe (kd : KeyData) (index : Int) (f : Unit → MemProg KeyLoc W32 (Exec W32))
    (hf : AllOk kd → ∀ K, (∀ i : Nat, i < 8 → K (.key i)) →
      Safe (keyDiscipline kd) K (f ()) (· = KeyCachedData kd index)) :
    ∀ (n i : Nat) (K : KeyLoc → Prop), i + n = 8 → (∀ j : Nat, j < i → K (.key j)) →
      (∀ j : Nat, j < i → ∃ k, kd j = .ok k) →
      Safe (keyDiscipline kd) K ((fillKey kd n i).bindE f) (· = KeyCachedData kd index) := by
  intro n
  induction n with
  | zero =>
    intro i K hi hK hok
    have : i = 8 := by omega
    subst this
    exact hf hok K hK
  | succ n ih =>
    intro i K hi hK hok
    have hi8 : i < 8 := by omega
    obtain ⟨b1, b2, b3⟩ := KeyCachedData_bad (kd := kd) index i hi8 hok
    rw [fillKey]
    cases hk : kd i with
    | ok k =>
      refine ⟨by simp [keyDiscipline, hi8, hk], fun l h => h.elim, ?_⟩
      refine ih (i + 1) _ (by omega) ?_ ?_
      · intro j hj
        rcases Nat.lt_or_ge j i with h | h
        · exact .inl (hK j h)
        · right; rw [show j = i by omega]
      · intro j hj
        rcases Nat.lt_or_ge j i with h | h
        · exact hok j h
        · exact ⟨k, by rw [show j = i by omega, hk]⟩
    | throw e => exact (b1 e hk).symm
    | ub u => exact (b2 u hk).symm
    | diverge => exact (b3 hk).symm

theorem evalKey_safe (kd : KeyData) (index : Int) (K : KeyLoc → Prop) :
    Safe (keyDiscipline kd) K (evalKey kd index) (· = KeyCachedData kd index) := by
  intro x hx
  show Safe _ _ (if x ≠ 0 then _ else _) _
  by_cases h0 : x = 0
  · rw [if_neg (by simpa using h0)]
    refine fillKey_safe kd index _ (fun hall K hK => ?_) 8 0 _ rfl (by intro j hj; omega)
      (by intro j hj; omega)
    refine ⟨by simp [keyDiscipline, hall], ?_, ?_⟩
    · rintro l ⟨i, hi, rfl⟩
      exact hK i hi
    · exact readKey_safe kd hall index fun i hi => .inl (hK i hi)
  · rw [if_pos (by simpa using h0)]
    have hall : AllOk kd := by
      rcases hx with ⟨-, hx⟩ | hx
      · exact absurd hx h0
      · simp only [keyDiscipline] at hx
        split at hx
        · assumption
        · cases hx
    exact readKey_safe kd hall index fun i hi => .inr ⟨h0, i, hi, rfl⟩

theorem goodKey_fresh (kd : KeyData) : Good (keyDiscipline kd) (fun _ => 0) :=
  Good.init (keyDiscipline kd)

/-! ### races -/

theorem runAlone_fillKey (kd : KeyData) (hall : AllOk kd) :
    ∀ (n i : Nat) (mem : KeyLoc → W32), i + n = 8 → (runAlone (fillKey kd n i) mem).1 = .ok () := by
  intro n
  induction n with
  | zero => intros; rfl
  | succ n ih =>
    intro i mem hi
    obtain ⟨k, hk⟩ := hall i (by omega)
    simp only [fillKey, hk, runAlone]
    exact ih (i + 1) _ (by omega)

theorem race_of_fresh_key (kd : KeyData) (hall : AllOk kd) {α : Type} (s : Sys KeyLoc W32 α)
    (t u : Nat) (htu : t ≠ u) (i j : Int) (f g : Exec W32 → MemProg KeyLoc W32 α)
    (ht : s.threads t = (evalKey kd i).bind f) (hu : s.threads u = (evalKey kd j).bind g)
    (h0 : s.mem .cached = 0) : ∃ n, (s.run (List.replicate n t)).Race := by
  have hu' : ∀ n, (s.run (List.replicate n t)).threads u = s.threads u := fun n =>
    run_other _ (by simp [List.mem_replicate]; exact fun _ h => htu h.symm)
  let rest : Exec Unit → MemProg KeyLoc W32 (Exec W32) := fun r =>
    (Prog.ret r).bindE fun _ => .op (.store .cached 1) fun _ => readKey i
  have hstep : s.step t = ⟨fun w => if w = t then
      ((fillKey kd 8 0).bind rest).bind f else s.threads w, s.mem⟩ := by
    rw [Sys.step, ht]
    simp only [evalKey, Prog.bind, h0, ne_eq, not_true_eq_false, if_false]
    rfl
  have assoc : ∀ (q : MemProg KeyLoc W32 (Exec Unit)),
      (q.bind rest).bind f = q.bind fun r => (rest r).bind f := by
    intro q
    induction q with
    | ret a => rfl
    | op o k ih => simp only [Prog.bind, ih]
  rw [assoc] at hstep
  obtain ⟨n, h1, -⟩ := run_own_turns t (fillKey kd 8 0) (fun r => (rest r).bind f) (s.step t)
    (by simp [hstep])
  rw [runAlone_fillKey kd hall 8 0 _ rfl] at h1
  refine ⟨n + 1, t, u, .cached, true, false, htu, ?_, ?_, .inl rfl⟩
  · rw [show s.run (List.replicate (n + 1) t) = (s.step t).run (List.replicate n t) by
      rw [List.replicate_succ]; rfl, h1]
    rfl
  · rw [hu', hu]
    rfl

theorem evalKey_readsOnly (kd : KeyData) (mem : KeyLoc → W32) (h : mem .cached ≠ 0) (index : Int) :
    ReadsOnly mem (evalKey kd index) := by
  simp only [evalKey, ReadsOnly]
  rw [if_pos h, readKey]
  split <;> trivial

theorem readsOnly_handle_key (kd : KeyData) (mem : KeyLoc → W32) (h : mem .cached ≠ 0) {α : Type}
    (p : Prog Int (Exec W32) α) : ReadsOnly mem (p.handle (evalKey kd)) := by
  induction p with
  | ret a => trivial
  | op o k ih => exact ReadsOnly.bind (evalKey_readsOnly kd mem h o) (ih _)

theorem cached_after (kd : KeyData) (hall : AllOk kd) (mem : KeyLoc → W32) (index : Int) :
    (runAlone (evalKey kd index) mem).2 .cached ≠ 0 := by
  have hr : ∀ mem : KeyLoc → W32, (runAlone (readKey index) mem).2 = mem := by
    intro mem
    rw [readKey]
    split <;> rfl
  simp only [evalKey, runAlone]
  split
  · rw [hr]; assumption
  · rw [runAlone_bindE, runAlone_fillKey kd hall 8 0 _ rfl]
    simp only [runAlone, hr]
    simp

/-! ### whole encryptions -/

theorem alone_transform (kd : KeyData) (sbox : Sbox) (v : W32) (i : Int) :
    alone kd (askTransform sbox v i) = (LazyKey kd sbox).transform v i := rfl

theorem alone_askRounds_cons (kd : KeyData) (sbox : Sbox) (i : Int) (is : List Int) (a b : W32) :
    alone kd (askRounds sbox (i :: is) (a, b)) =
      ((LazyKey kd sbox).transform a i >>= fun t => alone kd (askRounds sbox is (b ^^^ t, a))) := by
  rw [askRounds, alone_bindE, alone_transform]

theorem alone_forward (kd : KeyData) (sbox : Sbox) (v : W32 × W32) :
    alone kd (askRounds sbox [0, 1, 2, 3, 4, 5, 6, 7] v) =
      forwardRounds (some (LazyKey kd sbox)) v := by
  obtain ⟨a, b⟩ := v
  simp only [alone_askRounds_cons, forwardRounds, callKey]
  rfl

theorem alone_backward (kd : KeyData) (sbox : Sbox) (v : W32 × W32) :
    alone kd (askRounds sbox [7, 6, 5, 4, 3, 2, 1, 0] v) =
      backwardRounds (some (LazyKey kd sbox)) v := by
  obtain ⟨a, b⟩ := v
  simp only [alone_askRounds_cons, backwardRounds, callKey]
  rfl

theorem alone_encrypt (m : Machine) (kd : KeyData) (sbox : Sbox) (v : W32 × W32) :
    alone kd (askEncrypt sbox v) =
      (BlkEncrypted (.raw v.1 v.2) (some (LazyKey kd sbox))).value m := by
  simp only [askEncrypt, alone_bindE, alone_forward, alone_backward, BlkEncrypted, Blk.value,
    Exec.ok_bind, bind_assoc]
  rfl

theorem alone_decrypt (m : Machine) (kd : KeyData) (sbox : Sbox) (v : W32 × W32) :
    alone kd (askDecrypt sbox v) =
      (BlkDecrypted (.raw v.1 v.2) (some (LazyKey kd sbox))).value m := by
  simp only [askDecrypt, alone_bindE, alone_forward, alone_backward, BlkDecrypted, Blk.value,
    Exec.ok_bind, bind_assoc]
  rfl

end Goost.Conc
