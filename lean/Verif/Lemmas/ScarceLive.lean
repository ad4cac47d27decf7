import Verif.Spec.ScarceLive
import Verif.Lemmas.Scarce
import Verif.Lemmas.LiveAsk
/-
Helper lemmas: running out of memory in a world with objects that have a state.
-/
namespace Goost.ScarceLive
open Goost.Magma Spec
variable {Ω V σ τ α β γ δ : Type} {I : Ω → Prop}

/-- Nothing has happened. -/
abbrev Same (v v' : V) : Prop := v' = v

theorem UW.alloc {P : V → V → Prop} {R : α → β → Prop} (hP : ∀ v, P v v) {x : Io (Nat × Ω × V) α} {y : Io V β}
    (h : UnlessOutWith I P R x y) : UnlessOutWith I P R (Scarce.alloc >>= fun _ => x) y := by
  intro v
  obtain ⟨N, h⟩ := h v
  refine ⟨N + 1, fun ω n hω => ?_⟩
  cases n with
  | zero => exact ⟨_, _, _, _, rfl, hω, .inr ⟨by omega, rfl, hP v⟩⟩
  | succ n =>
    obtain ⟨r, n', ω', v', e, h1, h2⟩ := h ω n hω
    refine ⟨r, n', ω', v', e, h1, ?_⟩
    rcases h2 with ⟨a, b, c⟩ | ⟨a, b, c⟩
    · exact .inl ⟨a, b, by omega⟩
    · exact .inr ⟨by omega, b, c⟩

theorem UW.lift {P : V → V → Prop} {R : α → β → Prop} {x : Exec α} {y : Exec β} (h : SameOutcome R x y) :
    UnlessOutWith I P R (Io.lift x : Io (Nat × Ω × V) α) (Io.lift y) :=
  fun v => ⟨0, fun ω n hω => ⟨x, n, ω, v, rfl, hω, .inl ⟨h, rfl, by omega⟩⟩⟩

theorem UW.rfl_lift {P : V → V → Prop} (x : Exec α) :
    UnlessOutWith I P Eq (Io.lift x : Io (Nat × Ω × V) α) (Io.lift x) := UW.lift (SameOutcome.refl x)

theorem UW.pure {P : V → V → Prop} {R : α → β → Prop} {a : α} {b : β} (h : R a b) :
    UnlessOutWith I P R (Pure.pure a : Io (Nat × Ω × V) α) (Pure.pure b) := UW.lift (x := .ok a) (y := .ok b) h

theorem UW.below {P : V → V → Prop} (y : Io V α) :
    UnlessOutWith I P Eq (Scarce.below (aside y) : Io (Nat × Ω × V) α) y :=
  fun v => ⟨0, fun ω n hω => ⟨(y v).1, n, ω, (y v).2, rfl, hω, .inl ⟨SameOutcome.refl _, rfl, by omega⟩⟩⟩

theorem UW.bind {P P1 : V → V → Prop} {P' : β → V → V → Prop} {R : α → β → Prop} {S : γ → δ → Prop}
    {x : Io (Nat × Ω × V) α} {y : Io V β} {f : α → Io (Nat × Ω × V) γ} {g : β → Io V δ}
    (hx : UnlessOutWith I P1 R x y) (hR : ∀ a a' b, R a b → R a' b → a = a')
    (h : ∀ v a b v1, y v = (.ok b, v1) → R a b → UnlessOutWith I (P' b) S (f a) (g b))
    (hP1 : ∀ v v', P1 v v' → P v v')
    (hP : ∀ v b v1 v2, y v = (.ok b, v1) → P' b v1 v2 → P v v2) :
    UnlessOutWith I P S (x >>= f) (y >>= g) := by
  intro v
  obtain ⟨N, hN⟩ := hx v
  rcases hy : y v with ⟨ry, v1⟩
  rw [hy] at hN
  cases ry with
  | ok b =>
    obtain ⟨N', hN'⟩ : ∃ N', ∀ a, R a b → ∀ ω n, I ω → ∃ r n' ω' v', f a (n, ω, v1) = (r, (n', ω', v')) ∧ I ω' ∧
        ((SameOutcome S r (g b v1).1 ∧ v' = (g b v1).2 ∧ n ≤ n' + N') ∨
          (n < N' ∧ r = .throw .badAlloc ∧ P' b v1 v')) := by
      by_cases he : ∃ a, R a b
      · obtain ⟨a, ha⟩ := he
        obtain ⟨N', h'⟩ := h v a b v1 hy ha v1
        exact ⟨N', fun a' ha' => hR _ _ _ ha ha' ▸ h'⟩
      · exact ⟨0, fun a ha => (he ⟨a, ha⟩).elim⟩
    rw [Io.bind_run_ok hy]
    refine ⟨N + N', fun ω n hω => ?_⟩
    obtain ⟨r, n1, ω1, v1', e, hω1, h1 | h1⟩ := hN ω n hω
    · obtain ⟨h1, rfl, h3⟩ := h1
      cases r with
      | ok a =>
        obtain ⟨r, n2, ω2, v2, e2, hω2, h4⟩ := hN' a h1 ω1 n1 hω1
        refine ⟨r, n2, ω2, v2, by rw [Io.bind_run_ok e, e2], hω2, ?_⟩
        rcases h4 with ⟨h5, h6, h7⟩ | ⟨h5, h6, h7⟩
        · exact .inl ⟨h5, h6, by omega⟩
        · exact .inr ⟨by omega, h6, hP _ _ _ _ hy h7⟩
      | throw x => exact h1.elim
      | ub u => exact h1.elim
      | diverge => exact h1.elim
    · obtain ⟨h1, rfl, h3⟩ := h1
      exact ⟨_, n1, ω1, v1', bind_run_throw e, hω1, .inr ⟨by omega, rfl, hP1 _ _ h3⟩⟩
  | throw x =>
    rw [bind_run_throw hy]
    refine ⟨N, fun ω n hω => ?_⟩
    obtain ⟨r, n1, ω1, v1', e, hω1, h1 | h1⟩ := hN ω n hω
    · obtain ⟨h1, h2, h3⟩ := h1
      cases r with
      | throw z => exact ⟨_, n1, ω1, v1', bind_run_throw e, hω1, .inl ⟨h1, h2, h3⟩⟩
      | _ => exact h1.elim
    · obtain ⟨h1, rfl, h3⟩ := h1
      exact ⟨_, n1, ω1, v1', bind_run_throw e, hω1, .inr ⟨h1, rfl, hP1 _ _ h3⟩⟩
  | ub u =>
    rw [bind_run_ub hy]
    refine ⟨N, fun ω n hω => ?_⟩
    obtain ⟨r, n1, ω1, v1', e, hω1, h1 | h1⟩ := hN ω n hω
    · obtain ⟨h1, h2, h3⟩ := h1
      cases r with
      | ub z => exact ⟨_, n1, ω1, v1', bind_run_ub e, hω1, .inl ⟨h1, h2, h3⟩⟩
      | _ => exact h1.elim
    · obtain ⟨h1, rfl, h3⟩ := h1
      exact ⟨_, n1, ω1, v1', bind_run_throw e, hω1, .inr ⟨h1, rfl, hP1 _ _ h3⟩⟩
  | diverge =>
    rw [Scarce.bind_run_diverge hy]
    refine ⟨N, fun ω n hω => ?_⟩
    obtain ⟨r, n1, ω1, v1', e, hω1, h1 | h1⟩ := hN ω n hω
    · obtain ⟨h1, h2, h3⟩ := h1
      cases r with
      | diverge => exact ⟨_, n1, ω1, v1', Scarce.bind_run_diverge e, hω1, .inl ⟨h1, h2, h3⟩⟩
      | _ => exact h1.elim
    · obtain ⟨h1, rfl, h3⟩ := h1
      exact ⟨_, n1, ω1, v1', bind_run_throw e, hω1, .inr ⟨h1, rfl, hP1 _ _ h3⟩⟩

theorem outcome_mono {R R' : α → β → Prop} (hR : ∀ a b, R a b → R' a b) {x : Exec α} {y : Exec β}
    (h : SameOutcome R x y) : SameOutcome R' x y := by
  revert h
  cases x <;> cases y <;> simp [SameOutcome]
  exact hR _ _

theorem UW.mono {P P' : V → V → Prop} {R R' : α → β → Prop} {x : Io (Nat × Ω × V) α} {y : Io V β}
    (h : UnlessOutWith I P R x y) (hP : ∀ v v', P v v' → P' v v') (hR : ∀ a b, R a b → R' a b) :
    UnlessOutWith I P' R' x y := by
  intro v
  obtain ⟨N, h⟩ := h v
  refine ⟨N, fun ω n hω => ?_⟩
  obtain ⟨r, n', ω', v', e, h1, h2⟩ := h ω n hω
  refine ⟨r, n', ω', v', e, h1, h2.imp (fun ⟨a, b, c⟩ => ⟨outcome_mono hR a, b, c⟩)
    (fun ⟨a, b, c⟩ => ⟨a, b, hP _ _ c⟩)⟩

/-- A step that does not touch the world outside, then another one. -/
theorem UW.quiet_of {P : V → V → Prop} (hP : ∀ v, P v v) {S : γ → δ → Prop}
    {x : Io (Nat × Ω × V) α} {y : Exec α} {f : α → Io (Nat × Ω × V) γ} {g : α → Io V δ}
    (hx : UnlessOutWith I Same Eq x (Io.lift y)) (h : ∀ a, y = .ok a → UnlessOutWith I P S (f a) (g a)) :
    UnlessOutWith I P S (x >>= f) (Io.lift y >>= g) := by
  refine UW.bind (P' := fun _ => P) hx (fun a a' b h1 h2 => h1.trans h2.symm) ?_ ?_ ?_
  · rintro v a _ v1 e rfl
    exact h a (congrArg Prod.fst e)
  · intro v v' h1
    exact h1 ▸ hP v
  · intro v b v1 v2 e h1
    cases y <;> simp [Io.lift] at e
    exact e.2 ▸ h1

theorem UW.quiet {P : V → V → Prop} (hP : ∀ v, P v v) {S : γ → δ → Prop}
    {x : Io (Nat × Ω × V) α} {y : Exec α} {f : α → Io (Nat × Ω × V) γ} {g : α → Io V δ}
    (hx : UnlessOutWith I Same Eq x (Io.lift y)) (h : ∀ a, UnlessOutWith I P S (f a) (g a)) :
    UnlessOutWith I P S (x >>= f) (Io.lift y >>= g) := UW.quiet_of hP hx fun a _ => h a

theorem UW.lift_bind {P : V → V → Prop} (hP : ∀ v, P v v) {S : γ → δ → Prop} (e : Exec α)
    {f : α → Io (Nat × Ω × V) γ} {g : α → Io V δ} (h : ∀ a, UnlessOutWith I P S (f a) (g a)) :
    UnlessOutWith I P S (Io.lift e >>= f) (Io.lift e >>= g) := UW.quiet hP (UW.rfl_lift e) h

/-- A call of the stream below, then another step. -/
theorem UW.below_bind {P : V → V → Prop} {P' : α → V → V → Prop} {S : γ → δ → Prop} {z : Io V α}
    {f : α → Io (Nat × Ω × V) γ} {g : α → Io V δ} (h : ∀ a, UnlessOutWith I (P' a) S (f a) (g a))
    (hP : ∀ v a v1 v2, z v = (.ok a, v1) → P' a v1 v2 → P v v2) :
    UnlessOutWith I P S (Scarce.below (aside z) >>= f) (z >>= g) := by
  refine UW.bind (P' := P') (UW.below (P := P) z) (fun a a' b h1 h2 => h1.trans h2.symm) ?_ (fun _ _ h => h) hP
  rintro v a _ v1 - rfl
  exact h a

/-! ### The cached key -/

/-- The cache has room for eight words, and if it is in use they are those of the key data. -/
def Holds (kd : KeyData) (c : CachedData) : Prop :=
  c.key.length = 8 ∧ (c.cached = true → [0, 1, 2, 3, 4, 5, 6, 7].mapM kd = .ok c.key)

/-- Key data that needs memory. -/
def needing (kd : KeyData) (i : Int) : Io (Nat × CachedData × V) W32 := do
  Scarce.alloc
  Io.lift (kd i)

theorem fill_spec (kd : KeyData) (v : V) (l i n : Nat) (c : CachedData) (hl : i + l = 8) (hc : c.key.length = 8)
    (hu : c.cached = false) :
    ∃ r n' key', Live.KeyCachedData.fill (W := Nat × CachedData × V) (·.2.1) (fun c w => (w.1, c, w.2.2))
        (needing kd) l i (n, c, v) = (r, (n', { c with key := key' }, v)) ∧ key'.length = 8 ∧ n ≤ n' + l ∧
      ((∃ ws, ((List.range' i l).map Int.ofNat).mapM kd = .ok ws ∧ r = .ok () ∧ key' = c.key.take i ++ ws) ∨
        (n < l ∧ r = .throw .badAlloc) ∨
        ((∀ u, r ≠ .ok u) ∧ SameOutcome (fun _ _ => False) r (((List.range' i l).map Int.ofNat).mapM kd))) := by
  induction l generalizing i n c with
  | zero =>
    refine ⟨.ok (), n, c.key, rfl, hc, by omega, .inl ⟨[], rfl, rfl, ?_⟩⟩
    rw [List.append_nil, List.take_of_length_le (by omega)]
  | succ l ih =>
    unfold Live.KeyCachedData.fill
    cases n with
    | zero => exact ⟨.throw .badAlloc, 0, c.key, rfl, hc, by omega, .inr (.inl ⟨by omega, rfl⟩)⟩
    | succ n =>
      rw [List.range'_succ, List.map_cons, List.mapM_cons]
      have e : (needing kd i : Io (Nat × CachedData × V) W32) (n + 1, c, v) = (kd i, (n, c, v)) := rfl
      cases hk : kd i with
      | ok k =>
        rw [hk] at e
        rw [Io.bind_run_ok e]
        obtain ⟨r, n', key', e1, h1, h2, h3⟩ := ih (i + 1) n { c with key := c.key.set i k } (by omega)
          (by simp [hc]) hu
        refine ⟨r, n', key', e1, h1, by omega, ?_⟩
        rw [Exec.ok_bind]
        rcases h3 with ⟨ws, h4, h5, h6⟩ | ⟨h4, h5⟩ | ⟨h4, h5⟩
        · refine .inl ⟨k :: ws, by rw [h4]; rfl, h5, ?_⟩
          rw [h6]
          simp only
          rw [List.take_succ_eq_append_getElem (by simp; omega)]
          simp [List.take_set_of_le]
        · exact .inr (.inl ⟨by omega, h5⟩)
        · refine .inr (.inr ⟨h4, ?_⟩)
          revert h5
          generalize (List.mapM kd (List.map Int.ofNat (List.range' (i + 1) l))) = z
          cases r <;> cases z <;> simp [SameOutcome]
      | throw x =>
        rw [hk] at e
        rw [bind_run_throw e]
        exact ⟨_, n, c.key, rfl, hc, by omega, .inr (.inr ⟨by simp, rfl⟩)⟩
      | ub x =>
        rw [hk] at e
        rw [bind_run_ub e]
        exact ⟨_, n, c.key, rfl, hc, by omega, .inr (.inr ⟨by simp, rfl⟩)⟩
      | diverge =>
        rw [hk] at e
        rw [Scarce.bind_run_diverge e]
        exact ⟨_, n, c.key, rfl, hc, by omega, .inr (.inr ⟨by simp, trivial⟩)⟩

theorem cached_unless (kd : KeyData) (index : Int) :
    UnlessOutWith (V := V) (Holds kd) Same Eq
      (Live.KeyCachedData (·.2.1) (fun c w => (w.1, c, w.2.2)) (needing kd) index)
      (Io.lift (KeyCachedData kd index)) := by
  intro v
  refine ⟨8, fun c n hc => ?_⟩
  rw [KeyCachedData_mapM]
  unfold Live.KeyCachedData
  cases hu : c.cached with
  | true =>
    refine ⟨vgetI c.key index, n, c, v, ?_, hc, .inl ⟨?_, rfl, by omega⟩⟩
    · simp only [if_true]; rfl
    · rw [hc.2 hu]; exact SameOutcome.refl _
  | false =>
    simp only [Bool.false_eq_true, if_false]
    obtain ⟨r, n', key', e, h1, h2, h3⟩ := fill_spec kd v 8 0 n c rfl hc.1 hu
    have h8 : ((List.range' 0 8).map Int.ofNat) = [0, 1, 2, 3, 4, 5, 6, 7] := rfl
    rw [h8] at h3
    rw [hc.1]
    rcases h3 with ⟨ws, h4, rfl, h6⟩ | ⟨h4, rfl⟩ | ⟨h4, h5⟩
    · simp at h6
      subst h6
      refine ⟨vgetI key' index, n', { cached := true, key := key' }, v, ?_, ⟨h1, fun _ => h4⟩, .inl ⟨?_, rfl, h2⟩⟩
      · rw [Io.bind_run_ok e]; rfl
      · rw [h4]; exact SameOutcome.refl _
    · exact ⟨_, n', { c with key := key' }, v, (by rw [bind_run_throw e]), ⟨h1, fun h => absurd h (by rw [hu]; simp)⟩, .inr ⟨h4, rfl, rfl⟩⟩
    · cases r with
      | ok u => exact (h4 u rfl).elim
      | throw x =>
        refine ⟨_, n', { c with key := key' }, v, (by rw [bind_run_throw e]), ⟨h1, fun h => absurd h (by rw [hu]; simp)⟩, .inl ⟨?_, rfl, h2⟩⟩
        revert h5
        cases List.mapM kd [0, 1, 2, 3, 4, 5, 6, 7] <;> simp [SameOutcome, Io.lift]
      | ub x =>
        refine ⟨_, n', { c with key := key' }, v, (by rw [bind_run_ub e]), ⟨h1, fun h => absurd h (by rw [hu]; simp)⟩, .inl ⟨?_, rfl, h2⟩⟩
        revert h5
        cases List.mapM kd [0, 1, 2, 3, 4, 5, 6, 7] <;> simp [SameOutcome, Io.lift]
      | diverge =>
        refine ⟨_, n', { c with key := key' }, v, (by rw [Scarce.bind_run_diverge e]), ⟨h1, fun h => absurd h (by rw [hu]; simp)⟩, .inl ⟨?_, rfl, h2⟩⟩
        revert h5
        cases List.mapM kd [0, 1, 2, 3, 4, 5, 6, 7] <;> simp [SameOutcome, Io.lift]

theorem textKey_answers (s : List Char) (sbox : Sbox) :
    AnswersUnlessOut V (Holds (Magma.KeyDataString s)) (textKey s sbox) (Magma.LazyKey.ofStringSbox s sbox) := by
  refine ⟨rfl, fun v i => ?_⟩
  show UnlessOutWith _ _ _ _ (Io.lift (KeyCachedData (Magma.KeyDataString s) i >>= fun k => sbox (k + v)))
  rw [Io.lift_bind]
  exact UW.quiet (P := Same) (fun _ => rfl) (cached_unless (Magma.KeyDataString s) i) fun k => UW.rfl_lift _

theorem nativeKey_answers (key_data : List W32) (sbox : Sbox) :
    AnswersUnlessOut V I (nativeKey key_data sbox) (Magma.LazyKey.ofNative key_data sbox) := by
  refine ⟨rfl, fun v i => ?_⟩
  show UnlessOutWith _ _ _ _ (Io.lift (KeyDataNative key_data i >>= fun k => sbox (k + v)))
  rw [Io.lift_bind]
  exact UW.lift_bind (P := Same) (fun _ => rfl) _ fun k => UW.rfl_lift _

theorem ofContainer_unless (source : σ) (c : UserContainer V) :
    UnlessOutWith I (Asked c) (SameSourceAndKey I source) (ECBSource.ofContainer source (asideContainer c))
      (Magma.ECBSource.ofUserContainer source c) := by
  have hA : ∀ v, Asked c v v := fun v => .inl rfl
  unfold ECBSource.ofContainer Magma.ECBSource.ofUserContainer ECBSource.makeKey Magma.ECBSource.makeKeyUser
  simp only [bind_assoc, asideContainer]
  refine UW.alloc hA ?_
  refine UW.below_bind (P' := fun ik v1 v2 => v2 = v1 ∨ ∃ is, c.sbox v1 = (.ok is, v2)) (fun ik => ?_) ?_
  · have hP : ∀ v, v = v ∨ ∃ is, c.sbox v = (.ok is, v) := fun v => .inl rfl
    refine UW.lift_bind hP _ fun kb => ?_
    refine UW.lift_bind hP _ fun k0 => ?_
    refine UW.lift_bind hP _ fun k1 => ?_
    refine UW.lift_bind hP _ fun k2 => ?_
    refine UW.lift_bind hP _ fun k3 => ?_
    refine UW.lift_bind hP _ fun k4 => ?_
    refine UW.lift_bind hP _ fun k5 => ?_
    refine UW.lift_bind hP _ fun k6 => ?_
    refine UW.lift_bind hP _ fun k7 => ?_
    refine UW.alloc hP ?_
    refine UW.below_bind (P' := fun _ => Same) (fun is => ?_) ?_
    · refine UW.lift_bind (P := Same) (fun _ => rfl) _ fun sbox => ?_
      refine UW.alloc (P := Same) (fun _ => rfl) ?_
      simp only [LazyKey.ofNative, bind_assoc]
      refine UW.alloc (P := Same) (fun _ => rfl) ?_
      exact UW.pure ⟨_, _, rfl, rfl, nativeKey_answers _ _⟩
    · rintro v is v1 v2 e rfl
      exact .inr ⟨is, e⟩
  · rintro v ik v1 v2 e (rfl | ⟨is, h⟩)
    · exact .inr (.inl ⟨ik, e⟩)
    · exact .inr (.inr ⟨ik, v1, is, e, h⟩)

/-! ### Blocks -/

/-- Key pointers that correspond. -/
def Points (V : Type) (I : Ω → Prop) : Option (Live.Key (Nat × Ω × V)) → Option Magma.Key → Prop
  | some k, some q => AnswersUnlessOut V I k q
  | none, none => True
  | _, _ => False

theorem Points.asLazy {k : Live.Key (Nat × Ω × V)} {q : Magma.Key} (h : AnswersUnlessOut V I k q) :
    Points V I k.asLazy q.asLazy := by
  unfold Live.Key.asLazy Magma.Key.asLazy
  rw [h.1]
  cases hq : q.isLazy
  · simp [Points]
  · simpa [Points] using h

variable {k : Option (Live.Key (Nat × Ω × V))} {q : Option Magma.Key} {m : Machine}

theorem callKey_unless (h : Points V I k q) (v : W32) (i : Int) :
    UnlessOutWith I Same Eq (Live.callKey k v i) (Io.lift (Magma.callKey q v i) : Io V _) := by
  cases k <;> cases q <;> simp only [Points] at h
  · exact UW.lift rfl
  · exact h.2 v i

theorem forwardRounds_unless (h : Points V I k q) (v : W32 × W32) :
    UnlessOutWith I Same Eq (Live.forwardRounds k v) (Io.lift (Magma.forwardRounds q v) : Io V _) := by
  unfold Live.forwardRounds Magma.forwardRounds
  simp only [Io.lift_bind]
  iterate 8 (refine UW.quiet (P := Same) (fun _ => rfl) (callKey_unless h _ _) fun _ => ?_)
  exact UW.pure rfl

theorem backwardRounds_unless (h : Points V I k q) (v : W32 × W32) :
    UnlessOutWith I Same Eq (Live.backwardRounds k v) (Io.lift (Magma.backwardRounds q v) : Io V _) := by
  unfold Live.backwardRounds Magma.backwardRounds
  simp only [Io.lift_bind]
  iterate 8 (refine UW.quiet (P := Same) (fun _ => rfl) (callKey_unless h _ _) fun _ => ?_)
  exact UW.pure rfl

/-- Blocks built in the same way, with the one or the other key. -/
inductive Like (k : Option (Live.Key (Nat × Ω × V))) (q : Option Magma.Key) :
    Live.Blk (Nat × Ω × V) → Magma.Blk → Prop where
  | raw (a b : W32) : Like k q (.raw a b) (.raw a b)
  | swapped {b b'} : Like k q b b' → Like k q (.swapped b) (.swapped b')
  | xored {a b a' b'} : Like k q a a' → Like k q b b' → Like k q (.xored a b) (.xored a' b')
  | forwarded {b b'} : Like k q b b' → Like k q (.forwarded b k) (.forwarded b' q)
  | backwarded {b b'} : Like k q b b' → Like k q (.backwarded b k) (.backwarded b' q)
  | imitShifted {b b'} : Like k q b b' → Like k q (.imitShifted b) (.imitShifted b')

theorem Like.det {b b1 : Live.Blk (Nat × Ω × V)} {b' : Magma.Blk} (h : Like k q b b') (h1 : Like k q b1 b') :
    b = b1 := by
  induction h generalizing b1 with
  | raw => cases h1; rfl
  | swapped _ ih => cases h1 with | swapped h => rw [ih h]
  | xored _ _ ih1 ih2 => cases h1 with | xored h h' => rw [ih1 h, ih2 h']
  | forwarded _ ih => cases h1 with | forwarded h => rw [ih h]
  | backwarded _ ih => cases h1 with | backwarded h => rw [ih h]
  | imitShifted _ ih => cases h1 with | imitShifted h => rw [ih h]

theorem Like.encrypted {b : Live.Blk (Nat × Ω × V)} {b' : Magma.Blk} (h : Like k q b b') :
    Like k q (Live.BlkEncrypted b k) (Magma.BlkEncrypted b' q) :=
  .swapped (.backwarded (.forwarded (.forwarded (.forwarded h))))

theorem Like.decrypted {b : Live.Blk (Nat × Ω × V)} {b' : Magma.Blk} (h : Like k q b b') :
    Like k q (Live.BlkDecrypted b k) (Magma.BlkDecrypted b' q) :=
  .swapped (.backwarded (.backwarded (.backwarded (.forwarded h))))

theorem Like.ofU64 (x : W64) : Like k q (Live.BlkRaw.ofU64 x) (Magma.BlkRaw.ofU64 x) := .raw _ _

theorem Like.finalKey (n : Nat) : Like k q (Live.BlkImitFinalKey k n) (Magma.BlkImitFinalKey q n) := by
  have h : Like k q (.imitShifted (Live.BlkEncrypted (Live.BlkRaw.ofU64 0) k))
      (.imitShifted (Magma.BlkEncrypted BlkRaw.zero q)) := .imitShifted (.encrypted (.ofU64 0))
  unfold Live.BlkImitFinalKey Magma.BlkImitFinalKey
  by_cases hn : n = 8
  · simp only [hn, if_true]; exact h
  · simp only [hn, if_false]; exact h.imitShifted

theorem value_unless (hk : Points V I k q) {b : Live.Blk (Nat × Ω × V)} {b' : Magma.Blk} (h : Like k q b b') :
    UnlessOutWith I Same Eq (Blk.value m b) (Io.lift (b'.value m) : Io V _) := by
  induction h with
  | raw a b =>
    unfold Blk.value Magma.Blk.value
    exact UW.pure rfl
  | swapped _ ih =>
    unfold Blk.value Magma.Blk.value
    rw [Io.lift_bind]
    exact UW.quiet (P := Same) (fun _ => rfl) ih fun _ => UW.pure rfl
  | xored _ _ ih1 ih2 =>
    unfold Blk.value Magma.Blk.value
    simp only [Io.lift_bind]
    exact UW.quiet (P := Same) (fun _ => rfl) ih1 fun _ => UW.quiet (P := Same) (fun _ => rfl) ih2 fun _ => UW.pure rfl
  | forwarded _ ih =>
    unfold Blk.value Magma.Blk.value
    rw [Io.lift_bind]
    exact UW.quiet (P := Same) (fun _ => rfl) ih fun _ => forwardRounds_unless hk _
  | backwarded _ ih =>
    unfold Blk.value Magma.Blk.value
    rw [Io.lift_bind]
    exact UW.quiet (P := Same) (fun _ => rfl) ih fun _ => backwardRounds_unless hk _
  | imitShifted _ ih =>
    unfold Blk.value Magma.Blk.value
    rw [Io.lift_bind]
    refine UW.alloc (P := Same) (fun _ => rfl) (UW.quiet (P := Same) (fun _ => rfl) ih fun v => ?_)
    by_cases hv : v.2 &&& 0x80000000 = 0
    · simp only [hv, if_true, Io.lift_bind]
      exact UW.quiet (P := Same) (fun _ => rfl) ih fun _ => UW.rfl_lift _
    · simp only [hv, if_false, Io.lift_bind]
      exact UW.alloc (P := Same) (fun _ => rfl) (UW.quiet (P := Same) (fun _ => rfl) ih fun _ =>
        UW.lift_bind (P := Same) (fun _ => rfl) _ fun _ => UW.pure rfl)

theorem EncryptionBase_unless {k : Live.Key (Nat × Ω × V)} {q : Magma.Key} (h : AnswersUnlessOut V I k q)
    (x : W64) : UnlessOutWith I Same Eq (Live.EncryptionBase.transform k x)
      (Io.lift (Magma.EncryptionBase.transform q x) : Io V _) := by
  unfold Live.EncryptionBase.transform Magma.EncryptionBase.transform
  simp only [Io.lift_bind]
  iterate 32 (refine UW.quiet (P := Same) (fun _ => rfl) (h.2 _ _) fun _ => ?_)
  exact UW.pure rfl

theorem ofBytes_like (buf : List Byte) :
    SameOutcome (Like k q) (Live.BlkRaw.ofBytes buf) (Magma.BlkRaw.ofBytes buf) := by
  unfold Live.BlkRaw.ofBytes Magma.BlkRaw.ofBytes
  cases load32 buf 0 <;> try (simp [SameOutcome]; done)
  cases load32 buf 4 <;> try (simp [SameOutcome]; done)
  exact .raw _ _

theorem UW.ofBytes_bind {P : V → V → Prop} (hP : ∀ v, P v v) {S : γ → δ → Prop} (buf : List Byte)
    {f : Live.Blk (Nat × Ω × V) → Io (Nat × Ω × V) γ} {g : Magma.Blk → Io V δ}
    (h : ∀ b b', Like k q b b' → UnlessOutWith I P S (f b) (g b')) :
    UnlessOutWith I P S (Io.lift (Live.BlkRaw.ofBytes buf) >>= f) (Io.lift (Magma.BlkRaw.ofBytes buf) >>= g) := by
  refine UW.bind (P1 := Same) (P' := fun _ => P) (UW.lift (ofBytes_like (k := k) (q := q) buf))
    (fun a a' b h1 h2 => h1.det h2) ?_ ?_ ?_
  · intro v a b v1 _ h1
    exact h a b h1
  · intro v v' h1
    exact h1 ▸ hP v
  · intro v b v1 v2 e h1
    have := congrArg Prod.snd e
    simp only [Io.lift] at this
    exact this ▸ h1

end Goost.ScarceLive
