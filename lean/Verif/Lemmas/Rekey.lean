import Verif.Spec.Rekey
import Verif.Lemmas.LiveAsk
/-
Helper lemmas for C129: streams whose key is changed between their calls.
-/
namespace Goost.Rekey
open Goost.Magma Spec Spec.Magma Spec.Modes Spec.Rekey
variable {Ω V σ τ α β : Type}

/-! ### One block under one state -/

/-- In the state `ω` the call returns `a` and changes nothing. -/
def Gives (ω : Ω) (x : Io (Ω × V) α) (a : α) : Prop := ∀ v, x (ω, v) = (.ok a, (ω, v))

theorem Gives.pure (ω : Ω) (a : α) : Gives (V := V) ω (Pure.pure a) a := fun _ => rfl

theorem Gives.bind {ω : Ω} {x : Io (Ω × V) α} {a : α} {g : α → Io (Ω × V) β} {b : β}
    (h : Gives ω x a) (h' : Gives ω (g a) b) : Gives ω (x >>= g) b := fun v =>
  (Io.bind_run_ok (h v)).trans (h' v)

variable {k : Live.Key (Ω × V)} {f : Ω → Fin 8 → W32 → W32}

theorem Follows.gives (h : Follows k f) (ω : Ω) (x : W32) (i : Fin 8) :
    Gives ω (k.transform x (i.val : Int)) (f ω i x) := fun v => h.answers x i ω v

theorem forwardRounds_gives (h : Follows k f) (ω : Ω) (v : W32 × W32) :
    Gives ω (Live.forwardRounds (some k) v) (fwd (f ω) v) := by
  unfold Live.forwardRounds
  have g := Follows.gives h ω
  exact Gives.bind (g _ 0) <| Gives.bind (g _ 1) <| Gives.bind (g _ 2) <|
    Gives.bind (g _ 3) <| Gives.bind (g _ 4) <| Gives.bind (g _ 5) <|
    Gives.bind (g _ 6) <| Gives.bind (g _ 7) <| Gives.pure _ _

theorem backwardRounds_gives (h : Follows k f) (ω : Ω) (v : W32 × W32) :
    Gives ω (Live.backwardRounds (some k) v) (bwd (f ω) v) := by
  unfold Live.backwardRounds
  have g := Follows.gives h ω
  exact Gives.bind (g _ 7) <| Gives.bind (g _ 6) <| Gives.bind (g _ 5) <|
    Gives.bind (g _ 4) <| Gives.bind (g _ 3) <| Gives.bind (g _ 2) <|
    Gives.bind (g _ 1) <| Gives.bind (g _ 0) <| Gives.pure _ _

theorem BlkEncrypted_gives (h : Follows k f) (ω : Ω) (m : Machine) (a b : W32) :
    Gives ω ((Live.BlkEncrypted (.raw a b) (some k)).value m) (encP (f ω) (a, b)) := by
  have h1 : Gives ω ((Live.Blk.forwarded (.raw a b) (some k)).value m) (fwd (f ω) (a, b)) :=
    Gives.bind (Gives.pure _ _) (forwardRounds_gives h ω _)
  have h2 := Gives.bind (g := Live.forwardRounds (some k)) h1 (forwardRounds_gives h ω _)
  have h3 := Gives.bind (g := Live.forwardRounds (some k)) h2 (forwardRounds_gives h ω _)
  have h4 := Gives.bind (g := Live.backwardRounds (some k)) h3 (backwardRounds_gives h ω _)
  exact Gives.bind (g := fun v => Pure.pure (v.2, v.1)) h4 (Gives.pure _ _)

theorem BlkDecrypted_gives (h : Follows k f) (ω : Ω) (m : Machine) (a b : W32) :
    Gives ω ((Live.BlkDecrypted (.raw a b) (some k)).value m) (decP (f ω) (a, b)) := by
  have h1 : Gives ω ((Live.Blk.forwarded (.raw a b) (some k)).value m) (fwd (f ω) (a, b)) :=
    Gives.bind (Gives.pure _ _) (forwardRounds_gives h ω _)
  have h2 := Gives.bind (g := Live.backwardRounds (some k)) h1 (backwardRounds_gives h ω _)
  have h3 := Gives.bind (g := Live.backwardRounds (some k)) h2 (backwardRounds_gives h ω _)
  have h4 := Gives.bind (g := Live.backwardRounds (some k)) h3 (backwardRounds_gives h ω _)
  exact Gives.bind (g := fun v => Pure.pure (v.2, v.1)) h4 (Gives.pure _ _)

theorem EncryptionBase_gives (h : Follows k f) (ω : Ω) (x : W64) :
    Gives ω (Live.EncryptionBase.transform k x) (encF (f ω) x) := by
  have e2 : EncryptionBase.transform (plainKey (f ω)) x = .ok (encF (f ω) x) :=
    EncryptionBase_eq (plainKey_computes (f ω)) x
  unfold EncryptionBase.transform at e2
  have pc := plainKey_computes (f ω)
  simp only [pc.c0, pc.c1, pc.c2, pc.c3, pc.c4, pc.c5, pc.c6, pc.c7, Exec.ok_bind, Exec.pure_eq,
    Exec.ok.injEq] at e2
  rw [← e2]
  unfold Live.EncryptionBase.transform
  have up : ∀ {β : Type} {g : W32 → Io (Ω × V) β} {b : β} (v : W32) (i : Fin 8),
      Gives ω (g (f ω i v)) b → Gives ω (k.transform v (i.val : Int) >>= g) b :=
    fun v i h' => Gives.bind (Follows.gives h ω v i) h'
  iterate 3
    refine up _ 0 ?_
    refine up _ 1 ?_
    refine up _ 2 ?_
    refine up _ 3 ?_
    refine up _ 4 ?_
    refine up _ 5 ?_
    refine up _ 6 ?_
    refine up _ 7 ?_
  refine up _ 7 ?_
  refine up _ 6 ?_
  refine up _ 5 ?_
  refine up _ 4 ?_
  refine up _ 3 ?_
  refine up _ 2 ?_
  refine up _ 1 ?_
  refine up _ 0 ?_
  exact Gives.pure _ _

/-- The encryption of a register. -/
theorem register_gives (h : Follows k f) (ω : Ω) (m : Machine) (r : W64) :
    ∃ e, join32 e = encF (f ω) r ∧
      Gives ω ((Live.BlkEncrypted (Live.BlkRaw.ofU64 r) k.asLazy).value m) e := by
  obtain ⟨e, he, hx⟩ := BlkEncrypted_ofU64 (plainKey_computes (f ω)) m r
  have ha : k.asLazy = some k := by simp [Live.Key.asLazy, h.isLazy]
  rw [ha]
  have h2 : (BlkEncrypted (BlkRaw.ofU64 r) (some (plainKey (f ω)))).value m = .ok _ :=
    BlkEncrypted_value (plainKey_computes (f ω)) m rfl
  rw [he] at h2
  cases h2
  exact ⟨_, hx, BlkEncrypted_gives h ω m _ _⟩

/-! ### Blocks with states -/

theorem byLast_append {p : List (Byte × Ω)} {b : Byte} {ω : Ω} (h : p.length = 7) (l : List (Byte × Ω)) :
    byLast (p ++ (b, ω) :: l) = (ω, block64 (p.map Prod.fst ++ [b])) :: byLast l := by
  match p, h with
  | [_, _, _, _, _, _, _], _ => rfl

theorem byLast_short {p : List (Byte × Ω)} (h : p.length < 8) : byLast p = [] := by
  match p, h with
  | [], _ | [_], _ | [_, _], _ | [_, _, _], _ | [_, _, _, _], _ | [_, _, _, _, _], _
  | [_, _, _, _, _, _], _ | [_, _, _, _, _, _, _], _ => rfl

theorem cfbEncBy_nil (E : Ω → W64 → W64) (R : List W64) : cfbEncBy E R [] = [] := by
  cases R <;> rfl

theorem cfbDecBy_nil (E : Ω → W64 → W64) (R : List W64) : cfbDecBy E R [] = [] := by
  cases R <;> rfl

/-! ### Sinks -/

/-- A call that the outer state does not see. -/
theorem aside_run (x : Io V α) (ω : Ω) (v v' : V) (a : α) (h : x v = (.ok a, v')) :
    (aside x : Io (Ω × V) α) (ω, v) = (.ok a, (ω, v')) := by
  simp only [aside, h]

/-- One write in the state `ω`. -/
theorem CFBSink_loop_by (m : Machine) (h : Follows k f) (wr : τ → List Byte → Io V τ)
    (content : τ → V → List Byte) (hw : Collects wr content) (ω : Ω) (d : List Byte) (p : List Byte)
    (hp : p.length < 8) (s : τ) (rl rr : W64) (v : V) :
    ∃ s' rl' rr' p' v' c, p'.length < 8 ∧ p'.length % 8 = (p.length + d.length) % 8 ∧
      Live.CFBSink.loop m (fun s d => aside (wr s d)) k d s p rl rr (ω, v) =
        (.ok ⟨s', k, rl', rr', p'⟩, (ω, v')) ∧
      content s' v' = content s v ++ unblocks64 c ∧
      ∀ ps : List (Byte × Ω), ps.map Prod.fst = p → ∃ ps' : List (Byte × Ω), ps'.map Prod.fst = p' ∧
        ∀ l, cfbEncBy (fun ω => encF (f ω)) [rl, rr] (byLast (ps ++ (d.map (fun b => (b, ω)) ++ l))) =
          c ++ cfbEncBy (fun ω => encF (f ω)) [rl', rr'] (byLast (ps' ++ l)) := by
  induction d generalizing p s rl rr v with
  | nil => exact ⟨s, rl, rr, p, v, [], hp, rfl, rfl, by simp, fun ps hps => ⟨ps, hps, fun l => rfl⟩⟩
  | cons b d ih =>
    unfold Live.CFBSink.loop
    simp only
    by_cases h8 : (p ++ [b]).length = 8
    · obtain ⟨e, hx, he⟩ := register_gives h ω m rl
      obtain ⟨s1, v1, e1, c1⟩ := hw s v (bytesOf64 (block64 (p ++ [b]) ^^^ join32 e))
      obtain ⟨s', rl', rr', p', v', c, g1, g2, g3, g4, g5⟩ :=
        ih [] (by simp) s1 rr (block64 (p ++ [b]) ^^^ join32 e) v1
      have h7 : p.length = 7 := by simpa using h8
      refine ⟨s', rl', rr', p', v', (block64 (p ++ [b]) ^^^ join32 e) :: c, g1, ?_, ?_, ?_, ?_⟩
      · rw [g2]; simp only [List.length_nil, List.length_cons]; omega
      · rw [if_pos h8, Io.bind_run_ok (he v), xorWords_eq h8, Io.lift_ok_bind,
          Io.bind_run_ok (aside_run _ ω _ _ _ e1), load64_eq (by simp), Io.lift_ok_bind, block64_bytesOf64]
        exact g3
      · rw [g4, c1, unblocks64_cons, List.append_assoc]
      · intro ps hps
        obtain ⟨ps', q1, q2⟩ := g5 [] rfl
        refine ⟨ps', q1, fun l => ?_⟩
        have hl : ps.length = 7 := by rw [← h7, ← hps, List.length_map]
        rw [List.map_cons, List.cons_append, byLast_append hl, hps]
        simp only [cfbEncBy, List.cons_append, List.nil_append]
        rw [hx] at q2 ⊢
        rw [← q2 l]
        rfl
    · have hp' : (p ++ [b]).length < 8 := by
        simp only [List.length_append, List.length_cons, List.length_nil] at h8 ⊢
        omega
      obtain ⟨s', rl', rr', p', v', c, g1, g2, g3, g4, g5⟩ := ih (p ++ [b]) hp' s rl rr v
      refine ⟨s', rl', rr', p', v', c, g1, ?_, by rw [if_neg h8]; exact g3, g4, ?_⟩
      · rw [g2]; simp only [List.length_append, List.length_nil, List.length_cons]; omega
      · intro ps hps
        obtain ⟨ps', q1, q2⟩ := g5 (ps ++ [(b, ω)]) (by simp [hps])
        refine ⟨ps', q1, fun l => ?_⟩
        rw [← q2 l]
        simp

/-- The steps on a `CFBSink` that holds back the bytes `p`. -/
theorem CFBSink_steps (m : Machine) (h : Follows k f) (wr : τ → List Byte → Io V τ)
    (content : τ → V → List Byte) (hw : Collects wr content) (l : List (Step Ω (List Byte))) (ω : Ω)
    (ps : List (Byte × Ω)) (hp : ps.length < 8) (s : τ) (rl rr : W64) (v : V) :
    ∃ t v', writeSteps (Live.CFBSink.write m fun s d => aside (wr s d)) l
        ⟨s, k, rl, rr, ps.map Prod.fst⟩ (ω, v) = (.ok t, (stateAfter ω l, v')) ∧
      content t.sink v' = content s v ++
        unblocks64 (cfbEncBy (fun ω => encF (f ω)) [rl, rr] (byLast (ps ++ written ω l))) ∧
      t.plain.length < 8 ∧ t.plain.length % 8 = (ps.length + (written ω l).length) % 8 := by
  induction l generalizing ω ps s rl rr v with
  | nil =>
    refine ⟨_, v, rfl, ?_, by simpa using hp, by simp [written]⟩
    simp [written, byLast_short hp, cfbEncBy_nil]
  | cons x l ih =>
    cases x with
    | change ω' => exact ih ω' ps hp s rl rr v
    | call d =>
      obtain ⟨s', rl', rr', p', v', c, g1, g2, g3, g4, g5⟩ :=
        CFBSink_loop_by m h wr content hw ω d (ps.map Prod.fst) (by simpa using hp) s rl rr v
      obtain ⟨ps', q1, q2⟩ := g5 ps rfl
      have hl : ps'.length = p'.length := by rw [← q1, List.length_map]
      obtain ⟨t, v2, r1, r2, r3, r4⟩ := ih ω ps' (by omega) s' rl' rr' v'
      refine ⟨t, v2, ?_, ?_, r3, ?_⟩
      · show (Live.CFBSink.write m _ _ d >>= fun t => writeSteps _ l t) (ω, v) = _
        refine (Io.bind_run_ok (a := ⟨s', k, rl', rr', p'⟩) (w' := (ω, v')) g3).trans ?_
        rw [← q1]
        exact r1
      · rw [r2, g4, written, q2, unblocks64_append, List.append_assoc]
      · rw [r4, hl, Nat.add_mod, g2, written, List.length_append, List.length_map, List.length_map]
        omega

/-- One write in the state `ω`, gost89. -/
theorem gost89_CFBSink_loop_by (m : Machine) (h : Follows k f) (wr : τ → List Byte → Io V τ)
    (content : τ → V → List Byte) (hw : Collects wr content) (ω : Ω) (d : List Byte) (p : List Byte)
    (hp : p.length < 8) (s : τ) (r : W64) (v : V) :
    ∃ s' r' p' v' c, p'.length < 8 ∧ p'.length % 8 = (p.length + d.length) % 8 ∧
      Live.Gost89.CFBSink.loop m (fun s d => aside (wr s d)) k d s p r (ω, v) =
        (.ok ⟨s', k, r', p'⟩, (ω, v')) ∧
      content s' v' = content s v ++ unblocks64 c ∧
      ∀ ps : List (Byte × Ω), ps.map Prod.fst = p → ∃ ps' : List (Byte × Ω), ps'.map Prod.fst = p' ∧
        ∀ l, cfbEncBy (fun ω => encF (f ω)) [r] (byLast (ps ++ (d.map (fun b => (b, ω)) ++ l))) =
          c ++ cfbEncBy (fun ω => encF (f ω)) [r'] (byLast (ps' ++ l)) := by
  induction d generalizing p s r v with
  | nil => exact ⟨s, r, p, v, [], hp, rfl, rfl, by simp, fun ps hps => ⟨ps, hps, fun l => rfl⟩⟩
  | cons b d ih =>
    unfold Live.Gost89.CFBSink.loop
    simp only
    by_cases h8 : (p ++ [b]).length = 8
    · obtain ⟨e, hx, he⟩ := register_gives h ω m r
      obtain ⟨s1, v1, e1, c1⟩ := hw s v (bytesOf64 (block64 (p ++ [b]) ^^^ join32 e))
      obtain ⟨s', r', p', v', c, g1, g2, g3, g4, g5⟩ :=
        ih [] (by simp) s1 (block64 (p ++ [b]) ^^^ join32 e) v1
      have h7 : p.length = 7 := by simpa using h8
      refine ⟨s', r', p', v', (block64 (p ++ [b]) ^^^ join32 e) :: c, g1, ?_, ?_, ?_, ?_⟩
      · rw [g2]; simp only [List.length_nil, List.length_cons]; omega
      · rw [if_pos h8, Io.bind_run_ok (he v), xorWords_eq h8, Io.lift_ok_bind,
          Io.bind_run_ok (aside_run _ ω _ _ _ e1), load64_eq (by simp), Io.lift_ok_bind, block64_bytesOf64]
        exact g3
      · rw [g4, c1, unblocks64_cons, List.append_assoc]
      · intro ps hps
        obtain ⟨ps', q1, q2⟩ := g5 [] rfl
        refine ⟨ps', q1, fun l => ?_⟩
        have hl : ps.length = 7 := by rw [← h7, ← hps, List.length_map]
        rw [List.map_cons, List.cons_append, byLast_append hl, hps]
        simp only [cfbEncBy, List.cons_append, List.nil_append]
        rw [hx] at q2 ⊢
        rw [← q2 l]
        rfl
    · have hp' : (p ++ [b]).length < 8 := by
        simp only [List.length_append, List.length_cons, List.length_nil] at h8 ⊢
        omega
      obtain ⟨s', r', p', v', c, g1, g2, g3, g4, g5⟩ := ih (p ++ [b]) hp' s r v
      refine ⟨s', r', p', v', c, g1, ?_, by rw [if_neg h8]; exact g3, g4, ?_⟩
      · rw [g2]; simp only [List.length_append, List.length_nil, List.length_cons]; omega
      · intro ps hps
        obtain ⟨ps', q1, q2⟩ := g5 (ps ++ [(b, ω)]) (by simp [hps])
        refine ⟨ps', q1, fun l => ?_⟩
        rw [← q2 l]
        simp

/-- The steps on a `gost89::CFBSink` that holds back the bytes `p`. -/
theorem gost89_CFBSink_steps (m : Machine) (h : Follows k f) (wr : τ → List Byte → Io V τ)
    (content : τ → V → List Byte) (hw : Collects wr content) (l : List (Step Ω (List Byte))) (ω : Ω)
    (ps : List (Byte × Ω)) (hp : ps.length < 8) (s : τ) (r : W64) (v : V) :
    ∃ t v', writeSteps (Live.Gost89.CFBSink.write m fun s d => aside (wr s d)) l
        ⟨s, k, r, ps.map Prod.fst⟩ (ω, v) = (.ok t, (stateAfter ω l, v')) ∧
      content t.sink v' = content s v ++
        unblocks64 (cfbEncBy (fun ω => encF (f ω)) [r] (byLast (ps ++ written ω l))) ∧
      t.plain.length < 8 ∧ t.plain.length % 8 = (ps.length + (written ω l).length) % 8 := by
  induction l generalizing ω ps s r v with
  | nil =>
    refine ⟨_, v, rfl, ?_, by simpa using hp, by simp [written]⟩
    simp [written, byLast_short hp, cfbEncBy_nil]
  | cons x l ih =>
    cases x with
    | change ω' => exact ih ω' ps hp s r v
    | call d =>
      obtain ⟨s', r', p', v', c, g1, g2, g3, g4, g5⟩ :=
        gost89_CFBSink_loop_by m h wr content hw ω d (ps.map Prod.fst) (by simpa using hp) s r v
      obtain ⟨ps', q1, q2⟩ := g5 ps rfl
      have hl : ps'.length = p'.length := by rw [← q1, List.length_map]
      obtain ⟨t, v2, r1, r2, r3, r4⟩ := ih ω ps' (by omega) s' r' v'
      refine ⟨t, v2, ?_, ?_, r3, ?_⟩
      · show (Live.Gost89.CFBSink.write m _ _ d >>= fun t => writeSteps _ l t) (ω, v) = _
        refine (Io.bind_run_ok (a := ⟨s', k, r', p'⟩) (w' := (ω, v')) g3).trans ?_
        rw [← q1]
        exact r1
      · rw [r2, g4, written, q2, unblocks64_append, List.append_assoc]
      · rw [r4, hl, Nat.add_mod, g2, written, List.length_append, List.length_map, List.length_map]
        omega

/-! ### Sources -/

theorem byFirst_nil : byFirst ([] : List Ω) = [] := by rw [byFirst]

theorem byFirst_cons (ω : Ω) (l : List Ω) : byFirst (ω :: l) = ω :: byFirst (l.drop 7) := by rw [byFirst]

/-- What a `CFBSource` that has `p` in hand and `c` before it returns to the demands `D`. -/
def out (E : Ω → W64 → W64) (p : List Byte) (R : List W64) (c : List Byte) (D : List Ω) : List Byte :=
  (p ++ unblocks64 (cfbDecBy E R ((byFirst (D.drop p.length)).zip (blocks64 c)))).take D.length

theorem out_end (E : Ω → W64 → W64) (R : List W64) (D : List Ω) : out E [] R [] D = [] := by
  have : blocks64 [] = [] := rfl
  simp [out, this, cfbDecBy_nil]

theorem out_enough (E : Ω → W64 → W64) (p : List Byte) (R : List W64) (c : List Byte) (n : Nat) (ω : Ω)
    (D : List Ω) (h : n ≤ p.length) :
    out E p R c (List.replicate n ω ++ D) = p.take n ++ out E (p.drop n) R c D := by
  have e1 : (List.replicate n ω ++ D).drop p.length = D.drop (p.drop n).length := by
    rw [List.drop_append, List.length_replicate, List.length_drop, List.drop_of_length_le (by simpa using h)]
    rfl
  unfold out
  rw [e1]
  generalize unblocks64 _ = u
  rw [List.length_append, List.length_replicate, List.take_add, List.take_append_of_le_length h,
    List.drop_append_of_le_length h]

theorem out_last (E : Ω → W64 → W64) (p : List Byte) (R : List W64) (n : Nat) (ω : Ω)
    (D : List Ω) (h : p.length < n) :
    out E p R [] (List.replicate n ω ++ D) = p := by
  have : blocks64 [] = [] := rfl
  simp only [out, this, List.zip_nil_right, cfbDecBy_nil, unblocks64_nil, List.append_nil]
  exact List.take_of_length_le (by simp; omega)

theorem out_block (E : Ω → W64 → W64) (p : List Byte) (r : W64) (R : List W64) (x c : List Byte) (n : Nat)
    (ω : Ω) (D : List Ω) (h : p.length < n) (hx : x.length = 8) :
    out E p (r :: R) (x ++ c) (List.replicate n ω ++ D) =
      p ++ out E (bytesOf64 (block64 x ^^^ E ω r)) (R ++ [block64 x]) c
        (List.replicate (n - p.length) ω ++ D) := by
  have e1 : (List.replicate n ω ++ D).drop p.length = List.replicate (n - p.length) ω ++ D := by
    rw [List.drop_append_of_le_length (by simp; omega), List.drop_replicate]
  obtain ⟨j, hj⟩ : ∃ j, n - p.length = j + 1 := ⟨n - p.length - 1, by omega⟩
  have e2 : byFirst (List.replicate (n - p.length) ω ++ D) =
      ω :: byFirst ((List.replicate (n - p.length) ω ++ D).drop 8) := by
    rw [hj, List.replicate_succ, List.cons_append, byFirst_cons, List.drop_succ_cons]
  unfold out
  rw [e1, e2, blocks64_append hx, List.zip_cons_cons]
  simp only [cfbDecBy, unblocks64_cons, bytesOf64_length]
  rw [List.take_append, List.take_of_length_le (by simp; omega)]
  congr 2
  simp only [List.length_append, List.length_replicate]
  omega

variable {rd : σ → Nat → Io V (List Byte × σ)} {R : σ → V → List Byte → Prop}

theorem CFBSource_loop_by (m : Machine) (h : Follows k f)
    (hR : ∀ s w d, R s w d → ∃ s' w', rd s 8 w = (.ok (d.take 8, s'), w') ∧ R s' w' (d.drop 8))
    (ω : Ω) (size : Nat) (fuel : Nat) (s : σ) (v : V) (c p : List Byte) (rl rr : W64) (res : List Byte)
    (hs : R s v c) (hc : c.length % 8 = 0) (hres : res.length ≤ size) (hf : 1 ≤ fuel)
    (hf' : size - res.length + (if p = [] then 1 else 0) ≤ fuel) :
    ∃ x s' rl' rr' p' v' c',
      Live.CFBSource.loop m (fun s n => aside (rd s n)) k size fuel s p rl rr res (ω, v) =
        (.ok (res ++ x, ⟨s', k, rl', rr', p'⟩), (ω, v')) ∧ R s' v' c' ∧ c'.length % 8 = 0 ∧
      ∀ D, out (fun ω => encF (f ω)) p [rl, rr] c (List.replicate (size - res.length) ω ++ D) =
        x ++ out (fun ω => encF (f ω)) p' [rl', rr'] c' D := by
  induction fuel generalizing s v c p rl rr res with
  | zero => omega
  | succ fuel ih =>
    unfold Live.CFBSource.loop
    by_cases hlt : res.length < size
    · rw [if_pos hlt, drain_eq]
      simp only
      by_cases hp : size - res.length ≤ p.length
      · rw [if_pos (by simp; omega)]
        exact ⟨p.take (size - res.length), s, rl, rr, p.drop (size - res.length), v, c, rfl, hs, hc,
          fun D => out_enough _ _ _ _ _ _ _ hp⟩
      · have hp' : p.length < size - res.length := by omega
        obtain ⟨e, hx, he⟩ := register_gives h ω m rl
        obtain ⟨s1, v1, e1, hs1⟩ := hR s v c hs
        rw [if_neg (by simp; omega), List.take_of_length_le (by omega)]
        by_cases hc0 : c = []
        · subst hc0
          refine ⟨p, s1, rl, rr, [], v1, [], ?_, by simpa using hs1, rfl, fun D => ?_⟩
          · rw [Io.bind_run_ok (he v), Io.bind_run_ok (aside_run _ ω _ _ _ e1)]
            rfl
          · rw [out_last _ _ _ _ _ _ hp', out_end, List.append_nil]
        · have hcl : 8 ≤ c.length := by
            have := List.length_pos_iff.2 hc0
            omega
          have h8 : (c.take 8).length = 8 := by rw [List.length_take]; omega
          have hne : c.take 8 ≠ [] := by intro h0; rw [h0] at h8; simp at h8
          have hpb : bytesOf64 (block64 (c.take 8) ^^^ join32 e) ≠ [] := bytesOf64_ne _
          obtain ⟨x, s', rl', rr', p', v', c', g1, g2, g3, g4⟩ := ih s1 v1 (c.drop 8)
            (bytesOf64 (block64 (c.take 8) ^^^ join32 e)) rr (block64 (c.take 8)) (res ++ p) hs1
            (by rw [List.length_drop]; omega) (by simp; omega)
            (by
              by_cases h0 : p = []
              · rw [if_pos h0] at hf'; omega
              · have := List.length_pos_iff.2 h0
                rw [if_neg h0] at hf'; omega)
            (by
              rw [if_neg hpb, List.length_append]
              by_cases h0 : p = []
              · rw [if_pos h0] at hf'; omega
              · have := List.length_pos_iff.2 h0
                rw [if_neg h0] at hf'; omega)
          refine ⟨p ++ x, s', rl', rr', p', v', c', ?_, g2, g3, fun D => ?_⟩
          · rw [Io.bind_run_ok (he v), Io.bind_run_ok (aside_run _ ω _ _ _ e1)]
            simp only
            rw [if_neg hne, copyMax_eq h8, Io.lift_ok_bind, chunk_eq h8, Io.lift_ok_bind, g1,
              List.append_assoc]
          · have := out_block (fun ω => encF (f ω)) p rl [rr] (c.take 8) (c.drop 8) (size - res.length) ω D
              hp' h8
            rw [List.take_append_drop] at this
            rw [this, ← hx, List.append_assoc, ← g4 D, List.length_append, Nat.sub_sub]
            rfl
    · have h0 : size - res.length = 0 := by omega
      rw [if_neg hlt, h0]
      exact ⟨[], s, rl, rr, p, v, c, by rw [List.append_nil]; rfl, hs, hc, fun D => rfl⟩

theorem CFBSource_steps (m : Machine) (h : Follows k f)
    (hR : ∀ s w d, R s w d → ∃ s' w', rd s 8 w = (.ok (d.take 8, s'), w') ∧ R s' w' (d.drop 8))
    (l : List (Step Ω Nat)) (ω : Ω) (s : σ) (v : V) (c p : List Byte) (rl rr : W64)
    (hs : R s v c) (hc : c.length % 8 = 0) :
    ∃ t v', readSteps (Live.CFBSource.read m fun s n => aside (rd s n)) l ⟨s, k, rl, rr, p⟩ (ω, v) =
      (.ok (out (fun ω => encF (f ω)) p [rl, rr] c (demanded ω l), t), (stateAfter ω l, v')) := by
  induction l generalizing ω s v c p rl rr with
  | nil => exact ⟨_, v, by simp [demanded, out, readSteps]; rfl⟩
  | cons a l ih =>
    cases a with
    | change ω' => exact ih ω' s v c p rl rr hs hc
    | call n =>
      obtain ⟨x, s', rl', rr', p', v', c', g1, g2, g3, g4⟩ := CFBSource_loop_by m h hR ω n (n + 1) s v c p
        rl rr [] hs hc (Nat.zero_le _) (by omega) (by simp only [List.length_nil]; split <;> omega)
      obtain ⟨t, v2, r1⟩ := ih ω s' v' c' p' rl' rr' g2 g3
      refine ⟨t, v2, ?_⟩
      show (Live.CFBSource.read m _ _ n >>= fun x => _) (ω, v) = _
      refine (Io.bind_run_ok (a := ([] ++ x, ⟨s', k, rl', rr', p'⟩)) (w' := (ω, v')) g1).trans ?_
      refine (Io.bind_run_ok r1).trans ?_
      have := g4 (demanded ω l)
      simp only [List.length_nil, Nat.sub_zero] at this
      rw [demanded, this]
      rfl

theorem gost89_CFBSource_loop_by (m : Machine) (h : Follows k f)
    (hR : ∀ s w d, R s w d → ∃ s' w', rd s 8 w = (.ok (d.take 8, s'), w') ∧ R s' w' (d.drop 8))
    (ω : Ω) (size : Nat) (fuel : Nat) (s : σ) (v : V) (c p : List Byte) (r : W64) (res : List Byte)
    (hs : R s v c) (hc : c.length % 8 = 0) (hres : res.length ≤ size) (hf : 1 ≤ fuel)
    (hf' : size - res.length + (if p = [] then 1 else 0) ≤ fuel) :
    ∃ x s' r' p' v' c',
      Live.Gost89.CFBSource.loop m (fun s n => aside (rd s n)) k size fuel s p r res (ω, v) =
        (.ok (res ++ x, ⟨s', k, r', p'⟩), (ω, v')) ∧ R s' v' c' ∧ c'.length % 8 = 0 ∧
      ∀ D, out (fun ω => encF (f ω)) p [r] c (List.replicate (size - res.length) ω ++ D) =
        x ++ out (fun ω => encF (f ω)) p' [r'] c' D := by
  induction fuel generalizing s v c p r res with
  | zero => omega
  | succ fuel ih =>
    unfold Live.Gost89.CFBSource.loop
    by_cases hlt : res.length < size
    · rw [if_pos hlt, drain_eq]
      simp only
      by_cases hp : size - res.length ≤ p.length
      · rw [if_pos (by simp; omega)]
        exact ⟨p.take (size - res.length), s, r, p.drop (size - res.length), v, c, rfl, hs, hc,
          fun D => out_enough _ _ _ _ _ _ _ hp⟩
      · have hp' : p.length < size - res.length := by omega
        obtain ⟨e, hx, he⟩ := register_gives h ω m r
        obtain ⟨s1, v1, e1, hs1⟩ := hR s v c hs
        rw [if_neg (by simp; omega), List.take_of_length_le (by omega)]
        by_cases hc0 : c = []
        · subst hc0
          refine ⟨p, s1, r, [], v1, [], ?_, by simpa using hs1, rfl, fun D => ?_⟩
          · rw [Io.bind_run_ok (he v), Io.bind_run_ok (aside_run _ ω _ _ _ e1)]
            rfl
          · rw [out_last _ _ _ _ _ _ hp', out_end, List.append_nil]
        · have hcl : 8 ≤ c.length := by
            have := List.length_pos_iff.2 hc0
            omega
          have h8 : (c.take 8).length = 8 := by rw [List.length_take]; omega
          have hne : c.take 8 ≠ [] := by intro h0; rw [h0] at h8; simp at h8
          have hpb : bytesOf64 (block64 (c.take 8) ^^^ join32 e) ≠ [] := bytesOf64_ne _
          obtain ⟨x, s', r', p', v', c', g1, g2, g3, g4⟩ := ih s1 v1 (c.drop 8)
            (bytesOf64 (block64 (c.take 8) ^^^ join32 e)) (block64 (c.take 8)) (res ++ p) hs1
            (by rw [List.length_drop]; omega) (by simp; omega)
            (by
              by_cases h0 : p = []
              · rw [if_pos h0] at hf'; omega
              · have := List.length_pos_iff.2 h0
                rw [if_neg h0] at hf'; omega)
            (by
              rw [if_neg hpb, List.length_append]
              by_cases h0 : p = []
              · rw [if_pos h0] at hf'; omega
              · have := List.length_pos_iff.2 h0
                rw [if_neg h0] at hf'; omega)
          refine ⟨p ++ x, s', r', p', v', c', ?_, g2, g3, fun D => ?_⟩
          · rw [Io.bind_run_ok (he v), Io.bind_run_ok (aside_run _ ω _ _ _ e1)]
            simp only
            rw [if_neg hne, copyMax_eq h8, Io.lift_ok_bind, chunk_eq h8, Io.lift_ok_bind, g1,
              List.append_assoc]
          · have := out_block (fun ω => encF (f ω)) p r [] (c.take 8) (c.drop 8) (size - res.length) ω D
              hp' h8
            rw [List.take_append_drop] at this
            rw [this, ← hx, List.append_assoc, ← g4 D, List.length_append, Nat.sub_sub]
            rfl
    · have h0 : size - res.length = 0 := by omega
      rw [if_neg hlt, h0]
      exact ⟨[], s, r, p, v, c, by rw [List.append_nil]; rfl, hs, hc, fun D => rfl⟩

theorem gost89_CFBSource_steps (m : Machine) (h : Follows k f)
    (hR : ∀ s w d, R s w d → ∃ s' w', rd s 8 w = (.ok (d.take 8, s'), w') ∧ R s' w' (d.drop 8))
    (l : List (Step Ω Nat)) (ω : Ω) (s : σ) (v : V) (c p : List Byte) (r : W64)
    (hs : R s v c) (hc : c.length % 8 = 0) :
    ∃ t v', readSteps (Live.Gost89.CFBSource.read m fun s n => aside (rd s n)) l ⟨s, k, r, p⟩ (ω, v) =
      (.ok (out (fun ω => encF (f ω)) p [r] c (demanded ω l), t), (stateAfter ω l, v')) := by
  induction l generalizing ω s v c p r with
  | nil => exact ⟨_, v, by simp [demanded, out, readSteps]; rfl⟩
  | cons a l ih =>
    cases a with
    | change ω' => exact ih ω' s v c p r hs hc
    | call n =>
      obtain ⟨x, s', r', p', v', c', g1, g2, g3, g4⟩ := gost89_CFBSource_loop_by m h hR ω n (n + 1) s v c p
        r [] hs hc (Nat.zero_le _) (by omega) (by simp only [List.length_nil]; split <;> omega)
      obtain ⟨t, v2, r1⟩ := ih ω s' v' c' p' r' g2 g3
      refine ⟨t, v2, ?_⟩
      show (Live.Gost89.CFBSource.read m _ _ n >>= fun x => _) (ω, v) = _
      refine (Io.bind_run_ok (a := ([] ++ x, ⟨s', k, r', p'⟩)) (w' := (ω, v')) g1).trans ?_
      refine (Io.bind_run_ok r1).trans ?_
      have := g4 (demanded ω l)
      simp only [List.length_nil, Nat.sub_zero] at this
      rw [demanded, this]
      rfl

end Goost.Rekey
