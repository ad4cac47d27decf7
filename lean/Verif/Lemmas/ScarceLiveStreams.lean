import Verif.Lemmas.ScarceLive
/-
Helper lemmas: streams, running out of memory in a world with objects that have a state.
-/
namespace Goost.ScarceLive
open Goost.Magma Spec Spec.Magma Spec.Modes
open Goost.Scarce (Sent.none Sent.cons Sent.append_left Sent.append_right Sent.take Took.read cfbPieces
  cfbPieces_take ECBSink_write_split CFBSink_loop_split gost89_CFBSink_loop_split Imit_loop_took)
variable {Ω V σ τ α β γ δ : Type} {I : Ω → Prop} {m : Machine} {k : Live.Key (Nat × Ω × V)} {q : Magma.Key}

/-- The sink below: it has no part in the state of the other objects. -/
abbrev low (wr : τ → List Byte → Io V τ) (s : τ) (d : List Byte) : Io (Ω × V) τ := aside (wr s d)

/-- The source below. -/
abbrev lowR (rd : σ → Nat → Io V (List Byte × σ)) (s : σ) (n : Nat) : Io (Ω × V) (List Byte × σ) :=
  aside (rd s n)

/-! ### ECBSink -/

theorem ECBSink_loop_unless (wr : τ → List Byte → Io V τ) (hk : AnswersUnlessOut V I k q) {f}
    (h : Computes q f) (d p : List Byte) (hp : p.length < 8) (s : τ) :
    UnlessOutWith I (Sent wr s (ecbPieces f (p ++ d))) (WithKey.ecbSink k) (ECBSink.loop (low wr) k d p s)
      (Magma.ECBSink.loop wr q d p s) := by
  induction d generalizing p s with
  | nil =>
    unfold ECBSink.loop Magma.ECBSink.loop
    refine UW.alloc (fun w => Sent.none ..) ?_
    split
    · exact UW.lift rfl
    · exact UW.pure rfl
  | cons b d ih =>
    unfold ECBSink.loop Magma.ECBSink.loop
    refine UW.alloc (fun w => Sent.none ..) ?_
    have e : p ++ b :: d = (p ++ [b]) ++ d := by simp
    simp only
    by_cases h8 : (p ++ [b]).length = 8
    · rw [if_pos h8, if_pos h8, load64_eq h8, Io.lift_ok_bind, Io.lift_ok_bind]
      refine UW.alloc (fun w => Sent.none ..) ?_
      refine UW.quiet_of (fun w => Sent.none ..) (EncryptionBase_unless hk _) fun a ha => ?_
      rw [EncryptionBase_eq h] at ha
      injection ha with ha
      subst ha
      rw [overwrite8_eq h8, Io.lift_ok_bind,
        Io.lift_ok_bind, e, ecbPieces_append f h8, bytes64_eq_spec]
      exact UW.below_bind (fun s => ih [] (by simp) s) (fun _ _ _ _ h1 h2 => Sent.cons h1 h2)
    · rw [if_neg h8, if_neg h8, e]
      refine ih _ ?_ s
      simp only [List.length_append, List.length_cons, List.length_nil] at h8 ⊢
      omega

theorem ECBSink_writes_unless (wr : τ → List Byte → Io V τ) (hk : AnswersUnlessOut V I k q) {f}
    (h : Computes q f) (ds : List (List Byte)) (s : τ) :
    UnlessOutWith I (Sent wr s (ds.flatMap (ecbPieces f))) (WithKey.ecbSink k)
      (writeAll (ECBSink.write (low wr)) ⟨s, k⟩ ds) (writeAll (Magma.ECBSink.write wr) ⟨s, q⟩ ds) := by
  induction ds generalizing s with
  | nil => exact UW.pure rfl
  | cons d ds ih =>
    rw [writeAll_cons, writeAll_cons, List.flatMap_cons]
    refine UW.bind (P' := fun t => Sent wr t.sink (ds.flatMap (ecbPieces f)))
      (ECBSink_loop_unless wr hk h d [] (by simp) s) (fun a a' b h1 h2 => h1.trans h2.symm) ?_ ?_ ?_
    · rintro w _ t w1 ht rfl
      obtain ⟨h1, h2⟩ := ECBSink_write_split wr h d s t w w1 ht
      obtain ⟨s', k'⟩ := t
      obtain rfl : k' = q := h1
      exact ih s'
    · intro w w' hs
      exact Sent.append_left hs
    · intro w t w1 w2 ht hs
      obtain ⟨h1, h2⟩ := ECBSink_write_split wr h d s t w w1 ht
      exact Sent.append_right h2 hs

/-! ### CFBSink -/

theorem CFBSink_loop_unless (wr : τ → List Byte → Io V τ) (hk : AnswersUnlessOut V I k q) {f}
    (h : Computes q f) (hl : q.isLazy = true) (d p : List Byte) (hp : p.length < 8) (s : τ) (rl rr : W64) :
    UnlessOutWith I (Sent wr s ((cfbEnc (encF f) [rl, rr] (blocks64 (p ++ d))).map bytesOf64)) (WithKey.cfbSink k)
      (CFBSink.loop m (low wr) k d s p rl rr) (Magma.CFBSink.loop m wr q d s p rl rr) := by
  induction d generalizing p s rl rr with
  | nil =>
    unfold CFBSink.loop Magma.CFBSink.loop
    exact UW.alloc (fun w => Sent.none ..) (UW.pure rfl)
  | cons b d ih =>
    unfold CFBSink.loop Magma.CFBSink.loop
    refine UW.alloc (fun w => Sent.none ..) ?_
    have e : p ++ b :: d = (p ++ [b]) ++ d := by simp
    simp only
    by_cases h8 : (p ++ [b]).length = 8
    · obtain ⟨v, hv, hx⟩ := BlkEncrypted_ofU64 h m rl
      rw [if_pos h8, if_pos h8, e, blocks64_append h8]
      refine UW.alloc (fun w => Sent.none ..) ?_
      refine UW.quiet_of (fun w => Sent.none ..)
        (value_unless (Points.asLazy hk) (Like.encrypted (Like.ofU64 rl))) fun a ha => ?_
      rw [asLazy_of hl, hv] at ha
      injection ha with ha
      subst ha
      refine UW.alloc (fun w => Sent.none ..) ?_
      rw [xorWords_eq h8, Io.lift_ok_bind, Io.lift_ok_bind, hx]
      simp only [cfbEnc, List.cons_append, List.nil_append, List.map_cons]
      refine UW.below_bind (fun s => ?_) (fun _ _ _ _ h1 h2 => Sent.cons h1 h2)
      rw [load64_eq (by simp), Io.lift_ok_bind, Io.lift_ok_bind, block64_bytesOf64]
      exact ih [] (by simp) s rr _
    · rw [if_neg h8, if_neg h8, e]
      refine ih _ ?_ s _ _
      simp only [List.length_append, List.length_cons, List.length_nil] at h8 ⊢
      omega

theorem CFBSink_writes_unless (wr : τ → List Byte → Io V τ) (hk : AnswersUnlessOut V I k q) {f}
    (h : Computes q f) (hl : q.isLazy = true) (ds : List (List Byte)) (s : τ) (p : List Byte)
    (hp : p.length < 8) (rl rr : W64) :
    UnlessOutWith I (Sent wr s (cfbPieces f [rl, rr] (p ++ ds.flatten))) (WithKey.cfbSink k)
      (writeAll (CFBSink.write m (low wr)) ⟨s, k, rl, rr, p⟩ ds)
      (writeAll (Magma.CFBSink.write m wr) ⟨s, q, rl, rr, p⟩ ds) := by
  induction ds generalizing s p rl rr with
  | nil => exact UW.pure rfl
  | cons d ds ih =>
    rw [writeAll_cons, writeAll_cons, List.flatten_cons, ← List.append_assoc]
    refine UW.bind (P' := fun t => Sent wr t.sink (cfbPieces f [t.ivl, t.ivr] (t.plain ++ ds.flatten)))
      (UW.alloc (fun w => Sent.none ..) (CFBSink_loop_unless wr hk h hl d p hp s rl rr))
      (fun a a' b h1 h2 => h1.trans h2.symm) ?_ ?_ ?_
    · rintro w _ t w1 ht rfl
      obtain ⟨h1, h2, P, h3, h4⟩ := CFBSink_loop_split m wr h hl d p hp s rl rr t w w1 ht
      obtain ⟨s', k', a, b, p'⟩ := t
      obtain rfl : k' = q := h1
      exact ih s' p' h2 a b
    · intro w w' hs
      rw [← cfbPieces, cfbPieces_take f _ (p ++ d) ds.flatten] at hs
      exact Sent.take hs
    · intro w t w1 w2 ht hs
      obtain ⟨h1, h2, P, h3, h4⟩ := CFBSink_loop_split m wr h hl d p hp s rl rr t w w1 ht
      rw [h4]
      exact Sent.append_right h3 hs

theorem CFBSink_writes_key (m : Machine) (wr : τ → List Byte → Io V τ) {f} (h : Computes q f) (hl : q.isLazy = true)
    (ds : List (List Byte)) (s : τ) (p : List Byte) (hp : p.length < 8) (rl rr : W64) (v v1 : V)
    (t : Magma.CFBSink τ) (ht : writeAll (Magma.CFBSink.write m wr) ⟨s, q, rl, rr, p⟩ ds v = (.ok t, v1)) :
    t.key = q := by
  induction ds generalizing s p rl rr v with
  | nil => cases ht; rfl
  | cons d ds ih =>
    rw [writeAll_cons] at ht
    rcases hz : Magma.CFBSink.write m wr ⟨s, q, rl, rr, p⟩ d v with ⟨x, w1⟩
    cases x with
    | ok t1 =>
      rw [Io.bind_run_ok hz] at ht
      obtain ⟨h1, h2, -⟩ := CFBSink_loop_split m wr h hl d p hp s rl rr t1 v w1 hz
      obtain ⟨s', k', a, b, p'⟩ := t1
      obtain rfl : k' = q := h1
      exact ih s' p' h2 a b w1 ht
    | throw e => rw [bind_run_throw hz] at ht; simp at ht
    | ub u => rw [bind_run_ub hz] at ht; simp at ht
    | diverge => rw [Scarce.bind_run_diverge hz] at ht; simp at ht

theorem CFBSink_finalize_unless (wr : τ → List Byte → Io V τ) (hk : AnswersUnlessOut V I k q)
    (s : τ) (rl rr : W64) (p : List Byte) :
    UnlessOutWith I Same Eq (CFBSink.finalize m (low wr) ⟨s, k, rl, rr, p⟩)
      (Magma.CFBSink.finalize m wr ⟨s, q, rl, rr, p⟩) := by
  unfold CFBSink.finalize Magma.CFBSink.finalize
  simp only
  split
  · refine UW.alloc (P := Same) (fun _ => rfl) (UW.quiet (P := Same) (fun _ => rfl)
      (value_unless (Points.asLazy hk) (Like.encrypted (Like.ofU64 _))) fun e => ?_)
    exact UW.alloc (P := Same) (fun _ => rfl) (UW.lift_bind (P := Same) (fun _ => rfl) _ fun c => UW.below _)
  · exact UW.pure rfl

/-! ### gost89::CFBSink -/

theorem gost89_CFBSink_loop_unless (wr : τ → List Byte → Io V τ) (hk : AnswersUnlessOut V I k q) {f}
    (h : Computes q f) (hl : q.isLazy = true) (d p : List Byte) (hp : p.length < 8) (s : τ) (r : W64) :
    UnlessOutWith I (Sent wr s ((cfbEnc (encF f) [r] (blocks64 (p ++ d))).map bytesOf64)) (WithKey.gostSink k)
      (Gost89.CFBSink.loop m (low wr) k d s p r) (Goost.Gost89.CFBSink.loop m wr q d s p r) := by
  induction d generalizing p s r with
  | nil =>
    unfold Gost89.CFBSink.loop Goost.Gost89.CFBSink.loop
    exact UW.alloc (fun w => Sent.none ..) (UW.pure rfl)
  | cons b d ih =>
    unfold Gost89.CFBSink.loop Goost.Gost89.CFBSink.loop
    refine UW.alloc (fun w => Sent.none ..) ?_
    have e : p ++ b :: d = (p ++ [b]) ++ d := by simp
    simp only
    by_cases h8 : (p ++ [b]).length = 8
    · obtain ⟨v, hv, hx⟩ := BlkEncrypted_ofU64 h m r
      rw [if_pos h8, if_pos h8, e, blocks64_append h8]
      refine UW.alloc (fun w => Sent.none ..) ?_
      refine UW.quiet_of (fun w => Sent.none ..)
        (value_unless (Points.asLazy hk) (Like.encrypted (Like.ofU64 r))) fun a ha => ?_
      rw [asLazy_of hl, hv] at ha
      injection ha with ha
      subst ha
      refine UW.alloc (fun w => Sent.none ..) ?_
      rw [xorWords_eq h8, Io.lift_ok_bind, Io.lift_ok_bind, hx]
      simp only [cfbEnc, List.nil_append, List.map_cons]
      refine UW.below_bind (fun s => ?_) (fun _ _ _ _ h1 h2 => Sent.cons h1 h2)
      rw [load64_eq (by simp), Io.lift_ok_bind, Io.lift_ok_bind, block64_bytesOf64]
      exact ih [] (by simp) s _
    · rw [if_neg h8, if_neg h8, e]
      refine ih _ ?_ s _
      simp only [List.length_append, List.length_cons, List.length_nil] at h8 ⊢
      omega

theorem gost89_CFBSink_writes_unless (wr : τ → List Byte → Io V τ) (hk : AnswersUnlessOut V I k q) {f}
    (h : Computes q f) (hl : q.isLazy = true) (ds : List (List Byte)) (s : τ) (p : List Byte)
    (hp : p.length < 8) (r : W64) :
    UnlessOutWith I (Sent wr s (cfbPieces f [r] (p ++ ds.flatten))) (WithKey.gostSink k)
      (writeAll (Gost89.CFBSink.write m (low wr)) ⟨s, k, r, p⟩ ds)
      (writeAll (Goost.Gost89.CFBSink.write m wr) ⟨s, q, r, p⟩ ds) := by
  induction ds generalizing s p r with
  | nil => exact UW.pure rfl
  | cons d ds ih =>
    rw [writeAll_cons, writeAll_cons, List.flatten_cons, ← List.append_assoc]
    refine UW.bind (P' := fun t => Sent wr t.sink (cfbPieces f [t.iv] (t.plain ++ ds.flatten)))
      (UW.alloc (fun w => Sent.none ..) (gost89_CFBSink_loop_unless wr hk h hl d p hp s r))
      (fun a a' b h1 h2 => h1.trans h2.symm) ?_ ?_ ?_
    · rintro w _ t w1 ht rfl
      obtain ⟨h1, h2, P, h3, h4⟩ := gost89_CFBSink_loop_split m wr h hl d p hp s r t w w1 ht
      obtain ⟨s', k', a, p'⟩ := t
      obtain rfl : k' = q := h1
      exact ih s' p' h2 a
    · intro w w' hs
      rw [← cfbPieces, cfbPieces_take f _ (p ++ d) ds.flatten] at hs
      exact Sent.take hs
    · intro w t w1 w2 ht hs
      obtain ⟨h1, h2, P, h3, h4⟩ := gost89_CFBSink_loop_split m wr h hl d p hp s r t w w1 ht
      rw [h4]
      exact Sent.append_right h3 hs

theorem gost89_CFBSink_writes_key (m : Machine) (wr : τ → List Byte → Io V τ) {f} (h : Computes q f)
    (hl : q.isLazy = true) (ds : List (List Byte)) (s : τ) (p : List Byte) (hp : p.length < 8) (r : W64) (v v1 : V)
    (t : Goost.Gost89.CFBSink τ)
    (ht : writeAll (Goost.Gost89.CFBSink.write m wr) ⟨s, q, r, p⟩ ds v = (.ok t, v1)) : t.key = q := by
  induction ds generalizing s p r v with
  | nil => cases ht; rfl
  | cons d ds ih =>
    rw [writeAll_cons] at ht
    rcases hz : Goost.Gost89.CFBSink.write m wr ⟨s, q, r, p⟩ d v with ⟨x, w1⟩
    cases x with
    | ok t1 =>
      rw [Io.bind_run_ok hz] at ht
      obtain ⟨h1, h2, -⟩ := gost89_CFBSink_loop_split m wr h hl d p hp s r t1 v w1 hz
      obtain ⟨s', k', a, p'⟩ := t1
      obtain rfl : k' = q := h1
      exact ih s' p' h2 a w1 ht
    | throw e => rw [bind_run_throw hz] at ht; simp at ht
    | ub u => rw [bind_run_ub hz] at ht; simp at ht
    | diverge => rw [Scarce.bind_run_diverge hz] at ht; simp at ht

theorem gost89_CFBSink_finalize_unless (wr : τ → List Byte → Io V τ) (hk : AnswersUnlessOut V I k q)
    (s : τ) (r : W64) (p : List Byte) :
    UnlessOutWith I Same Eq (Gost89.CFBSink.finalize m (low wr) ⟨s, k, r, p⟩)
      (Goost.Gost89.CFBSink.finalize m wr ⟨s, q, r, p⟩) := by
  unfold Gost89.CFBSink.finalize Goost.Gost89.CFBSink.finalize
  simp only
  split
  · refine UW.alloc (P := Same) (fun _ => rfl) (UW.quiet (P := Same) (fun _ => rfl)
      (value_unless (Points.asLazy hk) (Like.encrypted (Like.ofU64 _))) fun e => ?_)
    exact UW.alloc (P := Same) (fun _ => rfl) (UW.lift_bind (P := Same) (fun _ => rfl) _ fun c => UW.below _)
  · exact UW.pure rfl

/-! ### Sources -/

theorem ECBSource_read_unless (rd : σ → Nat → Io V (List Byte × σ)) (hk : AnswersUnlessOut V I k q)
    (s : σ) (n : Nat) :
    UnlessOutWith I (Took rd s) (WithKey.ecbSource k q) (ECBSource.read m (lowR rd) (.ecb s k) n)
      (Magma.ECBSource.read m rd (.ecb s q) n) := by
  simp only [ECBSource.read, Magma.ECBSource.read]
  split
  · exact UW.alloc (fun _ => .none ..) (UW.lift rfl)
  · refine UW.below_bind (P' := fun a : List Byte × σ => Took rd a.2) (fun a => ?_)
      (fun _ _ _ _ h1 h2 => Took.read h1 h2)
    rcases a with ⟨p, s'⟩
    simp only
    split
    · exact UW.pure ⟨rfl, rfl⟩
    · refine UW.alloc (fun _ => .none ..) (UW.ofBytes_bind (k := k.asLazy) (q := q.asLazy) (fun _ => .none ..) _
        fun b b' hb => ?_)
      refine UW.quiet (fun _ => .none ..) (value_unless (Points.asLazy hk) hb.decrypted) fun e => ?_
      refine UW.lift_bind (fun _ => .none ..) _ fun c => ?_
      exact UW.alloc (fun _ => .none ..) (UW.pure ⟨rfl, rfl, rfl, rfl⟩)

theorem CFBSource_loop_unless (rd : σ → Nat → Io V (List Byte × σ)) (hk : AnswersUnlessOut V I k q)
    (size fuel : Nat) (s : σ) (p : List Byte) (rl rr : W64) (res : List Byte) :
    UnlessOutWith I (Took rd s) (WithKey.cfbSource k q) (CFBSource.loop m (lowR rd) k size fuel s p rl rr res)
      (Magma.CFBSource.loop m rd q size fuel s p rl rr res) := by
  induction fuel generalizing s p rl rr res with
  | zero => exact UW.lift trivial
  | succ fuel ih =>
    unfold CFBSource.loop Magma.CFBSource.loop
    split
    · refine UW.alloc (fun w => .none ..) ?_
      rcases drain size p res with ⟨p', res'⟩
      simp only
      split
      · exact UW.alloc (fun w => .none ..) (UW.pure ⟨rfl, rfl⟩)
      · refine UW.alloc (fun w => .none ..) (UW.quiet (fun w => .none ..)
          (value_unless (Points.asLazy hk) (Like.encrypted (Like.ofU64 _))) fun e => ?_)
        refine UW.below_bind (P' := fun a => Took rd a.2) (fun a => ?_) (fun _ _ _ _ h1 h2 => Took.read h1 h2)
        rcases a with ⟨_, s'⟩
        simp only
        split
        · exact UW.alloc (fun w => .none ..) (UW.pure ⟨rfl, rfl⟩)
        · exact UW.lift_bind (fun w => .none ..) _ fun _ => UW.lift_bind (fun w => .none ..) _ fun _ => ih _ _ _ _ _
    · exact UW.alloc (fun w => .none ..) (UW.pure ⟨rfl, rfl⟩)

theorem gost89_CFBSource_loop_unless (rd : σ → Nat → Io V (List Byte × σ)) (hk : AnswersUnlessOut V I k q)
    (size fuel : Nat) (s : σ) (p : List Byte) (r : W64) (res : List Byte) :
    UnlessOutWith I (Took rd s) (WithKey.gostSource k q) (Gost89.CFBSource.loop m (lowR rd) k size fuel s p r res)
      (Goost.Gost89.CFBSource.loop m rd q size fuel s p r res) := by
  induction fuel generalizing s p r res with
  | zero => exact UW.lift trivial
  | succ fuel ih =>
    unfold Gost89.CFBSource.loop Goost.Gost89.CFBSource.loop
    split
    · refine UW.alloc (fun w => .none ..) ?_
      rcases drain size p res with ⟨p', res'⟩
      simp only
      split
      · exact UW.alloc (fun w => .none ..) (UW.pure ⟨rfl, rfl⟩)
      · refine UW.alloc (fun w => .none ..) (UW.quiet (fun w => .none ..)
          (value_unless (Points.asLazy hk) (Like.encrypted (Like.ofU64 _))) fun e => ?_)
        refine UW.below_bind (P' := fun a => Took rd a.2) (fun a => ?_) (fun _ _ _ _ h1 h2 => Took.read h1 h2)
        rcases a with ⟨_, s'⟩
        simp only
        split
        · exact UW.alloc (fun w => .none ..) (UW.pure ⟨rfl, rfl⟩)
        · exact UW.lift_bind (fun w => .none ..) _ fun _ => UW.lift_bind (fun w => .none ..) _ fun _ => ih _ _ _ _
    · exact UW.alloc (fun w => .none ..) (UW.pure ⟨rfl, rfl⟩)

theorem ecbSource_det {k : Live.Key (Nat × Ω × V)} {q : Magma.Key} (a a' : List Byte × Live.ECBSource (Nat × Ω × V) σ)
    (b : List Byte × Magma.ECBSource σ) (h : WithKey.ecbSource k q a b) (h' : WithKey.ecbSource k q a' b) :
    a = a' := by
  rcases a with ⟨p, _ | _⟩ <;> rcases a' with ⟨p', _ | _⟩ <;> rcases b with ⟨p'', _ | _⟩ <;>
    simp_all [WithKey.ecbSource]

/-- Reads of any sizes, one after the other. -/
theorem ECBSource_reads_unless (rd : σ → Nat → Io V (List Byte × σ)) (hk : AnswersUnlessOut V I k q)
    (ns : List Nat) (t : Live.ECBSource (Nat × Ω × V) σ) (t' : Magma.ECBSource σ)
    (ht : WithKey.ecbSource k q ([], t) ([], t')) :
    UnlessOutWith I (fun _ _ => True) (fun a b => a.1 = b.1 ∧ WithKey.ecbSource k q ([], a.2) ([], b.2))
      (readAll (ECBSource.read m (lowR rd)) t ns) (readAll (Magma.ECBSource.read m rd) t' ns) := by
  induction ns generalizing t t' with
  | nil => exact UW.pure ⟨rfl, ht⟩
  | cons n ns ih =>
    unfold readAll
    refine UW.bind (P1 := fun _ _ => True) (P' := fun _ _ _ => True) (R := WithKey.ecbSource k q) ?_ ecbSource_det
      ?_ (fun _ _ h => h) (fun _ _ _ _ _ h => h)
    · rcases t with ⟨s, k'⟩ | s <;> rcases t' with ⟨s', q'⟩ | s' <;>
        simp only [WithKey.ecbSource, true_and] at ht
      · obtain ⟨rfl, rfl, rfl⟩ := ht
        exact UW.mono (ECBSource_read_unless rd hk s n) (fun _ _ _ => trivial) (fun _ _ h => h)
      · subst ht
        simp only [ECBSource.read, Magma.ECBSource.read]
        exact UW.below_bind (P' := fun _ _ _ => True) (fun a => UW.pure ⟨rfl, rfl⟩) (fun _ _ _ _ _ _ => trivial)
    · rintro v ⟨x, t1⟩ ⟨y, t1'⟩ v1 - h1
      have h2 : x = y ∧ WithKey.ecbSource k q ([], t1) ([], t1') := by
        rcases t1 with _ | _ <;> rcases t1' with _ | _ <;> simp_all [WithKey.ecbSource]
      refine UW.bind (P1 := fun _ _ => True) (P' := fun _ _ _ => True) (ih t1 t1' h2.2) ?_ ?_ (fun _ _ h => h)
        (fun _ _ _ _ _ h => h)
      · rintro ⟨a, s⟩ ⟨a', s'⟩ ⟨b, s1⟩ ⟨e1, e2⟩ ⟨e3, e4⟩
        have := ecbSource_det _ _ _ e2 e4
        simp_all
      · rintro v ⟨a, s⟩ ⟨b, s'⟩ v1 - ⟨e1, e2⟩
        refine UW.pure ⟨?_, e2⟩
        simp only at e1
        simp only [e1, h2.1]

theorem CFBSource_reads_unless (rd : σ → Nat → Io V (List Byte × σ)) (hk : AnswersUnlessOut V I k q)
    (ns : List Nat) (s : σ) (p : List Byte) (rl rr : W64) :
    UnlessOutWith I (fun _ _ => True) (fun a b => a.1 = b.1 ∧ WithKey.cfbSource k q ([], a.2) ([], b.2))
      (readAll (CFBSource.read m (lowR rd)) ⟨s, k, rl, rr, p⟩ ns)
      (readAll (Magma.CFBSource.read m rd) ⟨s, q, rl, rr, p⟩ ns) := by
  induction ns generalizing s p rl rr with
  | nil => exact UW.pure ⟨rfl, rfl, rfl⟩
  | cons n ns ih =>
    unfold readAll
    refine UW.bind (P1 := fun _ _ => True) (P' := fun _ _ _ => True) (R := WithKey.cfbSource k q)
      (UW.alloc (fun _ => trivial) (UW.mono (CFBSource_loop_unless rd hk _ _ _ _ _ _ _) (fun _ _ _ => trivial)
        (fun _ _ h => h))) (fun a a' b h1 h2 => h1.1.trans h2.1.symm) ?_ (fun _ _ h => h) (fun _ _ _ _ _ h => h)
    rintro v _ ⟨y, ⟨s', q', a, b, c⟩⟩ v1 - ⟨rfl, rfl⟩
    refine UW.bind (P1 := fun _ _ => True) (P' := fun _ _ _ => True) (ih s' c a b) ?_ ?_ (fun _ _ h => h)
      (fun _ _ _ _ _ h => h)
    · rintro ⟨a, s⟩ ⟨a', s'⟩ ⟨b, s1⟩ ⟨e1, e2, _⟩ ⟨e3, e4, _⟩
      have := e2.trans e4.symm
      simp_all
    · rintro v ⟨a, s⟩ ⟨b, s'⟩ v1 - ⟨e1, e2⟩
      refine UW.pure ⟨?_, e2⟩
      simp only at e1
      simp only [e1]

theorem gost89_CFBSource_reads_unless (rd : σ → Nat → Io V (List Byte × σ)) (hk : AnswersUnlessOut V I k q)
    (ns : List Nat) (s : σ) (p : List Byte) (r : W64) :
    UnlessOutWith I (fun _ _ => True) (fun a b => a.1 = b.1 ∧ WithKey.gostSource k q ([], a.2) ([], b.2))
      (readAll (Gost89.CFBSource.read m (lowR rd)) ⟨s, k, r, p⟩ ns)
      (readAll (Goost.Gost89.CFBSource.read m rd) ⟨s, q, r, p⟩ ns) := by
  induction ns generalizing s p r with
  | nil => exact UW.pure ⟨rfl, rfl, rfl⟩
  | cons n ns ih =>
    unfold readAll
    refine UW.bind (P1 := fun _ _ => True) (P' := fun _ _ _ => True) (R := WithKey.gostSource k q)
      (UW.alloc (fun _ => trivial) (UW.mono (gost89_CFBSource_loop_unless rd hk _ _ _ _ _ _) (fun _ _ _ => trivial)
        (fun _ _ h => h))) (fun a a' b h1 h2 => h1.1.trans h2.1.symm) ?_ (fun _ _ h => h) (fun _ _ _ _ _ h => h)
    rintro v _ ⟨y, ⟨s', q', a, c⟩⟩ v1 - ⟨rfl, rfl⟩
    refine UW.bind (P1 := fun _ _ => True) (P' := fun _ _ _ => True) (ih s' c a) ?_ ?_ (fun _ _ h => h)
      (fun _ _ _ _ _ h => h)
    · rintro ⟨a, s⟩ ⟨a', s'⟩ ⟨b, s1⟩ ⟨e1, e2, _⟩ ⟨e3, e4, _⟩
      have := e2.trans e4.symm
      simp_all
    · rintro v ⟨a, s⟩ ⟨b, s'⟩ v1 - ⟨e1, e2⟩
      refine UW.pure ⟨?_, e2⟩
      simp only at e1
      simp only [e1]

/-! ### Authentication codes -/

variable {ko : Option (Live.Key (Nat × Ω × V))} {qo : Option Magma.Key}

def imitPair (ko : Option (Live.Key (Nat × Ω × V))) (qo : Option Magma.Key)
    (x : Live.Blk (Nat × Ω × V) × Live.Blk (Nat × Ω × V)) (y : Magma.Blk × Magma.Blk) : Prop :=
  Like ko qo x.1 y.1 ∧ Like ko qo x.2 y.2

theorem Imit_loop_unless (rd : σ → Nat → Io V (List Byte × σ)) (fuel : Nat) (s : σ)
    (b : List Byte) (block : Live.Blk (Nat × Ω × V)) (block' : Magma.Blk) (hb : Like ko qo block block') :
    UnlessOutWith I (Took rd s) (imitPair ko qo) (Imit.loop (lowR rd) ko fuel s b block)
      (Magma.Imit.loop rd qo fuel s b block') := by
  induction fuel generalizing s b block block' with
  | zero => exact UW.lift trivial
  | succ fuel ih =>
    unfold Imit.loop Magma.Imit.loop
    refine UW.alloc (fun w => .none ..) (UW.lift_bind (fun w => .none ..) _ fun v => ?_)
    have hx : Like ko qo (.xored block (Live.BlkRaw.ofU64 v)) (.xored block' (Magma.BlkRaw.ofU64 v)) :=
      .xored hb (.ofU64 v)
    simp only
    split
    · exact UW.pure ⟨hx, .finalKey _⟩
    · refine UW.below_bind (P' := fun a => Took rd a.2) (fun a => ?_) (fun _ _ _ _ h1 h2 => Took.read h1 h2)
      rcases a with ⟨p, s'⟩
      simp only
      split
      · exact UW.pure ⟨hx, .finalKey _⟩
      · exact UW.alloc (fun w => .none ..) (ih _ _ _ _ hx.encrypted)

theorem Imit_value_unless (rd : σ → Nat → Io V (List Byte × σ)) (fuel : Nat) (s : σ) (hk : Points V I ko qo) :
    UnlessOutWith I (Took rd s) Eq (Imit.value m (lowR rd) fuel s ko) (Magma.Imit.value m rd fuel s qo) := by
  unfold Imit.value Magma.Imit.value Imit.build
  refine UW.alloc (fun _ => .none ..) ?_
  rw [bind_assoc]
  refine UW.below_bind (P' := fun a : List Byte × σ => Took rd a.2) (fun a => ?_)
    (fun _ _ _ _ h1 h2 => Took.read h1 h2)
  rcases a with ⟨b, s'⟩
  simp only
  rw [bind_assoc]
  refine UW.bind (P' := fun _ => Same) (Imit_loop_unless rd fuel s' b _ _ (.ofU64 0)) ?_ ?_
    (fun _ _ h => h) ?_
  · rintro ⟨a1, a2⟩ ⟨b1, b2⟩ c ⟨h1, h2⟩ ⟨h3, h4⟩
    exact Prod.ext (h1.det h3) (h2.det h4)
  · rintro v ⟨a1, a2⟩ ⟨b1, b2⟩ v1 - ⟨h1, h2⟩
    exact UW.alloc (P := Same) (fun _ => rfl) (value_unless hk (Like.encrypted (.xored h1 h2)))
  · intro w a w1 w2 ha h2
    rw [h2]
    exact Imit_loop_took rd qo fuel s' b _ w w1 a ha

theorem DataImit_loop_unless (hk : Points V I ko qo) (d state : List Byte) :
    UnlessOutWith I Same Eq (Gost89.DataImit.loop m ko d state)
      (Io.lift (Goost.Gost89.DataImit.loop m qo d state) : Io V _) := by
  fun_induction Goost.Gost89.DataImit.loop m qo d state with
  | case1 b0 b1 b2 b3 b4 b5 b6 b7 rest state state' ih =>
    unfold Gost89.DataImit.loop
    refine UW.alloc (P := Same) (fun w => rfl) ?_
    rw [Io.lift_bind]
    refine UW.ofBytes_bind (P := Same) (k := ko) (q := qo) (fun _ => rfl) _ fun b b' hb => ?_
    rw [Io.lift_bind]
    have hi : UnlessOutWith I Same (Like ko qo) (Gost89.ImitedBlock.value m b ko)
        (Io.lift (Goost.Gost89.ImitedBlock.value m b' qo) : Io V _) := by
      unfold Gost89.ImitedBlock.value Goost.Gost89.ImitedBlock.value BlkRaw.ofBlock
      simp only [Io.lift_bind]
      refine UW.quiet (P := Same) (fun _ => rfl) (value_unless hk hb) fun v => ?_
      exact UW.alloc (P := Same) (fun _ => rfl) (UW.quiet (P := Same) (fun _ => rfl)
        (value_unless hk (.forwarded (.forwarded (.raw v.1 v.2)))) fun v => UW.pure (.raw _ _))
    refine UW.bind (P' := fun _ => Same) hi (fun a a' b h1 h2 => h1.det h2) ?_ (fun _ _ h => h) ?_
    · intro v r r' v1 _ hr
      rw [Io.lift_bind]
      refine UW.quiet (P := Same) (fun _ => rfl) (value_unless hk hr) fun c => ?_
      rw [Io.lift_bind]
      exact UW.lift_bind (P := Same) (fun _ => rfl) _ fun st => ih st
    · intro v b v1 v2 e h1
      have := congrArg Prod.snd e
      simp only [Io.lift] at this
      exact this ▸ h1
  | case2 state => unfold Gost89.DataImit.loop; exact UW.pure rfl
  | case3 d state h1 h2 =>
    have : (Gost89.DataImit.loop m ko d state : Io (Nat × Ω × V) _) = Io.lift (.ub .oobRead) := by
      unfold Gost89.DataImit.loop
      split
      · exact absurd rfl (h1 _ _ _ _ _ _ _ _ _)
      · exact absurd rfl h2
      · rfl
    rw [this]
    exact UW.lift rfl

/-! ### Uses of a key -/

theorem use_unless {k : Live.Key (Nat × Ω × Unit)} {q : Magma.Key} (hk : AnswersUnlessOut Unit I k q) {f}
    (h : Computes q f) (hl : q.isLazy = true) (u : MagmaUse) :
    UnlessOutWith I (fun _ _ => True) Eq (u.limited m k) (u.unlimited m q) := by
  have hp : Points Unit I (some k) (some q) := hk
  have hS : ∀ {α β : Type} {P : Unit → Unit → Prop} {R : α → β → Prop} {x : Io (Nat × Ω × Unit) α} {y : Io Unit β},
      UnlessOutWith I P R x y → UnlessOutWith I (fun _ _ => True) R x y :=
    fun h => UW.mono h (fun _ _ _ => trivial) (fun _ _ h => h)
  cases u with
  | encrypt x =>
    exact UW.alloc (fun _ => trivial) (UW.quiet (fun _ => trivial)
      (value_unless hp (Like.encrypted (.ofU64 x))) fun v => UW.pure rfl)
  | decrypt x =>
    exact UW.alloc (fun _ => trivial) (UW.quiet (fun _ => trivial)
      (value_unless hp (Like.decrypted (.ofU64 x))) fun v => UW.pure rfl)
  | base x => exact UW.quiet (fun _ => trivial) (EncryptionBase_unless hk x) fun v => UW.pure rfl
  | ecbWrite ds =>
    refine UW.bind (P' := fun _ _ _ => True) (hS (ECBSink_writes_unless memWrite hk h ds []))
      (fun a a' b h1 h2 => h1.trans h2.symm) ?_ (fun _ _ h => h) (fun _ _ _ _ _ h => h)
    rintro v _ t v1 - rfl
    exact UW.pure rfl
  | ecbRead data ns =>
    refine UW.bind (P' := fun _ _ _ => True) (ECBSource_reads_unless memRead hk ns (.ecb data k) (.ecb data q)
      ⟨rfl, rfl, rfl, rfl⟩) ?_ ?_ (fun _ _ h => h) (fun _ _ _ _ _ h => h)
    · rintro ⟨a, s⟩ ⟨a', s'⟩ ⟨b, s1⟩ ⟨e1, e2⟩ ⟨e3, e4⟩
      have := ecbSource_det _ _ _ e2 e4
      simp_all
    · rintro v ⟨a, s⟩ ⟨b, s'⟩ v1 - ⟨e1, e2⟩
      exact UW.pure (congrArg List.flatten e1)
  | cfbWrite ivl ivr ds =>
    refine UW.bind (P' := fun _ _ _ => True) (hS (CFBSink_writes_unless memWrite hk h hl ds [] [] (by simp) ivl ivr))
      (fun a a' b h1 h2 => h1.trans h2.symm) ?_ (fun _ _ h => h) (fun _ _ _ _ _ h => h)
    rintro v _ t v1 ht rfl
    have := CFBSink_writes_key m memWrite h hl ds [] [] (by simp) ivl ivr v v1 t ht
    obtain ⟨s, q', a, b, p⟩ := t
    obtain rfl : q' = q := this
    exact hS (CFBSink_finalize_unless memWrite hk s a b p)
  | cfbRead ivl ivr data ns =>
    refine UW.bind (P' := fun _ _ _ => True) (CFBSource_reads_unless memRead hk ns data [] ivl ivr) ?_ ?_
      (fun _ _ h => h) (fun _ _ _ _ _ h => h)
    · rintro ⟨a, s⟩ ⟨a', s'⟩ ⟨b, s1⟩ ⟨e1, e2, _⟩ ⟨e3, e4, _⟩
      have := e2.trans e4.symm
      simp_all
    · rintro v ⟨a, s⟩ ⟨b, s'⟩ v1 - ⟨e1, e2⟩
      exact UW.pure (congrArg List.flatten e1)
  | gostWrite iv ds =>
    refine UW.bind (P' := fun _ _ _ => True) (hS (gost89_CFBSink_writes_unless memWrite hk h hl ds [] [] (by simp) iv))
      (fun a a' b h1 h2 => h1.trans h2.symm) ?_ (fun _ _ h => h) (fun _ _ _ _ _ h => h)
    rintro v _ t v1 ht rfl
    have := gost89_CFBSink_writes_key m memWrite h hl ds [] [] (by simp) iv v v1 t ht
    obtain ⟨s, q', a, p⟩ := t
    obtain rfl : q' = q := this
    exact hS (gost89_CFBSink_finalize_unless memWrite hk s a p)
  | gostRead iv data ns =>
    refine UW.bind (P' := fun _ _ _ => True) (gost89_CFBSource_reads_unless memRead hk ns data [] iv) ?_ ?_
      (fun _ _ h => h) (fun _ _ _ _ _ h => h)
    · rintro ⟨a, s⟩ ⟨a', s'⟩ ⟨b, s1⟩ ⟨e1, e2, _⟩ ⟨e3, e4, _⟩
      have := e2.trans e4.symm
      simp_all
    · rintro v ⟨a, s⟩ ⟨b, s'⟩ v1 - ⟨e1, e2⟩
      exact UW.pure (congrArg List.flatten e1)
  | mac data =>
    refine UW.bind (P' := fun _ _ _ => True) (hS (Imit_value_unless memRead _ data hp))
      (fun a a' b h1 h2 => h1.trans h2.symm) ?_ (fun _ _ h => h) (fun _ _ _ _ _ h => h)
    rintro v _ t v1 - rfl
    exact UW.pure rfl
  | dataMac data => exact UW.alloc (fun _ => trivial) (hS (DataImit_loop_unless hp _ _))

end Goost.ScarceLive
