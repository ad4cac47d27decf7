import Verif.Spec.Live
import Verif.Spec.Streams
/-
Helper lemmas: objects with a state of their own.
-/
namespace Goost
open Goost.Magma Spec
variable {Ω V σ τ σ' τ' α β γ δ : Type} {I : Ω → Prop}

theorem SameCall.bind {R : α → β → Prop} {S : γ → δ → Prop} {x : Io (Ω × V) α} {y : Io V β}
    {f : α → Io (Ω × V) γ} {g : β → Io V δ} (h : SameCall I R x y)
    (h' : ∀ a b, R a b → SameCall I S (f a) (g b)) : SameCall I S (x >>= f) (y >>= g) := by
  intro ω v hω
  obtain ⟨ω', h1, h2, h3⟩ := h ω v hω
  rcases hx : x (ω, v) with ⟨rx, wx⟩
  rcases hy : y v with ⟨ry, vy⟩
  rw [hx, hy] at h2 h3
  simp only at h2 h3
  subst h2
  simp only [Io.bind_def, Io.bind, hx, hy]
  cases rx <;> cases ry <;> simp only [SameOutcome] at h3
  · exact h' _ _ h3 ω' vy h1
  all_goals exact ⟨ω', h1, rfl, by simp [SameOutcome, h3]⟩

theorem SameCall.pure {R : α → β → Prop} {a : α} {b : β} (h : R a b) :
    SameCall I R (Pure.pure a : Io (Ω × V) α) (Pure.pure b) :=
  fun ω _ hω => ⟨ω, hω, rfl, h⟩

theorem SameCall.lift {R : α → β → Prop} {x : Exec α} {y : Exec β} (h : SameOutcome R x y) :
    SameCall I R (Io.lift x : Io (Ω × V) α) (Io.lift y) :=
  fun ω _ hω => ⟨ω, hω, rfl, h⟩

theorem SameOutcome.refl (x : Exec α) : SameOutcome Eq x x := by cases x <;> simp [SameOutcome]

theorem SameCall.rfl_lift (x : Exec α) : SameCall I Eq (Io.lift x : Io (Ω × V) α) (Io.lift x) :=
  SameCall.lift (SameOutcome.refl x)

theorem SameCall.mono {R S : α → β → Prop} {x : Io (Ω × V) α} {y : Io V β} (h : SameCall I R x y)
    (hRS : ∀ a b, R a b → S a b) : SameCall I S x y := by
  intro ω v hω
  obtain ⟨ω', h1, h2, h3⟩ := h ω v hω
  refine ⟨ω', h1, h2, ?_⟩
  revert h3
  cases (x (ω, v)).1 <;> cases (y v).1 <;> simp [SameOutcome]
  exact hRS _ _

theorem SameCall.aside (x : Io V α) : SameCall I Eq (aside x) x :=
  fun ω _ hω => ⟨ω, hω, rfl, SameOutcome.refl _⟩

/-- A key pointer and a key pointer that correspond. -/
def SamePointer (I : Ω → Prop) : Option (Live.Key (Ω × V)) → Option Key → Prop
  | some k, some q => AnswersLike I k q
  | none, none => True
  | _, _ => False

theorem SamePointer.asLazy {k : Live.Key (Ω × V)} {q : Key} (h : AnswersLike I k q) :
    SamePointer I k.asLazy q.asLazy := by
  unfold Live.Key.asLazy Key.asLazy
  rw [h.1]
  cases hq : q.isLazy
  · simp [SamePointer]
  · simpa [SamePointer] using h

theorem callKey_same {k : Option (Live.Key (Ω × V))} {q : Option Key} (h : SamePointer I k q)
    (v : W32) (i : Int) : SameCall I Eq (Live.callKey k v i) (Io.lift (callKey q v i) : Io V _) := by
  cases k <;> cases q <;> simp only [SamePointer] at h
  · exact SameCall.lift rfl
  · exact h.2 v i

theorem forwardRounds_same {k : Option (Live.Key (Ω × V))} {q : Option Key} (h : SamePointer I k q)
    (v : W32 × W32) :
    SameCall I Eq (Live.forwardRounds k v) (Io.lift (forwardRounds q v) : Io V _) := by
  unfold Live.forwardRounds forwardRounds
  simp only [Io.lift_bind]
  iterate 8 (refine SameCall.bind (callKey_same h _ _) ?_; rintro _ _ rfl)
  exact SameCall.pure rfl

theorem backwardRounds_same {k : Option (Live.Key (Ω × V))} {q : Option Key} (h : SamePointer I k q)
    (v : W32 × W32) :
    SameCall I Eq (Live.backwardRounds k v) (Io.lift (backwardRounds q v) : Io V _) := by
  unfold Live.backwardRounds backwardRounds
  simp only [Io.lift_bind]
  iterate 8 (refine SameCall.bind (callKey_same h _ _) ?_; rintro _ _ rfl)
  exact SameCall.pure rfl

/-- The evaluations of two blocks do the same. -/
def SameBlk (m : Machine) (I : Ω → Prop) (b : Live.Blk (Ω × V)) (b' : Blk) : Prop :=
  SameCall I Eq (b.value m) (Io.lift (b'.value m) : Io V _)

variable {m : Machine}

theorem SameBlk.raw (a b : W32) : SameBlk (V := V) m I (.raw a b) (.raw a b) := by
  unfold SameBlk Live.Blk.value Blk.value
  exact SameCall.pure rfl

theorem SameBlk.ofU64 (x : W64) : SameBlk (V := V) m I (Live.BlkRaw.ofU64 x) (BlkRaw.ofU64 x) :=
  SameBlk.raw _ _

theorem SameBlk.swapped {b : Live.Blk (Ω × V)} {b' : Blk} (h : SameBlk m I b b') :
    SameBlk m I (.swapped b) (.swapped b') := by
  unfold SameBlk Live.Blk.value Blk.value
  rw [Io.lift_bind]
  refine SameCall.bind h ?_
  rintro _ _ rfl
  exact SameCall.pure rfl

theorem SameBlk.xored {a b : Live.Blk (Ω × V)} {a' b' : Blk} (ha : SameBlk m I a a')
    (hb : SameBlk m I b b') : SameBlk m I (.xored a b) (.xored a' b') := by
  unfold SameBlk Live.Blk.value Blk.value
  simp only [Io.lift_bind]
  refine SameCall.bind ha ?_
  rintro _ _ rfl
  refine SameCall.bind hb ?_
  rintro _ _ rfl
  exact SameCall.pure rfl

theorem SameBlk.forwarded {b : Live.Blk (Ω × V)} {b' : Blk} (h : SameBlk m I b b')
    {k : Option (Live.Key (Ω × V))} {q : Option Key} (hk : SamePointer I k q) :
    SameBlk m I (.forwarded b k) (.forwarded b' q) := by
  unfold SameBlk Live.Blk.value Blk.value
  rw [Io.lift_bind]
  refine SameCall.bind h ?_
  rintro _ _ rfl
  exact forwardRounds_same hk _

theorem SameBlk.backwarded {b : Live.Blk (Ω × V)} {b' : Blk} (h : SameBlk m I b b')
    {k : Option (Live.Key (Ω × V))} {q : Option Key} (hk : SamePointer I k q) :
    SameBlk m I (.backwarded b k) (.backwarded b' q) := by
  unfold SameBlk Live.Blk.value Blk.value
  rw [Io.lift_bind]
  refine SameCall.bind h ?_
  rintro _ _ rfl
  exact backwardRounds_same hk _

theorem SameBlk.imitShifted {b : Live.Blk (Ω × V)} {b' : Blk} (h : SameBlk m I b b') :
    SameBlk m I (.imitShifted b) (.imitShifted b') := by
  unfold SameBlk Live.Blk.value Blk.value
  rw [Io.lift_bind]
  refine SameCall.bind h ?_
  rintro v _ rfl
  by_cases hv : v.2 &&& 0x80000000 = 0
  · simp only [hv, if_true, Io.lift_bind]
    refine SameCall.bind h ?_
    rintro _ _ rfl
    exact SameCall.rfl_lift _
  · simp only [hv, if_false, Io.lift_bind]
    refine SameCall.bind h ?_
    rintro _ _ rfl
    refine SameCall.bind (SameCall.rfl_lift _) ?_
    rintro _ _ rfl
    exact SameCall.pure rfl

theorem SameBlk.encrypted {b : Live.Blk (Ω × V)} {b' : Blk} (h : SameBlk m I b b')
    {k : Option (Live.Key (Ω × V))} {q : Option Key} (hk : SamePointer I k q) :
    SameBlk m I (Live.BlkEncrypted b k) (BlkEncrypted b' q) :=
  (((h.forwarded hk).forwarded hk).forwarded hk |>.backwarded hk).swapped

theorem SameBlk.decrypted {b : Live.Blk (Ω × V)} {b' : Blk} (h : SameBlk m I b b')
    {k : Option (Live.Key (Ω × V))} {q : Option Key} (hk : SamePointer I k q) :
    SameBlk m I (Live.BlkDecrypted b k) (BlkDecrypted b' q) :=
  (((h.forwarded hk).backwarded hk).backwarded hk |>.backwarded hk).swapped

theorem EncryptionBase_same {k : Live.Key (Ω × V)} {q : Key} (h : AnswersLike I k q) (x : W64) :
    SameCall I Eq (Live.EncryptionBase.transform k x) (Io.lift (EncryptionBase.transform q x) : Io V _) := by
  unfold Live.EncryptionBase.transform EncryptionBase.transform
  simp only [Io.lift_bind]
  iterate 32 (refine SameCall.bind (h.2 _ _) ?_; rintro _ _ rfl)
  exact SameCall.pure rfl

theorem ofBytes_same (buf : List Byte) :
    SameOutcome (SameBlk (V := V) m I) (Live.BlkRaw.ofBytes buf) (BlkRaw.ofBytes buf) := by
  unfold Live.BlkRaw.ofBytes BlkRaw.ofBytes
  cases load32 buf 0 <;> try (simp [SameOutcome]; done)
  cases load32 buf 4 <;> try (simp [SameOutcome]; done)
  exact SameBlk.raw _ _

/-! ### The streams -/

theorem ECBSink_loop_same {R : τ → τ' → Prop} {wr : τ → List Byte → Io (Ω × V) τ}
    {wr' : τ' → List Byte → Io V τ'} (hw : SameSink I R wr wr') {k : Live.Key (Ω × V)} {q : Key}
    (hk : AnswersLike I k q) (d p : List Byte) (s : τ) (s' : τ') (hs : R s s') :
    SameCall I (fun t t' => R t.sink t'.sink ∧ t.key = k ∧ t'.key = q) (Live.ECBSink.loop wr k d p s)
      (ECBSink.loop wr' q d p s') := by
  induction d generalizing p s s' with
  | nil =>
    unfold Live.ECBSink.loop ECBSink.loop
    by_cases hp : p ≠ []
    · rw [if_pos hp, if_pos hp]
      exact SameCall.lift rfl
    · rw [if_neg hp, if_neg hp]
      exact SameCall.pure ⟨hs, rfl, rfl⟩
  | cons b d ih =>
    unfold Live.ECBSink.loop ECBSink.loop
    by_cases hp : (p ++ [b]).length = 8
    · simp only [hp, if_true]
      refine SameCall.bind (SameCall.rfl_lift _) ?_
      rintro _ _ rfl
      refine SameCall.bind (EncryptionBase_same hk _) ?_
      rintro _ _ rfl
      refine SameCall.bind (SameCall.rfl_lift _) ?_
      rintro _ _ rfl
      refine SameCall.bind (hw _ _ _ hs) ?_
      intro s s' hs
      exact ih [] s s' hs
    · simp only [hp, if_false]
      exact ih _ s s' hs

theorem CFBSink_loop_same {R : τ → τ' → Prop} {wr : τ → List Byte → Io (Ω × V) τ}
    {wr' : τ' → List Byte → Io V τ'} (hw : SameSink I R wr wr') {k : Live.Key (Ω × V)} {q : Key}
    (hk : AnswersLike I k q) (d : List Byte) (s : τ) (s' : τ') (hs : R s s') (p : List Byte) (rl rr : W64) :
    SameCall I (fun t t' => R t.sink t'.sink ∧ t.key = k ∧ t'.key = q ∧
        (t.ivl, t.ivr, t.plain) = (t'.ivl, t'.ivr, t'.plain))
      (Live.CFBSink.loop m wr k d s p rl rr) (CFBSink.loop m wr' q d s' p rl rr) := by
  induction d generalizing s s' p rl rr with
  | nil =>
    unfold Live.CFBSink.loop CFBSink.loop
    exact SameCall.pure ⟨hs, rfl, rfl, rfl⟩
  | cons b d ih =>
    unfold Live.CFBSink.loop CFBSink.loop
    by_cases hp : (p ++ [b]).length = 8
    · simp only [hp, if_true]
      refine SameCall.bind (SameBlk.encrypted (SameBlk.ofU64 _) (SamePointer.asLazy hk)) ?_
      rintro _ _ rfl
      refine SameCall.bind (SameCall.rfl_lift _) ?_
      rintro _ _ rfl
      refine SameCall.bind (hw _ _ _ hs) ?_
      intro s s' hs
      refine SameCall.bind (SameCall.rfl_lift _) ?_
      rintro _ _ rfl
      exact ih s s' hs [] _ _
    · simp only [hp, if_false]
      exact ih s s' hs _ _ _

theorem gost89_CFBSink_loop_same {R : τ → τ' → Prop} {wr : τ → List Byte → Io (Ω × V) τ}
    {wr' : τ' → List Byte → Io V τ'} (hw : SameSink I R wr wr') {k : Live.Key (Ω × V)} {q : Key}
    (hk : AnswersLike I k q) (d : List Byte) (s : τ) (s' : τ') (hs : R s s') (p : List Byte) (r : W64) :
    SameCall I (fun t t' => R t.sink t'.sink ∧ t.key = k ∧ t'.key = q ∧ (t.iv, t.plain) = (t'.iv, t'.plain))
      (Live.Gost89.CFBSink.loop m wr k d s p r) (Gost89.CFBSink.loop m wr' q d s' p r) := by
  induction d generalizing s s' p r with
  | nil =>
    unfold Live.Gost89.CFBSink.loop Gost89.CFBSink.loop
    exact SameCall.pure ⟨hs, rfl, rfl, rfl⟩
  | cons b d ih =>
    unfold Live.Gost89.CFBSink.loop Gost89.CFBSink.loop
    by_cases hp : (p ++ [b]).length = 8
    · simp only [hp, if_true]
      refine SameCall.bind (SameBlk.encrypted (SameBlk.ofU64 _) (SamePointer.asLazy hk)) ?_
      rintro _ _ rfl
      refine SameCall.bind (SameCall.rfl_lift _) ?_
      rintro _ _ rfl
      refine SameCall.bind (hw _ _ _ hs) ?_
      intro s s' hs
      refine SameCall.bind (SameCall.rfl_lift _) ?_
      rintro _ _ rfl
      exact ih s s' hs [] _
    · simp only [hp, if_false]
      exact ih s s' hs _ _

theorem CFBSource_loop_same {R : σ → σ' → Prop} {rd : σ → Nat → Io (Ω × V) (List Byte × σ)}
    {rd' : σ' → Nat → Io V (List Byte × σ')} (hr : SameSource I R rd rd') {k : Live.Key (Ω × V)} {q : Key}
    (hk : AnswersLike I k q) (size fuel : Nat) (s : σ) (s' : σ') (hs : R s s') (p : List Byte) (rl rr : W64)
    (res : List Byte) :
    SameCall I (fun x y => x.1 = y.1 ∧ R x.2.source y.2.source ∧ x.2.key = k ∧ y.2.key = q ∧
        (x.2.ivl, x.2.ivr, x.2.plain) = (y.2.ivl, y.2.ivr, y.2.plain))
      (Live.CFBSource.loop m rd k size fuel s p rl rr res) (CFBSource.loop m rd' q size fuel s' p rl rr res) := by
  induction fuel generalizing s s' p rl rr res with
  | zero => exact SameCall.lift trivial
  | succ fuel ih =>
    unfold Live.CFBSource.loop CFBSource.loop
    by_cases h : res.length < size
    · simp only [h, if_true]
      rcases hd : drain size p res with ⟨p1, res1⟩
      simp only
      by_cases h1 : res1.length = size
      · simp only [h1, if_true]
        exact SameCall.pure ⟨rfl, hs, rfl, rfl, rfl⟩
      · simp only [h1, if_false]
        refine SameCall.bind (SameBlk.encrypted (SameBlk.ofU64 _) (SamePointer.asLazy hk)) ?_
        rintro e _ rfl
        refine SameCall.bind (hr _ _ _ hs) ?_
        rintro ⟨p2, s2⟩ ⟨_, s2'⟩ ⟨h3, h4⟩
        simp only at h3 h4
        subst h3
        simp only
        by_cases h2 : p2 = []
        · simp only [h2, if_true]
          exact SameCall.pure ⟨rfl, h4, rfl, rfl, rfl⟩
        · simp only [h2, if_false]
          refine SameCall.bind (SameCall.rfl_lift _) ?_
          rintro _ _ rfl
          refine SameCall.bind (SameCall.rfl_lift _) ?_
          rintro _ _ rfl
          exact ih _ _ h4 _ _ _ _
    · simp only [h, if_false]
      exact SameCall.pure ⟨rfl, hs, rfl, rfl, rfl⟩

theorem gost89_CFBSource_loop_same {R : σ → σ' → Prop} {rd : σ → Nat → Io (Ω × V) (List Byte × σ)}
    {rd' : σ' → Nat → Io V (List Byte × σ')} (hr : SameSource I R rd rd') {k : Live.Key (Ω × V)} {q : Key}
    (hk : AnswersLike I k q) (size fuel : Nat) (s : σ) (s' : σ') (hs : R s s') (p : List Byte) (r : W64)
    (res : List Byte) :
    SameCall I (fun x y => x.1 = y.1 ∧ R x.2.source y.2.source ∧ x.2.key = k ∧ y.2.key = q ∧
        (x.2.iv, x.2.plain) = (y.2.iv, y.2.plain))
      (Live.Gost89.CFBSource.loop m rd k size fuel s p r res)
      (Gost89.CFBSource.loop m rd' q size fuel s' p r res) := by
  induction fuel generalizing s s' p r res with
  | zero => exact SameCall.lift trivial
  | succ fuel ih =>
    unfold Live.Gost89.CFBSource.loop Gost89.CFBSource.loop
    by_cases h : res.length < size
    · simp only [h, if_true]
      rcases hd : drain size p res with ⟨p1, res1⟩
      simp only
      by_cases h1 : res1.length = size
      · simp only [h1, if_true]
        exact SameCall.pure ⟨rfl, hs, rfl, rfl, rfl⟩
      · simp only [h1, if_false]
        refine SameCall.bind (SameBlk.encrypted (SameBlk.ofU64 _) (SamePointer.asLazy hk)) ?_
        rintro e _ rfl
        refine SameCall.bind (hr _ _ _ hs) ?_
        rintro ⟨p2, s2⟩ ⟨_, s2'⟩ ⟨h3, h4⟩
        simp only at h3 h4
        subst h3
        simp only
        by_cases h2 : p2 = []
        · simp only [h2, if_true]
          exact SameCall.pure ⟨rfl, h4, rfl, rfl, rfl⟩
        · simp only [h2, if_false]
          refine SameCall.bind (SameCall.rfl_lift _) ?_
          rintro _ _ rfl
          refine SameCall.bind (SameCall.rfl_lift _) ?_
          rintro _ _ rfl
          exact ih _ _ h4 _ _ _
    · simp only [h, if_false]
      exact SameCall.pure ⟨rfl, hs, rfl, rfl, rfl⟩

theorem ECBSource_read_same {R : σ → σ' → Prop} {rd : σ → Nat → Io (Ω × V) (List Byte × σ)}
    {rd' : σ' → Nat → Io V (List Byte × σ')} (hr : SameSource I R rd rd') {k : Live.Key (Ω × V)} {q : Key}
    (hk : AnswersLike I k q) :
    SameSource I (SameECBSource R k q) (Live.ECBSource.read m rd) (ECBSource.read m rd') := by
  intro s s' n hs
  cases s with
  | bare s =>
    cases s' with
    | ecb => exact hs.elim
    | bare s' =>
      unfold Live.ECBSource.read ECBSource.read
      refine SameCall.bind (hr _ _ _ hs) ?_
      rintro ⟨p, s⟩ ⟨p', s'⟩ ⟨h1, h2⟩
      exact SameCall.pure ⟨h1, h2⟩
  | ecb s k' =>
    cases s' with
    | bare => exact hs.elim
    | ecb s' q' =>
      obtain ⟨hs, rfl, rfl⟩ := hs
      unfold Live.ECBSource.read ECBSource.read
      by_cases hn : n < 8
      · simp only [hn, if_true]
        exact SameCall.lift rfl
      · simp only [hn, if_false]
        refine SameCall.bind (hr _ _ _ hs) ?_
        rintro ⟨p, s⟩ ⟨p', s'⟩ ⟨h1, h2⟩
        simp only at h1 h2
        subst h1
        simp only
        by_cases hp : p = []
        · simp only [hp, if_true]
          exact SameCall.pure ⟨rfl, h2⟩
        · simp only [hp, if_false]
          refine SameCall.bind (SameCall.lift (ofBytes_same (I := I) (m := m) p)) ?_
          intro b b' hb
          refine SameCall.bind (SameBlk.decrypted hb (SamePointer.asLazy hk)) ?_
          rintro _ _ rfl
          refine SameCall.bind (SameCall.rfl_lift _) ?_
          rintro _ _ rfl
          exact SameCall.pure ⟨rfl, h2, rfl, rfl⟩

theorem BlkImitFinalKey_same {k : Option (Live.Key (Ω × V))} {q : Option Key} (hk : SamePointer I k q)
    (n : Nat) : SameBlk m I (Live.BlkImitFinalKey k n) (BlkImitFinalKey q n) := by
  have h : SameBlk m I (.imitShifted (Live.BlkEncrypted (Live.BlkRaw.ofU64 0) k))
      (.imitShifted (BlkEncrypted BlkRaw.zero q)) :=
    (SameBlk.encrypted (SameBlk.ofU64 0) hk).imitShifted
  unfold Live.BlkImitFinalKey BlkImitFinalKey
  by_cases hn : n = 8
  · simp only [hn, if_true]; exact h
  · simp only [hn, if_false]; exact h.imitShifted

theorem Imit_loop_same {R : σ → σ' → Prop} {rd : σ → Nat → Io (Ω × V) (List Byte × σ)}
    {rd' : σ' → Nat → Io V (List Byte × σ')} (hr : SameSource I R rd rd')
    {k : Option (Live.Key (Ω × V))} {q : Option Key} (hk : SamePointer I k q) (fuel : Nat) (s : σ) (s' : σ')
    (hs : R s s') (b : List Byte) (block : Live.Blk (Ω × V)) (block' : Blk) (hb : SameBlk m I block block') :
    SameCall I (fun x y => SameBlk m I x.1 y.1 ∧ SameBlk m I x.2 y.2) (Live.Imit.loop rd k fuel s b block)
      (Imit.loop rd' q fuel s' b block') := by
  induction fuel generalizing s s' b block block' with
  | zero => exact SameCall.lift trivial
  | succ fuel ih =>
    unfold Live.Imit.loop Imit.loop
    refine SameCall.bind (SameCall.rfl_lift _) ?_
    rintro v _ rfl
    have hx := hb.xored (SameBlk.ofU64 (V := V) (m := m) (I := I) v)
    by_cases h8 : b.length < 8
    · simp only [h8, if_true]
      exact SameCall.pure ⟨hx, BlkImitFinalKey_same hk _⟩
    · simp only [h8, if_false]
      refine SameCall.bind (hr _ _ _ hs) ?_
      rintro ⟨p, s⟩ ⟨p', s'⟩ ⟨h1, h2⟩
      simp only at h1 h2
      subst h1
      simp only
      by_cases hp : p = []
      · simp only [hp, if_true]
        exact SameCall.pure ⟨hx, BlkImitFinalKey_same hk _⟩
      · simp only [hp, if_false]
        exact ih _ _ h2 _ _ _ (hx.encrypted hk)

theorem DataImit_loop_same {k : Option (Live.Key (Ω × V))} {q : Option Key} (hk : SamePointer I k q)
    (d state : List Byte) :
    SameCall I Eq (Live.Gost89.DataImit.loop m k d state)
      (Io.lift (Gost89.DataImit.loop m q d state) : Io V _) := by
  induction d, state using Gost89.DataImit.loop.induct with
  | case1 b0 b1 b2 b3 b4 b5 b6 b7 rest state ih =>
    unfold Live.Gost89.DataImit.loop Gost89.DataImit.loop
    simp only [Io.lift_bind]
    refine SameCall.bind (SameCall.lift (ofBytes_same (I := I) (m := m) _)) ?_
    intro b b' hb
    have hi : SameCall I (SameBlk m I) (Live.Gost89.ImitedBlock.value m b k)
        (Io.lift (Gost89.ImitedBlock.value m b' q) : Io V _) := by
      unfold Live.Gost89.ImitedBlock.value Gost89.ImitedBlock.value BlkRaw.ofBlock
      simp only [Io.lift_bind]
      refine SameCall.bind hb ?_
      rintro v _ rfl
      refine SameCall.bind (((SameBlk.raw v.1 v.2).forwarded hk).forwarded hk) ?_
      rintro v _ rfl
      exact SameCall.pure (SameBlk.raw _ _)
    refine SameCall.bind hi ?_
    intro r r' hr
    refine SameCall.bind hr ?_
    rintro _ _ rfl
    refine SameCall.bind (SameCall.rfl_lift _) ?_
    rintro st _ rfl
    exact ih st
  | case2 state =>
    unfold Live.Gost89.DataImit.loop Gost89.DataImit.loop
    exact SameCall.pure rfl
  | case3 d state h1 h2 =>
    unfold Live.Gost89.DataImit.loop Gost89.DataImit.loop
    split
    · exact absurd rfl (h1 _ _ _ _ _ _ _ _ _)
    · exact absurd rfl h2
    · split
      · exact absurd rfl (h1 _ _ _ _ _ _ _ _ _)
      · exact absurd rfl h2
      · exact SameCall.lift rfl

theorem writeAll_same {R : τ → τ' → Prop} {wr : τ → List Byte → Io (Ω × V) τ}
    {wr' : τ' → List Byte → Io V τ'} (hw : SameSink I R wr wr') (ds : List (List Byte)) (s : τ) (s' : τ')
    (hs : R s s') : SameCall I R (writeAll wr s ds) (writeAll wr' s' ds) := by
  induction ds generalizing s s' with
  | nil => exact SameCall.pure hs
  | cons d ds ih =>
    show SameCall I R (wr s d >>= fun s => writeAll wr s ds) (wr' s' d >>= fun s => writeAll wr' s ds)
    exact SameCall.bind (hw _ _ _ hs) ih

end Goost
