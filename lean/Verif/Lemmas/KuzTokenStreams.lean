import Verif.Spec.KuzTokenStreams
import Verif.Lemmas.KuzToken
/-
Helper lemmas: counter-mode streams that act on the outside world, with keys that do.
-/
namespace Goost.KuzToken
open Goost.Kuz (Caches)
open Goost.KuzLive (IterImpl)
open Spec Spec.Modes
variable {W ι α β : Type} {m : Machine} {base : Nat} {hi lo : Io W V} {H L : Blk W} [Acts m H hi] [Acts m L lo]

/-- The result, renamed. -/
def renamed (f : β → α) : Exec β → Exec α
  | .ok b => .ok (f b)
  | .throw e => .throw e
  | .ub u => .ub u
  | .diverge => .diverge

/-- The library does what the ideal program does, up to `f`. -/
def Like (m : Machine) (base : Nat) (f : β → α) (y : Io (KeyMemory W) β) (x : Io (Caches × W) α) : Prop :=
  ∀ s, Inv m base s.1 → x s = (renamed f (y (view base s)).1, (x s).2) ∧ view base (x s).2 = (y (view base s)).2 ∧
    Inv m base (x s).2.1

theorem Like.through (p : Option ι) (f : ι → Io W α) : Like m base id (besides (through p f)) (deref p f) := by
  intro s hs
  cases p with
  | none => exact ⟨rfl, rfl, hs⟩
  | some i =>
    simp only [deref, Spec.through, outside, besides, view]
    rcases f i s.2 with ⟨r, w⟩
    cases r <;> exact ⟨by simp [renamed], by simp, hs⟩

theorem Like.bind {β' α' : Type} {f : β → α} {y : Io (KeyMemory W) β} {x : Io (Caches × W) α} (h : Like m base f y x)
    {g : β' → α'} {y' : β → Io (KeyMemory W) β'} {x' : α → Io (Caches × W) α'}
    (h' : ∀ b, Like m base g (y' b) (x' (f b))) : Like m base g (y >>= y') (x >>= x') := by
  intro s hs
  obtain ⟨h1, h2, h3⟩ := h s hs
  rcases e : y (view base s) with ⟨r, mem⟩
  rw [e] at h1 h2
  cases r with
  | ok b =>
    have k := h' b (x s).2 h3
    rw [h2] at k
    rw [bind_ok h1, bind_ok e]
    exact k
  | throw u => rw [bind_run_throw h1, bind_run_throw e]; exact ⟨rfl, h2, h3⟩
  | ub u => rw [bind_run_ub h1, bind_run_ub e]; exact ⟨rfl, h2, h3⟩
  | diverge => rw [bind_diverge h1, bind_diverge e]; exact ⟨rfl, h2, h3⟩

theorem Like.pure (f : β → α) (b : β) : Like m base (W := W) f (Pure.pure b) (Pure.pure (f b)) :=
  fun _ hs => ⟨rfl, rfl, hs⟩

theorem Like.of_meets {y : Io (KeyMemory W) V} {x : Io (Caches × W) V} (h : Meets m base y x) :
    Like m base id y x := by
  intro s hs
  obtain ⟨h1, h2, h3⟩ := h s hs
  refine ⟨Prod.ext ?_ rfl, h2, h3⟩
  rw [h1]
  cases (y (view base s)).1 <;> rfl

/-- The encrypted counter. -/
theorem Meets.counter (hm : m.unalignedLoad = true) (iv : W64) (n : Nat) :
    Meets m base (do let K ← askKey hi lo; return pair64 (Spec.Kuz.enc K (counter iv n)))
      ((BlkEncrypted (stepped W iv n) (Key.ofBlocks H L base)).value m) := by
  intro s hs
  have st : Stage m base hi lo (stepped W iv n) (fun _ _ => steppedK iv n) := .inl ⟨_, Does.stepped iv n, rfl⟩
  have h := Out.meets (f := fun q : V × V => Spec.Kuz.enc (join64 q.1 ++ join64 q.2) (Spec.Modes.counter iv n))
    (fun q => (known_encrypts hm q.1 q.2).has (steppedK_value m iv n))
    (st.encrypt (H := H) (L := L) hm s hs)
  rw [askKey_eq]
  simp only [bind_assoc, pure_bind]
  exact h

theorem pair64_xor (a b : BitVec 128) :
    ((pair64 a).1 ^^^ (pair64 b).1, (pair64 a).2 ^^^ (pair64 b).2) = pair64 (a ^^^ b) := by
  refine Prod.ext ?_ ?_ <;> simp only [pair64] <;> ext i hi <;> simp

/-- The iterator of the library. -/
def toLibrary (key : Key W) (p : Option ι × W64 × Nat) : ItCTR W ι := ⟨p.1, key, stepped W p.2.1 p.2.2⟩

theorem Like.iter (it : IterImpl W ι) (start : Io W (Option ι)) (key : Key W) (iv : W64) :
    Like m base (toLibrary key) ((idealOps it hi lo).iter start iv) (StCTREncrypted.iter start key iv) := by
  refine Like.bind (f := id) ?_ fun b => Like.pure (toLibrary key) (b, iv, 0)
  intro s hs
  simp only [outside, besides, view]
  rcases start s.2 with ⟨r, w⟩
  cases r <;> exact ⟨by simp [renamed], by simp, hs⟩

theorem Like.next (it : IterImpl W ι) (key : Key W) (p : Option ι × W64 × Nat) :
    Like m base (toLibrary key) ((idealOps it hi lo).next p) (ItCTR.next it (toLibrary key p)) :=
  Like.bind (Like.through p.1 it.next) fun b => Like.pure (toLibrary key) (b, p.2.1, p.2.2 + 1)

theorem Like.value (hm : m.unalignedLoad = true) (it : IterImpl W ι) (p : Option ι × W64 × Nat) :
    Like m base id ((idealOps it hi lo).value p)
      (ItCTR.value m it (toLibrary (Key.ofBlocks H L base) p)) := by
  refine Like.bind (Like.through p.1 it.value) fun v => ?_
  have h := Like.bind (Like.of_meets (Meets.counter (hi := hi) (lo := lo) (H := H) (L := L) (base := base) hm p.2.1 p.2.2))
    (g := id) (y' := fun g => Pure.pure (v.1 ^^^ g.1, v.2 ^^^ g.2)) (x' := fun g => Pure.pure (v.1 ^^^ g.1, v.2 ^^^ g.2))
    fun g => Like.pure id (v.1 ^^^ g.1, v.2 ^^^ g.2)
  simp only [bind_assoc, pure_bind] at h
  have e : ∀ K : BitVec 256, (v.1 ^^^ (pair64 (Spec.Kuz.enc K (Spec.Modes.counter p.2.1 p.2.2))).1,
      v.2 ^^^ (pair64 (Spec.Kuz.enc K (Spec.Modes.counter p.2.1 p.2.2))).2) =
      pair64 (join64 v ^^^ Spec.Kuz.enc K (Spec.Modes.counter p.2.1 p.2.2)) := fun K => by
    rw [← pair64_xor, pair64_join64]
  simp only [e] at h
  exact h

section steps
variable {P P' : Type} {F : P → P'}

/-- The same, with the iterators that are held. -/
def LikeStep (m : Machine) (base : Nat) (F : P → P')
    (y : List P × KeyMemory W → Exec StreamAnswer × (List P × KeyMemory W))
    (x : List P' × (Caches × W) → Exec StreamAnswer × (List P' × (Caches × W))) : Prop :=
  ∀ l s, Inv m base s.1 →
    (x (l.map F, s)).1 = (y (l, view base s)).1 ∧
    (x (l.map F, s)).2.1 = (y (l, view base s)).2.1.map F ∧
    view base (x (l.map F, s)).2.2 = (y (l, view base s)).2.2 ∧
    Inv m base (x (l.map F, s)).2.2.1

theorem Like.answered {y : Io (KeyMemory W) α} {x : Io (Caches × W) α} (h : Like m base id y x)
    (f : α → StreamAnswer) : LikeStep m base F (answered f y) (answered f x) := by
  intro l s hs
  obtain ⟨h1, h2, h3⟩ := h s hs
  rcases e : y (view base s) with ⟨r, mem⟩
  rw [e] at h1 h2
  simp only [Spec.answered, e]
  rw [h1]
  cases r <;> exact ⟨rfl, rfl, h2, h3⟩

theorem Like.gained {y : Io (KeyMemory W) P} {x : Io (Caches × W) P'} (h : Like m base F y x) :
    LikeStep m base F (gained y) (gained x) := by
  intro l s hs
  obtain ⟨h1, h2, h3⟩ := h s hs
  rcases e : y (view base s) with ⟨r, mem⟩
  rw [e] at h1 h2
  simp only [Spec.gained, e]
  rw [h1]
  cases r with
  | ok a => exact ⟨rfl, by simp [renamed], h2, h3⟩
  | throw u => exact ⟨rfl, rfl, h2, h3⟩
  | ub u => exact ⟨rfl, rfl, h2, h3⟩
  | diverge => exact ⟨rfl, rfl, h2, h3⟩

theorem LikeStep.held (k : Nat) {y : P → List P × KeyMemory W → Exec StreamAnswer × (List P × KeyMemory W)}
    {x : P' → List P' × (Caches × W) → Exec StreamAnswer × (List P' × (Caches × W))}
    (h : ∀ p, LikeStep m base F (y p) (x (F p))) : LikeStep m base F (held k y) (held k x) := by
  intro l s hs
  simp only [Spec.held, List.getElem?_map]
  rcases l[k]? with _ | p
  · exact ⟨rfl, rfl, rfl, hs⟩
  · exact h p l s hs

end steps

theorem LikeStep.step (hm : m.unalignedLoad = true) (it : IterImpl W ι) (u : StreamStep W ι) :
    LikeStep m base (toLibrary (Key.ofBlocks H L base)) (streamStep (idealOps it hi lo) u)
      (streamStep (libraryOps m it (Key.ofBlocks H L base)) u) := by
  cases u with
  | iter start iv => exact (Like.iter it start _ iv).gained
  | last k => exact LikeStep.held k fun p => (Like.through p.1 it.last).answered _
  | value k => exact LikeStep.held k fun p => (Like.value hm it p).answered _
  | size k => exact LikeStep.held k fun p => (Like.through p.1 it.size).answered _
  | next k => exact LikeStep.held k fun p => (Like.next it _ p).gained
  | use u => exact (Like.of_meets (Meets.use hm u)).answered _

theorem streams_history (hm : m.unalignedLoad = true) (it : IterImpl W ι) (us : List (StreamStep W ι))
    (l : List (Option ι × W64 × Nat)) (s : Caches × W) (hs : Inv m base s.1) :
    let x := runCalls (streamStep (libraryOps m it (Key.ofBlocks H L base))) us
      (l.map (toLibrary (Key.ofBlocks H L base)), s)
    let y := runCalls (streamStep (idealOps it hi lo)) us (l, view base s)
    x.1 = y.1 ∧ view base x.2.2 = y.2.2 := by
  induction us generalizing l s with
  | nil => exact ⟨rfl, rfl⟩
  | cons u us ih =>
    obtain ⟨h1, h2, h3, h4⟩ := LikeStep.step (hi := hi) (lo := lo) (H := H) (L := L) (base := base) hm it u l s hs
    have k := ih (streamStep (idealOps it hi lo) u (l, view base s)).2.1
      (streamStep (libraryOps m it (Key.ofBlocks H L base)) u (l.map (toLibrary (Key.ofBlocks H L base)), s)).2.2 h4
    rw [← h2, h3] at k
    simp only [runCalls]
    exact ⟨by rw [h1]; exact congrArg _ k.1, k.2⟩

end Goost.KuzToken
