import Verif.Spec.ManyKeys
import Verif.Lemmas.KuzToken
import Verif.Lemmas.ScarceKuz
/-
Helper lemmas: what the use of one key leaves as it is.
-/
namespace Goost.KuzToken
open Goost.Kuz (Caches)
open Goost.KuzLive (IterImpl)
open Spec Spec.Modes
variable {W ι α β κ : Type} {m : Machine}

/-- All caches in the block have identities for which `S` holds. -/
def Within (S : Nat → Prop) : Blk W → Prop
  | .raw _ _ => True
  | .str _ => True
  | .xored a b => Within S a ∧ Within S b
  | .blkS b => Within S b
  | .blkR b => Within S b
  | .incremented b => Within S b
  | .shifted b _ => Within S b
  | .xoredIfHighBit a b => Within S a ∧ Within S b
  | .cached id b => S id ∧ Within S b
  | .user _ => True

/-- The caches outside `S` are left as they are. -/
def Frame (S : Nat → Prop) (x : Io (Caches × W) α) : Prop := ∀ s id, ¬ S id → (x s).2.1 id = s.1 id

theorem Frame.lift (S : Nat → Prop) (e : Exec α) : Frame S (Io.lift e : Io (Caches × W) α) := fun _ _ _ => rfl

theorem Frame.pure (S : Nat → Prop) (a : α) : Frame S (Pure.pure a : Io (Caches × W) α) := fun _ _ _ => rfl

theorem Frame.outside (S : Nat → Prop) (x : Io W α) : Frame S (KuzToken.outside x) := by
  intro s id _
  simp only [KuzToken.outside]

theorem Frame.deref (S : Nat → Prop) (p : Option ι) (f : ι → Io W α) : Frame S (KuzToken.deref p f) := by
  cases p with
  | none => exact Frame.lift S _
  | some i => exact Frame.outside S _

theorem Frame.bind {S : Nat → Prop} {x : Io (Caches × W) α} {f : α → Io (Caches × W) β} (hx : Frame S x)
    (hf : ∀ a, Frame S (f a)) : Frame S (x >>= f) := by
  intro s id h
  have h1 := hx s id h
  rcases e : x s with ⟨r, s'⟩
  rw [e] at h1
  cases r with
  | ok a => rw [bind_ok e]; exact (hf a s' id h).trans h1
  | throw t => rw [bind_run_throw e]; exact h1
  | ub u => rw [bind_run_ub e]; exact h1
  | diverge => rw [bind_diverge e]; exact h1

theorem Frame.value {S : Nat → Prop} (m : Machine) {b : Blk W} (h : Within S b) : Frame S (b.value m) := by
  induction b with
  | raw low high => exact Frame.pure S _
  | str s => exact Frame.lift S _
  | xored a b iha ihb => exact (iha h.1).bind fun _ => (ihb h.2).bind fun _ => Frame.pure S _
  | blkS b ih => exact (ih h).bind fun _ => Frame.lift S _
  | blkR b ih => exact (ih h).bind fun _ => Frame.lift S _
  | incremented b ih => exact (ih h).bind fun _ => Frame.pure S _
  | shifted b n ih => exact (ih h).bind fun _ => Frame.lift S _
  | xoredIfHighBit a b iha ihb =>
    unfold Blk.value
    refine (iha h.1).bind fun v => ?_
    split
    · exact (iha h.1).bind fun _ => Frame.lift S _
    · exact (iha h.1).bind fun _ => (Frame.lift S _).bind fun _ => (ihb h.2).bind fun _ => Frame.pure S _
  | cached id b ih =>
    intro s i hi
    simp only [Blk.value]
    split
    · rfl
    · have h1 := ih h.2 s i hi
      rcases e : b.value m s with ⟨r, s'⟩
      rw [e] at h1
      have ne : i ≠ id := fun e => hi (e ▸ h.1)
      cases r with
      | ok v => simp only [if_neg ne]; exact h1
      | throw t => exact h1
      | ub u => exact h1
      | diverge => exact h1
  | user x => exact Frame.outside S _

theorem Within.transform {S : Nat → Prop} (n : Nat) {b : Blk W} (h : Within S b) :
    Within S (BlkL.transform b n) := by
  induction n generalizing b with
  | zero => exact h
  | succ n ih => exact ih (b := .blkR b) h

theorem Within.blkL {S : Nat → Prop} {b : Blk W} (h : Within S b) : Within S (BlkL b) := h.transform 16

theorem Within.generate {S : Nat → Prop} (c2 : Int) {a b : Blk W} (i : Int) (ha : Within S a) (hb : Within S b) :
    Within S (BlkIterKey.generate c2 a b i) := by
  rw [BlkIterKey.generate]
  split
  · exact hb
  · exact Within.generate c2 (i + 1) hb ⟨ha, Within.blkL (b := .blkS (.xored b _)) ⟨hb, Within.blkL trivial⟩⟩
termination_by (c2 + 1 - i).toNat
decreasing_by omega

/-- The identities of the caches of a key. -/
def range (base : Nat) (i : Nat) : Prop := base < i ∧ i ≤ base + 10

/-- All round keys are within the range. -/
def KeyWithin (S : Nat → Prop) (k : Key W) : Prop :=
  Within S k.k1 ∧ Within S k.k2 ∧ Within S k.k3 ∧ Within S k.k4 ∧ Within S k.k5 ∧ Within S k.k6 ∧
    Within S k.k7 ∧ Within S k.k8 ∧ Within S k.k9 ∧ Within S k.k10

theorem KeyWithin.ofBlocks {S : Nat → Prop} {base : Nat} (hS : ∀ i, range base i → S i) {H L : Blk W}
    (hH : Within S H) (hL : Within S L) : KeyWithin S (Key.ofBlocks H L base) := by
  have r : ∀ j, 1 ≤ j → j ≤ 10 → S (base + j) := fun j h1 h2 => hS _ ⟨by omega, by omega⟩
  have k1 : Within S (.cached (base + 1) H) := ⟨r 1 (by omega) (by omega), hH⟩
  have k2 : Within S (.cached (base + 2) L) := ⟨r 2 (by omega) (by omega), hL⟩
  have step : ∀ j (a b : Blk W) c1 c2, 1 ≤ j → j ≤ 10 → Within S a → Within S b →
      Within S (.cached (base + j) (BlkIterKey a b c1 c2)) := fun j a b c1 c2 h1 h2 ha hb =>
    ⟨r j h1 h2, Within.generate c2 c1 hb ha⟩
  have k3 := step 3 _ _ 1 8 (by omega) (by omega) k1 k2
  have k4 := step 4 _ _ 1 7 (by omega) (by omega) k1 k2
  have k5 := step 5 _ _ 9 16 (by omega) (by omega) k3 k4
  have k6 := step 6 _ _ 9 15 (by omega) (by omega) k3 k4
  have k7 := step 7 _ _ 17 24 (by omega) (by omega) k5 k6
  have k8 := step 8 _ _ 17 23 (by omega) (by omega) k5 k6
  have k9 := step 9 _ _ 25 32 (by omega) (by omega) k7 k8
  have k10 := step 10 _ _ 25 31 (by omega) (by omega) k7 k8
  exact ⟨k1, k2, k3, k4, k5, k6, k7, k8, k9, k10⟩

theorem Within.encrypt {S : Nat → Prop} {k : Key W} (hk : KeyWithin S k) {b : Blk W} (hb : Within S b) :
    Within S (BlkEncrypted b k) := by
  obtain ⟨h1, h2, h3, h4, h5, h6, h7, h8, h9, h10⟩ := hk
  have step : ∀ {a n : Blk W}, Within S a → Within S n → Within S (Key.encryptStep a n) :=
    fun {a n} ha hn => Within.blkL (b := .blkS (.xored a n)) ⟨ha, hn⟩
  exact ⟨step (step (step (step (step (step (step (step (step hb h1) h2) h3) h4) h5) h6) h7) h8) h9, h10⟩

theorem Frame.next {S : Nat → Prop} (it : IterImpl W ι) (i : ItCTR W ι) : Frame S (ItCTR.next it i) :=
  (Frame.deref S _ _).bind fun _ => Frame.pure S _

/-- What `next()` returns has the same key and a counter without caches. -/
theorem Frame.skip_bind {S : Nat → Prop} (it : IterImpl W ι) {key : Key W} (n : Nat) (i : ItCTR W ι)
    (hi : i.key = key ∧ Within S i.ctr) {f : ItCTR W ι → Io (Caches × W) β}
    (hf : ∀ j, j.key = key ∧ Within S j.ctr → Frame S (f j)) : Frame S (skip it n i >>= f) := by
  induction n generalizing i with
  | zero => exact hf i hi
  | succ n ih =>
    unfold skip ItCTR.next
    rw [bind_assoc, bind_assoc]
    exact (Frame.deref S _ _).bind fun p => ih ⟨p, i.key, .incremented i.ctr⟩ ⟨hi.1, hi.2⟩

theorem Frame.loop_bind {S : Nat → Prop} (it : IterImpl W ι) {key : Key W} (hk : KeyWithin S key) (fuel : Nat)
    (p : Option ι) (b : Blk W) (hb : Within S b) {f : Blk W × Option ι → Io (Caches × W) β}
    (hf : ∀ b' p', Within S b' → Frame S (f (b', p'))) : Frame S (Imit.loop it key fuel p b >>= f) := by
  induction fuel generalizing p b with
  | zero => exact Frame.lift S _
  | succ n ih =>
    unfold Imit.loop
    rw [bind_assoc]
    refine (Frame.deref S _ _).bind fun l => ?_
    cases l with
    | true => exact hf b p hb
    | false =>
      simp only [Bool.not_false, if_true]
      rw [bind_assoc]
      refine (Frame.deref S _ _).bind fun v => ?_
      rw [bind_assoc]
      exact (Frame.deref S _ _).bind fun p => ih p _ (Within.encrypt hk (b := .xored b (BlkRaw.ofPair v)) ⟨hb, trivial⟩)

theorem Frame.mac {S : Nat → Prop} (it : IterImpl W ι) {key : Key W} (hk : KeyWithin S key) (fuel : Nat)
    (start : Io W (Option ι)) : Frame S (Imit.value m it start fuel key) := by
  unfold Imit.value
  refine (Frame.outside S _).bind fun p => ?_
  refine Frame.loop_bind it hk fuel p BlkRaw.zero trivial fun b p hb => ?_
  refine (Frame.deref S _ _).bind fun v => (Frame.deref S _ _).bind fun n => ?_
  have k1 : Within S (Blk.xoredIfHighBit (BlkEncrypted BlkRaw.zero key) (BlkRaw.ofU64 0x87)) :=
    ⟨Within.encrypt hk trivial, trivial⟩
  split
  · exact Frame.value m (Within.encrypt hk (b := .xored (.xored b (BlkRaw.ofPair v)) _) ⟨⟨hb, trivial⟩, k1⟩)
  · exact Frame.value m (Within.encrypt hk (b := .xored (.xored b (BlkRaw.ofPair v)) (.xoredIfHighBit _ _))
      ⟨⟨hb, trivial⟩, k1, trivial⟩)

theorem Frame.perform {S : Nat → Prop} {key : Key W} (hk : KeyWithin S key) (u : KeyUse W) :
    Frame S (perform m key u) := by
  cases u with
  | encrypt b => exact Frame.value m (Within.encrypt hk (b := .user b) trivial)
  | ctr iv before block after =>
    simp only [Spec.perform, StCTREncrypted.iter]
    rw [bind_assoc]
    refine (Frame.outside S _).bind fun p => ?_
    refine Frame.skip_bind (shelf W 16) (key := key) before.length ⟨p, key, .raw 0 iv⟩ ⟨rfl, trivial⟩ fun j hj => ?_
    unfold ItCTR.value
    refine (Frame.deref S _ _).bind fun p => (Frame.value m ?_).bind fun g => Frame.pure S _
    rw [hj.1]
    exact Within.encrypt hk hj.2
  | mac p v n => exact Frame.mac _ hk _ _

/-- The memory of each key, and the world. -/
def views (base : κ → Nat) (s : Caches × W) : KeyMemories κ W :=
  (fun k => (s.1 (base k + 1), s.1 (base k + 2)), s.2)

theorem Inv_congr {base : Nat} {c c' : Caches} (h : ∀ i, range base i → c' i = c i) (hc : Inv m base c) :
    Inv m base c' := by
  intro j v h1 h2 e
  have r : ∀ j, 1 ≤ j → j ≤ 10 → c' (base + j) = c (base + j) := fun j h1 h2 => h _ ⟨by omega, by omega⟩
  rw [r j (by omega) h2] at e
  rw [r 1 (by omega) (by omega), r 2 (by omega) (by omega)]
  exact hc j v h1 h2 e

variable [DecidableEq κ] {high low : κ → Io W V} {H L : κ → Blk W}

theorem among (hm : m.unalignedLoad = true) {base : κ → Nat} (hb : OwnCaches base)
    (hH : ∀ k, Acts m (H k) (high k)) (hL : ∀ k, Acts m (L k) (low k))
    (wH : ∀ k S, Within S (H k)) (wL : ∀ k S, Within S (L k))
    (us : List (κ × KeyUse W)) (s : Caches × W) (hs : ∀ k, Inv m (base k) s.1) :
    let x := runCalls (performAmong m fun k => Key.ofBlocks (H k) (L k) (base k)) us s
    let y := runCalls (idealAmong high low) us (views base s)
    x.1 = y.1 ∧ views base x.2 = y.2 ∧ ∀ k, Inv m (base k) x.2.1 := by
  induction us generalizing s with
  | nil => exact ⟨rfl, rfl, hs⟩
  | cons u us ih =>
    obtain ⟨k, u⟩ := u
    have := hH k
    have := hL k
    obtain ⟨h1, h2, h3⟩ := Meets.use (hi := high k) (lo := low k) (H := H k) (L := L k) (base := base k) hm u s (hs k)
    have fr : Frame (range (base k)) (perform m (Key.ofBlocks (H k) (L k) (base k)) u) :=
      Frame.perform (KeyWithin.ofBlocks (fun _ h => h) (wH k _) (wL k _)) u
    have out : ∀ k', k' ≠ k → ∀ i, range (base k') i →
        (perform m (Key.ofBlocks (H k) (L k) (base k)) u s).2.1 i = s.1 i := by
      intro k' hk i hi
      refine fr s i fun hi' => ?_
      have := hb k' k hk
      unfold range at hi hi'
      omega
    have inv : ∀ k', Inv m (base k') (perform m (Key.ofBlocks (H k) (L k) (base k)) u s).2.1 := by
      intro k'
      by_cases hk : k' = k
      · subst hk; exact h3
      · exact Inv_congr (out k' hk) (hs k')
    obtain ⟨j1, j2, j3⟩ := ih _ inv
    have e : idealAmong high low (k, u) (views base s) =
        ((perform m (Key.ofBlocks (H k) (L k) (base k)) u s).1,
          views base (perform m (Key.ofBlocks (H k) (L k) (base k)) u s).2) := by
      have v0 : ((views base s).1 k |>.1, (views base s).1 k |>.2, (views base s).2) = view (base k) s := rfl
      simp only [idealAmong]
      rw [v0]
      rcases ei : ideal (high k) (low k) u (view (base k) s) with ⟨r, h, l, w⟩
      rw [ei] at h1 h2
      simp only at h1 h2 ⊢
      rw [h1]
      refine Prod.ext rfl (Prod.ext ?_ (congrArg (·.2.2) h2).symm)
      funext k'
      by_cases hk : k' = k
      · subst hk
        simp only [if_true, views]
        exact Prod.ext (congrArg (·.1) h2).symm (congrArg (·.2.1) h2).symm
      · simp only [if_neg hk, views]
        rw [out k' hk _ ⟨by omega, by omega⟩, out k' hk _ ⟨by omega, by omega⟩]
    simp only [runCalls, performAmong, e]
    exact ⟨by rw [← j1], j2, j3⟩

/-! ### Keys derived from another key -/

section Derived
variable {X Y : Type}

/-- The two actions have the same result and lead from worlds related by `R` to such worlds. -/
def Sim (R : X → Y → Prop) (x : Io X α) (y : Io Y α) : Prop :=
  ∀ a b, R a b → (x a).1 = (y b).1 ∧ R (x a).2 (y b).2

theorem Sim.pure {R : X → Y → Prop} (a : α) : Sim R (Pure.pure a) (Pure.pure a) := fun _ _ h => ⟨rfl, h⟩

theorem Sim.bind {R : X → Y → Prop} {x : Io X α} {y : Io Y α} {f : α → Io X β} {g : α → Io Y β} (h : Sim R x y)
    (hf : ∀ a, Sim R (f a) (g a)) : Sim R (x >>= f) (y >>= g) := by
  intro a b hab
  obtain ⟨h1, h2⟩ := h a b hab
  rcases ex : x a with ⟨r, a'⟩
  rcases ey : y b with ⟨r', b'⟩
  rw [ex, ey] at h1 h2
  simp only at h1 h2
  subst h1
  cases r with
  | ok v => rw [bind_ok ex, bind_ok ey]; exact hf v a' b' h2
  | throw t => rw [bind_run_throw ex, bind_run_throw ey]; exact ⟨rfl, h2⟩
  | ub u => rw [bind_run_ub ex, bind_run_ub ey]; exact ⟨rfl, h2⟩
  | diverge => rw [bind_diverge ex, bind_diverge ey]; exact ⟨rfl, h2⟩

/-- The same memory, and related worlds. -/
def Beside (R : X → Y → Prop) (s : KeyMemory X) (t : KeyMemory Y) : Prop :=
  s.1 = t.1 ∧ s.2.1 = t.2.1 ∧ R s.2.2 t.2.2

theorem Sim.besides {R : X → Y → Prop} {x : Io X α} {y : Io Y α} (h : Sim R x y) :
    Sim (Beside R) (Spec.besides x) (Spec.besides y) := by
  intro s t hst
  obtain ⟨h1, h2⟩ := h _ _ hst.2.2
  exact ⟨h1, hst.1, hst.2.1, h2⟩

theorem Sim.memo {R : X → Y → Prop} {x : Io X V} {y : Io Y V} (h : Sim R x y) (c : Option V) {a : X} {b : Y}
    (hab : R a b) : (Spec.memo x (c, a)).1 = (Spec.memo y (c, b)).1 ∧
      (Spec.memo x (c, a)).2.1 = (Spec.memo y (c, b)).2.1 ∧ R (Spec.memo x (c, a)).2.2 (Spec.memo y (c, b)).2.2 := by
  cases c with
  | some v => exact ⟨rfl, rfl, hab⟩
  | none =>
    obtain ⟨h1, h2⟩ := h a b hab
    rcases ex : x a with ⟨r, a'⟩
    rcases ey : y b with ⟨r', b'⟩
    rw [ex, ey] at h1 h2
    simp only at h1 h2
    subst h1
    simp only [Spec.memo, ex, ey]
    cases r <;> exact ⟨rfl, rfl, h2⟩

theorem Sim.askHigh {R : X → Y → Prop} {x : Io X V} {y : Io Y V} (h : Sim R x y) :
    Sim (Beside R) (Spec.askHigh x) (Spec.askHigh y) := by
  rintro ⟨a, b, w⟩ ⟨a', b', w'⟩ ⟨h1, h2, h3⟩
  simp only at h1 h2 h3
  subst h1 h2
  obtain ⟨k1, k2, k3⟩ := h.memo a h3
  exact ⟨k1, k2, rfl, k3⟩

theorem Sim.askLow {R : X → Y → Prop} {x : Io X V} {y : Io Y V} (h : Sim R x y) :
    Sim (Beside R) (Spec.askLow x) (Spec.askLow y) := by
  rintro ⟨a, b, w⟩ ⟨a', b', w'⟩ ⟨h1, h2, h3⟩
  simp only at h1 h2 h3
  subst h1 h2
  obtain ⟨k1, k2, k3⟩ := h.memo b h3
  exact ⟨k1, rfl, k2, k3⟩

/-- What should happen depends on the world only through the actions on it. -/
theorem Sim.ideal {R : X → Y → Prop} {hx lx : Io X V} {hy ly : Io Y V} (hh : Sim R hx hy) (hl : Sim R lx ly)
    {f : Io W V → Io X V} {g : Io W V → Io Y V} (hfg : ∀ b, Sim R (f b) (g b)) (u : KeyUse W) :
    Sim (Beside R) (Spec.ideal hx lx (u.within f)) (Spec.ideal hy ly (u.within g)) := by
  have key : Sim (Beside R) (askKey hx lx) (askKey hy ly) :=
    hh.askHigh.bind fun _ => hl.askLow.bind fun _ => Sim.pure _
  cases u with
  | encrypt b => exact (hfg b).besides.bind fun _ => key.bind fun _ => Sim.pure _
  | ctr iv before block after => exact key.bind fun _ => Sim.pure _
  | mac p v n => exact key.bind fun _ => Sim.pure _

end Derived

/-- The caches of the master key hold what its memory says. -/
def Holds (m : Machine) (base : Nat) (s : Caches × W) (x : KeyMemory W) : Prop := Inv m base s.1 ∧ view base s = x

theorem Meets.sim {base : Nat} {x : Io (Caches × W) V} {y : Io (KeyMemory W) V} (h : Meets m base y x) :
    Sim (Holds m base) x y := by
  rintro s t ⟨hs, rfl⟩
  obtain ⟨h1, h2, h3⟩ := h s hs
  exact ⟨h1, h3, h2⟩

theorem outside_sim {base : Nat} (b : Io W V) : Sim (Holds m base) (outside b) (besides b) := by
  rintro s t ⟨hs, rfl⟩
  exact ⟨rfl, hs, rfl⟩

/-- The state of both keys. -/
def Both (m : Machine) (base base' : Nat) (s : Caches × (Caches × W)) (x : KeyMemory (KeyMemory W)) : Prop :=
  Inv m base' s.1 ∧ Beside (Holds m base) (view base' s) x

theorem derived_history {hi lo : Io W V} {H L : Blk W} [Acts m H hi] [Acts m L lo] (hm : m.unalignedLoad = true)
    (base base' : Nat) (a b : Io W V) (us : List (TwoUses W)) (s : Caches × (Caches × W))
    (x : KeyMemory (KeyMemory W)) (h : Both m base base' s x) :
    let library := runCalls (performDerived m (Key.ofBlocks H L base) a b base') us s
    let memory := runCalls (idealDerived hi lo a b) us x
    library.1 = memory.1 ∧ Both m base base' library.2 memory.2 := by
  have wrap : ∀ v : Io W V, Sim (Holds m base) ((BlkEncrypted (.user v) (Key.ofBlocks H L base)).value m)
      (ideal hi lo (.encrypt v)) := by
    intro v
    exact (Meets.use (hi := hi) (lo := lo) (H := H) (L := L) (base := base) hm (.encrypt v)).sim
  have one : ∀ u s x, Both m base base' s x →
      (performDerived m (Key.ofBlocks H L base) a b base' u s).1 = (idealDerived hi lo a b u x).1 ∧
      Both m base base' (performDerived m (Key.ofBlocks H L base) a b base' u s).2
        (idealDerived hi lo a b u x).2 := by
    intro u s x hx
    cases u with
    | master u =>
      have k := (Meets.use (hi := hi) (lo := lo) (H := H) (L := L) (base := base) hm u).sim
      obtain ⟨j1, j2⟩ := k s.2 x.2.2 hx.2.2.2
      exact ⟨j1, hx.1, hx.2.1, hx.2.2.1, j2⟩
    | derived u =>
      obtain ⟨j1, j2, j3⟩ := Meets.use (W := Caches × W)
        (hi := (BlkEncrypted (.user a) (Key.ofBlocks H L base)).value m)
        (lo := (BlkEncrypted (.user b) (Key.ofBlocks H L base)).value m)
        (H := .user ((BlkEncrypted (.user a) (Key.ofBlocks H L base)).value m))
        (L := .user ((BlkEncrypted (.user b) (Key.ofBlocks H L base)).value m)) (base := base') hm
        (u.within outside) s hx.1
      obtain ⟨i1, i2⟩ := Sim.ideal (wrap a) (wrap b) (f := outside) (g := besides) (fun b => outside_sim b) u
        _ _ hx.2
      rw [← j2] at i2
      exact ⟨j1.trans i1, j3, i2⟩
  induction us generalizing s x with
  | nil => exact ⟨rfl, h⟩
  | cons u us ih =>
    obtain ⟨j1, j2⟩ := one u s x h
    obtain ⟨i1, i2⟩ := ih _ _ j2
    simp only [runCalls]
    exact ⟨by rw [j1, i1], i2⟩

end Goost.KuzToken

namespace Goost.ScarceKuz
open Spec
variable {W κ : Type} [DecidableEq κ]

/-- Keys that do not change. -/
theorem among_fixed {h l : κ → W64 × W64} (us : List (κ × KeyUse W)) (s : KeyMemories κ W)
    (hs : ∀ k, Agrees (h k) (l k) ((s.1 k).1, (s.1 k).2, s.2)) :
    let x := runCalls (idealAmong (fun k => pure (h k)) (fun k => pure (l k))) us s
    let y := runCalls (fun u => kuzResult (join64 (h u.1) ++ join64 (l u.1)) u.2) us s.2
    x.1 = y.1 ∧ x.2.2 = y.2 := by
  induction us generalizing s with
  | nil => exact ⟨rfl, rfl⟩
  | cons u us ih =>
    obtain ⟨k, u⟩ := u
    obtain ⟨h1, h2, h3⟩ := ideal_agrees u (hs k)
    rcases ei : ideal (pure (h k)) (pure (l k)) u ((s.1 k).1, (s.1 k).2, s.2) with ⟨r, a, b, w⟩
    rw [ei] at h1 h2 h3
    simp only at h1 h2 h3
    have next : ∀ k', Agrees (h k') (l k') (W := W) ((if k' = k then (a, b) else s.1 k').1,
        (if k' = k then (a, b) else s.1 k').2, w) := by
      intro k'
      by_cases e : k' = k
      · subst e; simpa only [if_true] using h3
      · simp only [if_neg e]; exact hs k'
    obtain ⟨j1, j2⟩ := ih (fun k' => if k' = k then (a, b) else s.1 k', w) next
    have ek : kuzResult (join64 (h k) ++ join64 (l k)) u s.2 = (r, w) := Prod.ext h1.symm h2.symm
    simp only [runCalls, idealAmong, ei, ek]
    exact ⟨by rw [j1], j2⟩

theorem runCalls_sim {X Y C : Type} {R : X → Y → Prop} {f : C → Io X (W64 × W64)} {g : C → Io Y (W64 × W64)}
    (h : ∀ c, KuzToken.Sim R (f c) (g c)) (cs : List C) {x : X} {y : Y} (hxy : R x y) :
    (runCalls f cs x).1 = (runCalls g cs y).1 ∧ R (runCalls f cs x).2 (runCalls g cs y).2 := by
  induction cs generalizing x y with
  | nil => exact ⟨rfl, hxy⟩
  | cons c cs ih =>
    obtain ⟨h1, h2⟩ := h c x y hxy
    obtain ⟨j1, j2⟩ := ih h2
    simp only [runCalls]
    exact ⟨by rw [h1, j1], j2⟩

/-- The memory of a key that does not change, in the world `w`. -/
def Fixed (h l : W64 × W64) (s : KeyMemory W) (w : W) : Prop := Agrees h l s ∧ s.2.2 = w

theorem fixed_sim (h l : W64 × W64) (u : KeyUse W) :
    KuzToken.Sim (Fixed h l) (ideal (pure h) (pure l) u) (kuzResult (join64 h ++ join64 l) u) := by
  rintro s _ ⟨hs, rfl⟩
  obtain ⟨h1, h2, h3⟩ := ideal_agrees u hs
  exact ⟨h1, h3, h2⟩

theorem join_pair64 (x : BitVec 128) : join64 (pair64 x) = x := by
  apply BitVec.eq_of_getLsbD_eq
  intro i hi
  simp only [join64, pair64, BitVec.getLsbD_append, BitVec.getLsbD_extractLsb']
  by_cases h : i < 64
  · simp [h]
  · simp [h, show i - 64 < 64 by omega, show 64 + (i - 64) = i by omega]

theorem within_id (u : KeyUse W) : u.within id = u := by cases u <;> rfl

/-- A key derived from one that does not change does not change. -/
theorem derived_fixed (h l a b : W64 × W64) (us : List (TwoUses W)) (w : W) :
    let x := runCalls (idealDerived (pure h) (pure l) (pure a) (pure b)) us (none, none, (none, none, w))
    let y := runCalls (derivedResult (join64 h ++ join64 l) a b) us w
    x.1 = y.1 ∧ x.2.2.2.2.2 = y.2 := by
  let K := join64 h ++ join64 l
  let h2 := pair64 (Spec.Kuz.enc K (join64 a))
  let l2 := pair64 (Spec.Kuz.enc K (join64 b))
  let R : KeyMemory (KeyMemory W) → W → Prop := fun s w =>
    ∃ t : KeyMemory W, KuzToken.Beside (Fixed h l) s t ∧ Fixed h2 l2 t w
  have one : ∀ u, KuzToken.Sim R (idealDerived (W := W) (pure h) (pure l) (pure a) (pure b) u)
      (derivedResult K a b u) := by
    rintro u s w ⟨t, ⟨b1, b2, b3⟩, t1, t2⟩
    cases u with
    | master u =>
      obtain ⟨j1, j2⟩ := fixed_sim h l u _ _ b3
      rw [t2] at j1 j2
      exact ⟨j1, (t.1, t.2.1, (kuzResult K u w).2), ⟨b1, b2, j2⟩, t1, rfl⟩
    | derived u =>
      have e : ∀ v : W64 × W64, KuzToken.Sim (Fixed h l) (ideal (W := W) (pure h) (pure l) (.encrypt (pure v)))
          (pure (pair64 (Spec.Kuz.enc K (join64 v)))) := fun v => fixed_sim h l (.encrypt (pure v))
      obtain ⟨j1, j2⟩ := KuzToken.Sim.ideal (e a) (e b) (f := besides) (g := id)
        (fun x s w hs => ⟨by rw [← hs.2]; rfl, hs.1, by rw [← hs.2]; rfl⟩) u s t ⟨b1, b2, b3⟩
      rw [within_id] at j1 j2
      obtain ⟨i1, i2⟩ := fixed_sim h2 l2 u t w ⟨t1, t2⟩
      have ek : join64 h2 ++ join64 l2 = Spec.Kuz.enc K (join64 a) ++ Spec.Kuz.enc K (join64 b) := by
        simp only [h2, l2, join_pair64]
      rw [ek] at i1 i2
      exact ⟨j1.trans i1, _, j2, i2⟩
  obtain ⟨k1, t, k2, k3⟩ := runCalls_sim one us (x := (none, none, (none, none, w))) (y := w)
    ⟨(none, none, w), ⟨rfl, rfl, ⟨.inl rfl, .inl rfl⟩, rfl⟩, ⟨.inl rfl, .inl rfl⟩, rfl⟩
  exact ⟨k1, k2.2.2.2.trans k3.2⟩

end Goost.ScarceKuz
