import Verif.Spec.ManyScarce
import Verif.Lemmas.ManyKeys
/-
Helper lemmas: what the use of one key leaves as it is, also if memory runs out.
-/
namespace Goost.ScarceKuz
open Goost.Kuz (Caches)
open Goost.KuzLive (IterImpl)
open Goost.KuzToken (Blk Key ItCTR BlkRaw.zero BlkRaw.ofU64 BlkRaw.ofPair BlkEncrypted outside Key.ofBlocks Within KeyWithin Within.encrypt range Acts Inv
  Inv_congr views view)
open Goost.Scarce (alloc below)
open Spec
variable {W ι α β κ : Type} {m : Machine}

/-- The caches outside `S` are left as they are. -/
def FrameS (S : Nat → Prop) (x : Io (Nat × (Caches × W)) α) : Prop := ∀ s id, ¬ S id → (x s).2.2.1 id = s.2.1 id

theorem FrameS.lift (S : Nat → Prop) (e : Exec α) : FrameS S (Io.lift e : Io (Nat × (Caches × W)) α) := fun _ _ _ => rfl

theorem FrameS.pure (S : Nat → Prop) (a : α) : FrameS S (Pure.pure a : Io (Nat × (Caches × W)) α) := fun _ _ _ => rfl

theorem FrameS.below {S : Nat → Prop} {x : Io (Caches × W) α} (h : KuzToken.Frame S x) : FrameS S (Scarce.below x) :=
  fun s id hi => h s.2 id hi

theorem FrameS.outside (S : Nat → Prop) (x : Io W α) : FrameS S (Scarce.below (KuzToken.outside x)) := FrameS.below (KuzToken.Frame.outside S x)

theorem FrameS.deref (S : Nat → Prop) (p : Option ι) (f : ι → Io W α) : FrameS S (ScarceKuz.deref p f) := FrameS.below (KuzToken.Frame.deref S p f)

theorem FrameS.alloc (S : Nat → Prop) : FrameS S (Scarce.alloc : Io (Nat × (Caches × W)) Unit) := by
  rintro ⟨n, s⟩ id _
  cases n <;> rfl

theorem FrameS.bind {S : Nat → Prop} {x : Io (Nat × (Caches × W)) α} {f : α → Io (Nat × (Caches × W)) β} (hx : FrameS S x)
    (hf : ∀ a, FrameS S (f a)) : FrameS S (x >>= f) := by
  intro s id h
  have h1 := hx s id h
  rcases e : x s with ⟨r, s'⟩
  rw [e] at h1
  cases r with
  | ok a => rw [KuzToken.bind_ok e]; exact (hf a s' id h).trans h1
  | throw t => rw [bind_run_throw e]; exact h1
  | ub u => rw [bind_run_ub e]; exact h1
  | diverge => rw [KuzToken.bind_diverge e]; exact h1

theorem FrameS.alloc_bind {S : Nat → Prop} {f : Unit → Io (Nat × (Caches × W)) β} (hf : FrameS S (f ())) : FrameS S (Scarce.alloc >>= f) :=
  (FrameS.alloc S).bind fun _ => hf

theorem FrameS.value {S : Nat → Prop} (m : Machine) {b : Blk W} (h : Within S b) : FrameS S (ScarceKuz.Blk.value m b) := by
  induction b with
  | raw low high => exact FrameS.alloc_bind (FrameS.pure S _)
  | str s => exact FrameS.alloc_bind (FrameS.lift S _)
  | xored a b iha ihb => exact FrameS.alloc_bind ((iha h.1).bind fun _ => (ihb h.2).bind fun _ => FrameS.pure S _)
  | blkS b ih => exact FrameS.alloc_bind ((ih h).bind fun _ => FrameS.lift S _)
  | blkR b ih => exact FrameS.alloc_bind ((ih h).bind fun _ => FrameS.lift S _)
  | incremented b ih => exact FrameS.alloc_bind ((ih h).bind fun _ => FrameS.pure S _)
  | shifted b n ih => exact FrameS.alloc_bind ((ih h).bind fun _ => FrameS.lift S _)
  | xoredIfHighBit a b iha ihb =>
    unfold ScarceKuz.Blk.value
    refine FrameS.alloc_bind ((iha h.1).bind fun v => FrameS.alloc_bind ?_)
    split
    · exact (iha h.1).bind fun _ => FrameS.lift S _
    · exact (iha h.1).bind fun _ => (FrameS.lift S _).bind fun _ => (ihb h.2).bind fun _ => FrameS.pure S _
  | cached id b ih =>
    intro s i hi
    simp only [ScarceKuz.Blk.value]
    split
    · rfl
    · have h1 := ih h.2 s i hi
      rcases e : ScarceKuz.Blk.value m b s with ⟨r, s'⟩
      rw [e] at h1
      have ne : i ≠ id := fun e => hi (e ▸ h.1)
      cases r with
      | ok v => simp only [if_neg ne]; exact h1
      | throw t => exact h1
      | ub u => exact h1
      | diverge => exact h1
  | user x => exact FrameS.alloc_bind (FrameS.outside S _)

theorem FrameS.skip_bind {S : Nat → Prop} (it : IterImpl W ι) {key : Key W} (n : Nat) (i : ItCTR W ι)
    (hi : i.key = key ∧ Within S i.ctr) {f : ItCTR W ι → Io (Nat × (Caches × W)) β}
    (hf : ∀ j, j.key = key ∧ Within S j.ctr → FrameS S (f j)) : FrameS S (skipScarce it n i >>= f) := by
  induction n generalizing i with
  | zero => exact hf i hi
  | succ n ih =>
    unfold skipScarce ItCTR.next
    simp only [bind_assoc]
    refine FrameS.alloc_bind ((FrameS.deref S _ _).bind fun p => FrameS.alloc_bind ?_)
    exact ih ⟨p, i.key, .incremented i.ctr⟩ ⟨hi.1, hi.2⟩

theorem FrameS.loop_bind {S : Nat → Prop} (it : IterImpl W ι) {key : Key W} (hk : KeyWithin S key) (fuel : Nat)
    (p : Option ι) (b : Blk W) (hb : Within S b) {f : Blk W × Option ι → Io (Nat × (Caches × W)) β}
    (hf : ∀ b' p', Within S b' → FrameS S (f (b', p'))) : FrameS S (Imit.loop it key fuel p b >>= f) := by
  induction fuel generalizing p b with
  | zero => exact FrameS.lift S _
  | succ n ih =>
    unfold Imit.loop
    rw [bind_assoc]
    refine (FrameS.deref S _ _).bind fun l => ?_
    cases l with
    | true => exact hf b p hb
    | false =>
      simp only [Bool.not_false, if_true, bind_assoc]
      refine (FrameS.deref S _ _).bind fun v => FrameS.alloc_bind ?_
      exact (FrameS.deref S _ _).bind fun p => ih p _ (Within.encrypt hk (b := .xored b (BlkRaw.ofPair v)) ⟨hb, trivial⟩)

theorem FrameS.mac {S : Nat → Prop} (it : IterImpl W ι) {key : Key W} (hk : KeyWithin S key) (fuel : Nat)
    (start : Io W (Option ι)) : FrameS S (Imit.value m it start fuel key) := by
  unfold Imit.value
  refine (FrameS.outside S _).bind fun p => FrameS.alloc_bind ?_
  refine FrameS.loop_bind it hk fuel p BlkRaw.zero trivial fun b p hb => FrameS.alloc_bind ?_
  refine (FrameS.deref S _ _).bind fun v => FrameS.alloc_bind ((FrameS.deref S _ _).bind fun n => FrameS.alloc_bind ?_)
  have k1 : Within S (KuzToken.Blk.xoredIfHighBit (BlkEncrypted BlkRaw.zero key) (BlkRaw.ofU64 0x87)) :=
    ⟨Within.encrypt hk trivial, trivial⟩
  split
  · exact FrameS.value m (Within.encrypt hk (b := .xored (.xored b (BlkRaw.ofPair v)) _) ⟨⟨hb, trivial⟩, k1⟩)
  · exact FrameS.value m (Within.encrypt hk (b := .xored (.xored b (BlkRaw.ofPair v)) (.xoredIfHighBit _ _))
      ⟨⟨hb, trivial⟩, k1, trivial⟩)

theorem FrameS.perform {S : Nat → Prop} {key : Key W} (hk : KeyWithin S key) (u : KeyUse W) :
    FrameS S (performScarce m key u) := by
  cases u with
  | encrypt b => exact FrameS.value m (Within.encrypt hk (b := .user b) trivial)
  | ctr iv before block after =>
    simp only [performScarce, StCTREncrypted.iter, bind_assoc]
    refine FrameS.alloc_bind ((FrameS.outside S _).bind fun p => FrameS.alloc_bind ?_)
    refine FrameS.skip_bind (shelf W 16) (key := key) before.length ⟨p, key, .raw 0 iv⟩ ⟨rfl, trivial⟩ fun j hj => ?_
    unfold ItCTR.value
    refine FrameS.alloc_bind ((FrameS.deref S _ _).bind fun p => (FrameS.value m ?_).bind fun g => FrameS.pure S _)
    rw [hj.1]
    exact Within.encrypt hk hj.2
  | mac p v n => exact FrameS.mac _ hk _ _

/-- An attempt leaves the caches of other keys as they are. -/
theorem attempt_frame {base : Nat} {H L : Blk W} (wH : ∀ S, Within S H) (wL : ∀ S, Within S L) (u : Nat × KeyUse W) (s : Caches × W) (i : Nat)
    (hi : ¬ range base i) : (attempt m (Key.ofBlocks H L base) u s).2.1 i = s.1 i := by
  have := FrameS.perform (m := m) (KeyWithin.ofBlocks (S := range base) (base := base) (fun _ h => h) (wH _) (wL _)) u.2 (u.1, s) i hi
  rcases e : performScarce m (Key.ofBlocks H L base) u.2 (u.1, s) with ⟨r, n, s'⟩
  rw [e] at this
  simp only [attempt, e]
  exact this

variable {high low : κ → Io W (W64 × W64)} {H L : κ → Blk W}

theorem attempts_among (hm : m.unalignedLoad = true) {base : κ → Nat} (hb : OwnCaches base)
    (hH : ∀ k, Acts m (H k) (high k)) (hL : ∀ k, Acts m (L k) (low k))
    (bH : ∀ k, Brief m (H k)) (bL : ∀ k, Brief m (L k)) (wH : ∀ k S, Within S (H k)) (wL : ∀ k S, Within S (L k))
    (us : List (κ × Nat × KeyUse W)) (s : Caches × W) (hs : ∀ k, Inv m (base k) s.1) :
    let x := runCalls (attemptAmong m fun k => Key.ofBlocks (H k) (L k) (base k)) us s
    mayResultAmong high low (us.map fun u => (u.1, u.2.2)) (views base s) x.1 (views base x.2) ∧ ∀ k, Inv m (base k) x.2.1 := by
  induction us generalizing s with
  | nil => exact ⟨⟨rfl, rfl⟩, hs⟩
  | cons u us ih =>
    obtain ⟨k, n, u⟩ := u
    have := hH k
    have := hL k
    have := bH k
    have := bL k
    obtain ⟨N, h⟩ := attempt_result (hi := high k) (lo := low k) (H := H k) (L := L k) (base := base k) hm u s (hs k)
    obtain ⟨h1, h2, h3⟩ := h n
    have out : ∀ k', k' ≠ k → ∀ i, range (base k') i →
        (attempt m (Key.ofBlocks (H k) (L k) (base k)) (n, u) s).2.1 i = s.1 i := by
      intro k' hk i hi
      refine attempt_frame (wH k) (wL k) _ _ _ fun hi' => ?_
      have := hb k' k hk
      unfold range at hi hi'
      omega
    have inv : ∀ k', Inv m (base k') (attempt m (Key.ofBlocks (H k) (L k) (base k)) (n, u) s).2.1 := by
      intro k'
      by_cases hk : k' = k
      · subst hk; exact h1
      · exact Inv_congr (out k' hk) (hs k')
    obtain ⟨k1, k2⟩ := ih _ inv
    simp only [runCalls, List.map_cons, mayResultAmong]
    refine ⟨⟨_, views base (attempt m (Key.ofBlocks (H k) (L k) (base k)) (n, u) s).2, _, rfl, fun k' hk => ?_, ?_, k1⟩, k2⟩
    · simp only [views]
      rw [out k' hk _ ⟨by omega, by omega⟩, out k' hk _ ⟨by omega, by omega⟩]
    by_cases hn : n < N
    · exact .inr (h3 hn)
    · obtain ⟨e1, e2⟩ := h2 (by omega)
      exact .inl (Prod.ext e1.symm e2.symm)

/-- Keys that do not change. -/
theorem mayResultAmong_agrees {h l : κ → W64 × W64} (us : List (κ × KeyUse W)) {x y : KeyMemories κ W} {rs : List (Exec (W64 × W64))}
    (hx : ∀ k, Agrees (h k) (l k) (memoryOf x k)) (hr : mayResultAmong (fun k => pure (h k)) (fun k => pure (l k)) us x rs y) (k : κ) :
    Agrees (h k) (l k) (memoryOf y k) := by
  induction us generalizing x rs with
  | nil => rw [hr.2]; exact hx k
  | cons u us ih =>
    obtain ⟨r, z, rs', -, h1, h2, h3⟩ := hr
    refine ih (fun k' => ?_) h3
    by_cases hk : k' = u.1
    · subst hk
      rcases h2 with e | ⟨-, e⟩
      · have := (ideal_agrees u.2 (hx u.1)).2.2
        rw [e] at this
        exact this
      · exact (cutShort_agrees (hx u.1) e).2
    · have := hx k'
      unfold Agrees memoryOf at this ⊢
      rw [h1 k' hk]
      exact this

end Goost.ScarceKuz
