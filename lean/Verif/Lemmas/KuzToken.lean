import Verif.Spec.KuzToken
import Verif.Lemmas.KuzLive
/-
Helper lemmas: keys of the 128-bit cipher whose halves act on the outside world.
-/
namespace Goost.KuzToken
open Goost.Kuz (Caches sValue rValue incValue shiftValue)
open Goost.KuzLive (IterImpl)
open Spec Spec.Modes
variable {W ι α Q Q' : Type} {m : Machine} {base : Nat}

abbrev V := W64 × W64

/-- The caches of the two halves and the world. -/
def view (base : Nat) (s : Caches × W) : KeyMemory W := (s.1 (base + 1), s.1 (base + 2), s.2)

/-- The key with known halves. -/
def known (base : Nat) (h l : V) : Kuz.Key := Kuz.Key.ofBlocks (.raw h.1 h.2) (.raw l.1 l.2) base

/-- The derived round keys by number. -/
def derived (k : Kuz.Key) : Nat → Kuz.Blk
  | 3 => k.k3
  | 4 => k.k4
  | 5 => k.k5
  | 6 => k.k6
  | 7 => k.k7
  | 8 => k.k8
  | 9 => k.k9
  | _ => k.k10

/-- A derived round key is loaded only with the value that belongs to the loaded halves. -/
def Inv (m : Machine) (base : Nat) (c : Caches) : Prop :=
  ∀ j v, 3 ≤ j → j ≤ 10 → c (base + j) = some v →
    ∃ h l, c (base + 1) = some h ∧ c (base + 2) = some l ∧ (derived (known base h l) j).value m = .ok v

theorem Inv_none : Inv m base noneLoaded := by
  intro j v _ _ h; cases h

/-- The outcome `r` of the library is the outcome `q` of the ideal memory. -/
def Out (m : Machine) (base : Nat) (g : Q → Kuz.Blk) (q : Exec Q × KeyMemory W)
    (r : Exec V × (Caches × W)) : Prop :=
  view base r.2 = q.2 ∧ Inv m base r.2.1 ∧
    match q.1 with
    | .ok a => ∃ v, (g a).value m = .ok v ∧ r.1 = .ok v
    | .throw e => r.1 = .throw e
    | .ub u => r.1 = .ub u
    | .diverge => r.1 = .diverge

/-- Evaluating `B` is running `P` on the ideal memory, and then evaluating the block without effects. -/
def Does (m : Machine) (base : Nat) (P : Io (KeyMemory W) Q) (B : Blk W) (g : Q → Kuz.Blk) : Prop :=
  ∀ s, Inv m base s.1 → Out m base g (P (view base s)) (B.value m s)

/-- With both halves loaded, `B` does nothing to the world. -/
def Knows (m : Machine) (base : Nat) (B : Blk W) (g : V → V → Kuz.Blk) : Prop :=
  ∀ s h l, Inv m base s.1 → s.1 (base + 1) = some h → s.1 (base + 2) = some l →
    ∃ v s', (g h l).value m = .ok v ∧ B.value m s = (.ok v, s') ∧ view base s' = view base s ∧ Inv m base s'.1

theorem bind_ok {W α β : Type} {x : Io W α} {f : α → Io W β} {w w' : W} {a : α} (h : x w = (.ok a, w')) :
    (x >>= f) w = f a w' := Io.bind_run_ok h

theorem bind_diverge {W α β : Type} {x : Io W α} {f : α → Io W β} {w w' : W} (h : x w = (.diverge, w')) :
    (x >>= f) w = (.diverge, w') := by
  show Io.bind x f w = _
  unfold Io.bind
  rw [h]

/-! ### One operand -/

/-- A block that computes on the value of another. -/
theorem Does.then {P : Io (KeyMemory W) Q} {A B : Blk W} {g g' : Q → Kuz.Blk} {f : V → Exec V}
    (h : Does m base P A g) (hB : B.value m = A.value m >>= fun v => Io.lift (f v))
    (hg : ∀ q, (g' q).value m = (g q).value m >>= f) (hf : ∀ v, ∃ r, f v = .ok r) : Does m base P B g' := by
  intro s hs
  obtain ⟨h1, h2, h3⟩ := h s hs
  rw [hB]
  rcases hp : P (view base s) with ⟨r, mem⟩
  rcases ha : A.value m s with ⟨ra, s'⟩
  rw [hp] at h1 h3
  rw [ha] at h1 h2 h3
  cases r with
  | ok q =>
    obtain ⟨v, e1, rfl⟩ := h3
    obtain ⟨x, hx⟩ := hf v
    rw [bind_ok ha]
    exact ⟨h1, h2, x, by rw [hg, e1]; exact hx, hx⟩
  | throw e => cases h3; rw [bind_run_throw ha]; exact ⟨h1, h2, rfl⟩
  | ub u => cases h3; rw [bind_run_ub ha]; exact ⟨h1, h2, rfl⟩
  | diverge => cases h3; rw [bind_diverge ha]; exact ⟨h1, h2, rfl⟩

theorem Does.blkS {P : Io (KeyMemory W) Q} {A : Blk W} {g : Q → Kuz.Blk} (h : Does m base P A g) :
    Does m base P (.blkS A) (fun q => .blkS (g q)) :=
  h.then (f := sValue) rfl (fun _ => rfl) fun v => (sValue_eq v).imp fun _ h => h.1

theorem Does.blkR (hm : m.unalignedLoad = true) {P : Io (KeyMemory W) Q} {A : Blk W} {g : Q → Kuz.Blk}
    (h : Does m base P A g) : Does m base P (.blkR A) (fun q => .blkR (g q)) :=
  h.then (f := rValue m) rfl (fun _ => rfl) fun v => (rValue_eq hm v).imp fun _ h => h.1

theorem Does.incremented {P : Io (KeyMemory W) Q} {A : Blk W} {g : Q → Kuz.Blk} (h : Does m base P A g) :
    Does m base P (.incremented A) (fun q => .incremented (g q)) :=
  h.then (f := fun v => .ok (incValue v)) rfl (fun _ => rfl) fun _ => ⟨_, rfl⟩

theorem Does.transform (hm : m.unalignedLoad = true) {P : Io (KeyMemory W) Q} (n : Nat) {A : Blk W}
    {g : Q → Kuz.Blk} (h : Does m base P A g) :
    Does m base P (BlkL.transform A n) (fun q => Kuz.BlkL.transform (g q) n) := by
  induction n generalizing A g with
  | zero => exact h
  | succ n ih => exact ih (h.blkR hm)

theorem Does.blkL (hm : m.unalignedLoad = true) {P : Io (KeyMemory W) Q} {A : Blk W}
    {g : Q → Kuz.Blk} (h : Does m base P A g) :
    Does m base P (BlkL A) (fun q => Kuz.BlkL (g q)) := h.transform hm 16

/-! ### Two operands -/

theorem Does.xored {P : Io (KeyMemory W) Q} {P' : Io (KeyMemory W) Q'} {A B : Blk W} {g : Q → Kuz.Blk}
    {g' : Q' → Kuz.Blk} (ha : Does m base P A g) (hb : Does m base P' B g') :
    Does m base (do let q ← P; let q' ← P'; return (q, q')) (.xored A B) (fun q => .xored (g q.1) (g' q.2)) := by
  intro s hs
  obtain ⟨h1, h2, h3⟩ := ha s hs
  simp only [Blk.value]
  rcases hp : P (view base s) with ⟨r, mem⟩
  rcases hv : A.value m s with ⟨ra, s'⟩
  rw [hp] at h1 h3
  rw [hv] at h1 h2 h3
  cases r with
  | ok q =>
    obtain ⟨v, e1, rfl⟩ := h3
    rw [bind_ok hv, bind_ok hp]
    obtain ⟨k1, k2, k3⟩ := hb s' h2
    simp only at h1
    rw [h1] at k1 k3
    rcases hp' : P' mem with ⟨r', mem'⟩
    rcases hv' : B.value m s' with ⟨rb, s''⟩
    rw [hp'] at k1 k3
    rw [hv'] at k1 k2 k3
    cases r' with
    | ok q' =>
      obtain ⟨v', e2, rfl⟩ := k3
      rw [bind_ok hv', bind_ok hp']
      refine ⟨k1, k2, _, ?_, rfl⟩
      simp only [Kuz.Blk.value, e1, e2, Exec.ok_bind]
      rfl
    | throw e => cases k3; rw [bind_run_throw hv', bind_run_throw hp']; exact ⟨k1, k2, rfl⟩
    | ub u => cases k3; rw [bind_run_ub hv', bind_run_ub hp']; exact ⟨k1, k2, rfl⟩
    | diverge => cases k3; rw [bind_diverge hv', bind_diverge hp']; exact ⟨k1, k2, rfl⟩
  | throw e => cases h3; rw [bind_run_throw hv, bind_run_throw hp]; exact ⟨h1, h2, rfl⟩
  | ub u => cases h3; rw [bind_run_ub hv, bind_run_ub hp]; exact ⟨h1, h2, rfl⟩
  | diverge => cases h3; rw [bind_diverge hv, bind_diverge hp]; exact ⟨h1, h2, rfl⟩

/-- After `P` both halves are loaded; they are found in its result. -/
def Ready (P : Io (KeyMemory W) Q) (h l : Q → V) : Prop :=
  ∀ mem mem' q, P mem = (.ok q, mem') → mem'.1 = some (h q) ∧ mem'.2.1 = some (l q)

theorem Does.xored_knows {P : Io (KeyMemory W) Q} {hi lo : Q → V} (hr : Ready P hi lo) {A B : Blk W}
    {g : Q → Kuz.Blk} {g' : V → V → Kuz.Blk} (ha : Does m base P A g) (hb : Knows m base B g') :
    Does m base P (.xored A B) (fun q => .xored (g q) (g' (hi q) (lo q))) := by
  intro s hs
  obtain ⟨h1, h2, h3⟩ := ha s hs
  simp only [Blk.value]
  rcases hp : P (view base s) with ⟨r, mem⟩
  rcases hv : A.value m s with ⟨ra, s'⟩
  rw [hp] at h1 h3
  rw [hv] at h1 h2 h3
  cases r with
  | ok q =>
    obtain ⟨v, e1, rfl⟩ := h3
    obtain ⟨r1, r2⟩ := hr _ _ _ hp
    simp only at h1
    rw [← h1] at r1 r2
    obtain ⟨v', s'', k1, k2, k3, k4⟩ := hb s' _ _ h2 r1 r2
    rw [bind_ok hv, bind_ok k2]
    refine ⟨k3.trans h1, k4, _, ?_, rfl⟩
    simp only [Kuz.Blk.value, e1, k1, Exec.ok_bind]
    rfl
  | throw e => cases h3; rw [bind_run_throw hv]; exact ⟨h1, h2, rfl⟩
  | ub u => cases h3; rw [bind_run_ub hv]; exact ⟨h1, h2, rfl⟩
  | diverge => cases h3; rw [bind_diverge hv]; exact ⟨h1, h2, rfl⟩

/-- The result of one program, made of the result of another. -/
theorem Does.of_map {P : Io (KeyMemory W) Q} {P' : Io (KeyMemory W) Q'} {A : Blk W} {g : Q → Kuz.Blk}
    (h : Does m base P A g) (φ : Q' → Q) (hp : P = do let q ← P'; return φ q) :
    Does m base P' A (fun q => g (φ q)) := by
  intro s hs
  obtain ⟨h1, h2, h3⟩ := h s hs
  rw [hp] at h1 h3
  rcases e : P' (view base s) with ⟨r, mem⟩
  cases r with
  | ok q => rw [bind_ok e] at h1 h3; exact ⟨h1, h2, h3⟩
  | throw x => rw [bind_run_throw e] at h1 h3; exact ⟨h1, h2, h3⟩
  | ub x => rw [bind_run_ub e] at h1 h3; exact ⟨h1, h2, h3⟩
  | diverge => rw [bind_diverge e] at h1 h3; exact ⟨h1, h2, h3⟩

/-! ### With both halves loaded -/

theorem Knows.then {A B : Blk W} {g g' : V → V → Kuz.Blk} {f : V → Exec V}
    (h : Knows m base A g) (hB : B.value m = A.value m >>= fun v => Io.lift (f v))
    (hg : ∀ h l, (g' h l).value m = (g h l).value m >>= f) (hf : ∀ v, ∃ r, f v = .ok r) :
    Knows m base B g' := by
  intro s a b hs h1 h2
  obtain ⟨v, s', k1, k2, k3, k4⟩ := h s a b hs h1 h2
  obtain ⟨x, hx⟩ := hf v
  exact ⟨x, s', by rw [hg, k1]; exact hx, by rw [hB, bind_ok k2, hx]; rfl, k3, k4⟩

theorem Knows.raw (a b : W64) : Knows m base (W := W) (.raw a b) (fun _ _ => .raw a b) :=
  fun s _ _ hs _ _ => ⟨_, s, rfl, rfl, rfl, hs⟩

theorem Knows.blkS {A : Blk W} {g : V → V → Kuz.Blk} (h : Knows m base A g) :
    Knows m base (.blkS A) (fun a b => .blkS (g a b)) :=
  h.then (f := sValue) rfl (fun _ _ => rfl) fun v => (sValue_eq v).imp fun _ h => h.1

theorem Knows.transform (hm : m.unalignedLoad = true) (n : Nat) {A : Blk W} {g : V → V → Kuz.Blk}
    (h : Knows m base A g) : Knows m base (BlkL.transform A n) (fun a b => Kuz.BlkL.transform (g a b) n) := by
  induction n generalizing A g with
  | zero => exact h
  | succ n ih =>
    exact ih (A := .blkR A) (g := fun a b => .blkR (g a b)) <|
      h.then (f := rValue m) rfl (fun _ _ => rfl) fun v => (rValue_eq hm v).imp fun _ h => h.1

theorem Knows.blkL (hm : m.unalignedLoad = true) {A : Blk W} {g : V → V → Kuz.Blk}
    (h : Knows m base A g) : Knows m base (BlkL A) (fun a b => Kuz.BlkL (g a b)) := h.transform hm 16

theorem Knows.xored {A B : Blk W} {g g' : V → V → Kuz.Blk} (ha : Knows m base A g) (hb : Knows m base B g') :
    Knows m base (.xored A B) (fun a b => .xored (g a b) (g' a b)) := by
  intro s h l hs h1 h2
  obtain ⟨v, s', k1, k2, k3, k4⟩ := ha s h l hs h1 h2
  have e1 : s'.1 (base + 1) = s.1 (base + 1) := congrArg (·.1) k3
  have e2 : s'.1 (base + 2) = s.1 (base + 2) := congrArg (·.2.1) k3
  obtain ⟨v', s'', l1, l2, l3, l4⟩ := hb s' h l k4 (e1.trans h1) (e2.trans h2)
  refine ⟨(v.1 ^^^ v'.1, v.2 ^^^ v'.2), s'', ?_, ?_, l3.trans k3, l4⟩
  · simp only [Kuz.Blk.value, k1, l1, Exec.ok_bind]; rfl
  · simp only [Blk.value]
    rw [bind_ok k2, bind_ok l2]
    rfl

theorem Knows.generate (hm : m.unalignedLoad = true) (c2 : Int) {A B : Blk W} {g g' : V → V → Kuz.Blk} (i : Int)
    (ha : Knows m base A g) (hb : Knows m base B g') :
    Knows m base (BlkIterKey.generate c2 A B i) (fun h l => Kuz.BlkIterKey.generate c2 (g h l) (g' h l) i) := by
  by_cases hi : i > c2
  · have e1 : BlkIterKey.generate c2 A B i = B := by rw [BlkIterKey.generate, if_pos hi]
    have e2 : (fun h l => Kuz.BlkIterKey.generate c2 (g h l) (g' h l) i) = g' := by
      funext h l; rw [Kuz.BlkIterKey.generate, if_pos hi]
    rw [e1, e2]
    exact hb
  · have e1 : BlkIterKey.generate c2 A B i = BlkIterKey.generate c2 B
        (.xored A (BlkL (.blkS (.xored B (BlkL (BlkRaw.ofU64 (BitVec.ofInt 64 i))))))) (i + 1) := by
      rw [BlkIterKey.generate, if_neg hi]
    have e2 : (fun h l => Kuz.BlkIterKey.generate c2 (g h l) (g' h l) i) = fun h l =>
        Kuz.BlkIterKey.generate c2 (g' h l) (.xored (g h l) (Kuz.BlkL (.blkS (.xored (g' h l)
          (Kuz.BlkL (Kuz.BlkRaw.ofU64 (BitVec.ofInt 64 i))))))) (i + 1) := by
      funext h l; rw [Kuz.BlkIterKey.generate, if_neg hi]
    rw [e1, e2]
    exact Knows.generate hm c2 (i + 1) hb
      (ha.xored (((hb.xored ((Knows.raw _ _).blkL hm)).blkS).blkL hm))
termination_by (c2 + 1 - i).toNat
decreasing_by omega

/-! ### Caches -/

theorem Knows.cached {A : Blk W} {g : V → V → Kuz.Blk} (j : Nat) (h3 : 3 ≤ j) (h10 : j ≤ 10)
    (ha : Knows m base A g) (hj : ∀ h l, (derived (known base h l) j).value m = (g h l).value m) :
    Knows m base (.cached (base + j) A) (fun h l => .cached (base + j) (g h l)) := by
  intro s h l hs h1 h2
  simp only [Blk.value, Kuz.Blk.value]
  cases hc : s.1 (base + j) with
  | some v =>
    obtain ⟨h', l', e1, e2, e3⟩ := hs j v h3 h10 hc
    rw [h1] at e1
    rw [h2] at e2
    cases e1; cases e2
    exact ⟨v, s, by rw [← hj]; exact e3, rfl, rfl, hs⟩
  | none =>
    obtain ⟨v, s', k1, k2, k3, k4⟩ := ha s h l hs h1 h2
    have e1 : s'.1 (base + 1) = some h := (congrArg (·.1) k3).trans h1
    have e2 : s'.1 (base + 2) = some l := (congrArg (·.2.1) k3).trans h2
    refine ⟨v, (fun i => if i = base + j then some v else s'.1 i, s'.2), k1, by rw [k2], ?_, ?_⟩
    · rw [← k3]
      unfold view
      simp only
      rw [if_neg (by omega), if_neg (by omega)]
    · intro i x hi3 hi10 hx
      simp only at hx ⊢
      rw [if_neg (by omega), if_neg (by omega)]
      by_cases hij : i = j
      · subst hij
        rw [if_pos rfl] at hx
        cases hx
        exact ⟨h, l, e1, e2, by rw [hj]; exact k1⟩
      · rw [if_neg (by omega)] at hx
        exact k4 i x hi3 hi10 hx

/-- Evaluating the block is doing `x`. -/
class Acts (m : Machine) (H : Blk W) (x : Io W V) : Prop where
  eq : H.value m = outside x

instance (x : Io W V) : Acts m (.user x) x := ⟨rfl⟩

instance (s : List Char) : Acts (W := W) m (.str s) (Io.lift ((Kuz.Blk.str s).value m)) := ⟨rfl⟩

instance (a b : W64) : Acts (W := W) m (.raw a b) (pure (a, b)) := ⟨rfl⟩

variable {hi lo : Io W V} {H L : Blk W} [Acts m H hi] [Acts m L lo]

theorem Does.high : Does m base (askHigh hi) (.cached (base + 1) H)
    (fun h => .cached (base + 1) (.raw h.1 h.2)) := by
  intro s hs
  simp only [Blk.value, Acts.eq (H := H) (x := hi), askHigh, view, memo, outside]
  cases hc : s.1 (base + 1) with
  | some v => exact ⟨by simp only [view, hc], hs, v, rfl, rfl⟩
  | none =>
    have hn : ∀ j v, 3 ≤ j → j ≤ 10 → s.1 (base + j) ≠ some v := by
      intro j v h3 h10 e
      obtain ⟨h, l, e1, -⟩ := hs j v h3 h10 e
      rw [hc] at e1; cases e1
    rcases hx : hi s.2 with ⟨r, w⟩
    simp only [hx]
    cases r with
    | ok v =>
      refine ⟨?_, ?_, v, rfl, rfl⟩
      · simp [view]
      · intro j x h3 h10 e
        simp only at e
        rw [if_neg (by omega)] at e
        exact absurd e (hn j x h3 h10)
    | throw e => exact ⟨by simp only [view, hc], hs, rfl⟩
    | ub e => exact ⟨by simp only [view, hc], hs, rfl⟩
    | diverge => exact ⟨by simp only [view, hc], hs, rfl⟩

theorem Does.low : Does m base (askLow lo) (.cached (base + 2) L)
    (fun h => .cached (base + 2) (.raw h.1 h.2)) := by
  intro s hs
  simp only [Blk.value, Acts.eq (H := L) (x := lo), askLow, view, memo, outside]
  cases hc : s.1 (base + 2) with
  | some v => exact ⟨by simp only [view, hc], hs, v, rfl, rfl⟩
  | none =>
    have hn : ∀ j v, 3 ≤ j → j ≤ 10 → s.1 (base + j) ≠ some v := by
      intro j v h3 h10 e
      obtain ⟨h, l, -, e1, -⟩ := hs j v h3 h10 e
      rw [hc] at e1; cases e1
    rcases hx : lo s.2 with ⟨r, w⟩
    simp only [hx]
    cases r with
    | ok v =>
      refine ⟨?_, ?_, v, rfl, rfl⟩
      · simp [view]
      · intro j x h3 h10 e
        simp only at e
        rw [if_neg (by omega)] at e
        exact absurd e (hn j x h3 h10)
    | throw e => exact ⟨by simp only [view, hc], hs, rfl⟩
    | ub e => exact ⟨by simp only [view, hc], hs, rfl⟩
    | diverge => exact ⟨by simp only [view, hc], hs, rfl⟩

theorem Knows.high : Knows m base (.cached (base + 1) H) (fun h _ => .cached (base + 1) (.raw h.1 h.2)) := by
  intro s h l hs h1 h2
  refine ⟨h, s, rfl, ?_, rfl, hs⟩
  simp only [Blk.value, h1]

theorem Knows.low : Knows m base (.cached (base + 2) L) (fun _ l => .cached (base + 2) (.raw l.1 l.2)) := by
  intro s h l hs h1 h2
  refine ⟨l, s, rfl, ?_, rfl, hs⟩
  simp only [Blk.value, h2]

/-- All ten round keys. -/
theorem Knows.key (hm : m.unalignedLoad = true) :
    let k := Key.ofBlocks H L base
    Knows m base k.k3 (fun h l => (known base h l).k3) ∧ Knows m base k.k4 (fun h l => (known base h l).k4) ∧
    Knows m base k.k5 (fun h l => (known base h l).k5) ∧ Knows m base k.k6 (fun h l => (known base h l).k6) ∧
    Knows m base k.k7 (fun h l => (known base h l).k7) ∧ Knows m base k.k8 (fun h l => (known base h l).k8) ∧
    Knows m base k.k9 (fun h l => (known base h l).k9) ∧ Knows m base k.k10 (fun h l => (known base h l).k10) := by
  intro k
  have k3 : Knows m base k.k3 (fun h l => (known base h l).k3) :=
    Knows.cached 3 (by omega) (by omega) (Knows.generate hm 8 1 Knows.low Knows.high) (fun _ _ => rfl)
  have k4 : Knows m base k.k4 (fun h l => (known base h l).k4) :=
    Knows.cached 4 (by omega) (by omega) (Knows.generate hm 7 1 Knows.low Knows.high) (fun _ _ => rfl)
  have k5 : Knows m base k.k5 (fun h l => (known base h l).k5) :=
    Knows.cached 5 (by omega) (by omega) (Knows.generate hm 16 9 k4 k3) (fun _ _ => rfl)
  have k6 : Knows m base k.k6 (fun h l => (known base h l).k6) :=
    Knows.cached 6 (by omega) (by omega) (Knows.generate hm 15 9 k4 k3) (fun _ _ => rfl)
  have k7 : Knows m base k.k7 (fun h l => (known base h l).k7) :=
    Knows.cached 7 (by omega) (by omega) (Knows.generate hm 24 17 k6 k5) (fun _ _ => rfl)
  have k8 : Knows m base k.k8 (fun h l => (known base h l).k8) :=
    Knows.cached 8 (by omega) (by omega) (Knows.generate hm 23 17 k6 k5) (fun _ _ => rfl)
  have k9 : Knows m base k.k9 (fun h l => (known base h l).k9) :=
    Knows.cached 9 (by omega) (by omega) (Knows.generate hm 32 25 k8 k7) (fun _ _ => rfl)
  have k10 : Knows m base k.k10 (fun h l => (known base h l).k10) :=
    Knows.cached 10 (by omega) (by omega) (Knows.generate hm 31 25 k8 k7) (fun _ _ => rfl)
  exact ⟨k3, k4, k5, k6, k7, k8, k9, k10⟩

/-! ### Encryption -/

theorem askHigh_loads {mem mem' : KeyMemory W} {h : V} (e : askHigh hi mem = (.ok h, mem')) :
    mem'.1 = some h := by
  obtain ⟨a, b, w⟩ := mem
  cases a with
  | some x => simp only [askHigh, memo] at e; cases e; rfl
  | none =>
    simp only [askHigh, memo] at e
    rcases hx : hi w with ⟨r, w'⟩
    rw [hx] at e
    cases r with
    | ok x => cases e; rfl
    | throw x => cases e
    | ub x => cases e
    | diverge => cases e

theorem askLow_loads {mem mem' : KeyMemory W} {l : V} (e : askLow lo mem = (.ok l, mem')) :
    mem'.1 = mem.1 ∧ mem'.2.1 = some l := by
  obtain ⟨a, b, w⟩ := mem
  cases b with
  | some x => simp only [askLow, memo] at e; cases e; exact ⟨rfl, rfl⟩
  | none =>
    simp only [askLow, memo] at e
    rcases hx : lo w with ⟨r, w'⟩
    rw [hx] at e
    cases r with
    | ok x => cases e; exact ⟨rfl, rfl⟩
    | throw x => cases e
    | ub x => cases e
    | diverge => cases e

theorem askHigh_known (h : V) (l : Option V) (w : W) : askHigh hi (some h, l, w) = (.ok h, (some h, l, w)) := rfl

theorem askLow_known (h : Option V) (l : V) (w : W) : askLow lo (h, some l, w) = (.ok l, (h, some l, w)) := rfl

/-- Both halves. -/
def askBoth (hi lo : Io W V) : Io (KeyMemory W) (V × V) := do
  let h ← askHigh hi
  let l ← askLow lo
  return (h, l)

theorem ok_of_bind {W α β : Type} {x : Io W α} {f : α → Io W β} {w w' : W} {b : β}
    (h : (x >>= f) w = (.ok b, w')) : ∃ a w1, x w = (.ok a, w1) ∧ f a w1 = (.ok b, w') := by
  rcases e : x w with ⟨r, w1⟩
  cases r with
  | ok a => rw [bind_ok e] at h; exact ⟨a, w1, rfl, h⟩
  | throw x => rw [bind_run_throw e] at h; cases h
  | ub x => rw [bind_run_ub e] at h; cases h
  | diverge => rw [bind_diverge e] at h; cases h

theorem askBoth_loads {mem mem' : KeyMemory W} {q : V × V} (e : askBoth hi lo mem = (.ok q, mem')) :
    mem'.1 = some q.1 ∧ mem'.2.1 = some q.2 := by
  obtain ⟨h, m1, e1, e⟩ := ok_of_bind e
  obtain ⟨l, m2, e2, e⟩ := ok_of_bind e
  cases e
  have := askHigh_loads e1
  obtain ⟨k1, k2⟩ := askLow_loads e2
  exact ⟨k1.trans this, k2⟩

theorem Ready_both : Ready (askBoth hi lo) (·.1) (·.2) := fun _ _ _ h => askBoth_loads h

theorem askBoth_known (h l : V) (w : W) :
    askBoth hi lo (some h, some l, w) = (.ok (h, l), (some h, some l, w)) := rfl

theorem Ready_then (P : Io (KeyMemory W) Q) :
    Ready (do let q ← P; let k ← askBoth hi lo; return (q, k)) (·.2.1) (·.2.2) := by
  intro mem mem' q e
  obtain ⟨a, m1, e1, e⟩ := ok_of_bind e
  obtain ⟨k, m2, e2, e⟩ := ok_of_bind e
  cases e
  exact askBoth_loads e2

theorem Does.step (hm : m.unalignedLoad = true) {P : Io (KeyMemory W) Q} {hi lo : Q → V} (hr : Ready P hi lo)
    {A B : Blk W} {g : Q → Kuz.Blk} {g' : V → V → Kuz.Blk} (ha : Does m base P A g) (hb : Knows m base B g') :
    Does m base P (Key.encryptStep A B) (fun q => Kuz.Key.encryptStep (g q) (g' (hi q) (lo q))) :=
  ((ha.xored_knows hr hb).blkS).blkL hm

/-- The encryption of a block: first the block, then the first half of the key, then the second half. -/
theorem Does.encrypt (hm : m.unalignedLoad = true) {P : Io (KeyMemory W) Q} {B : Blk W} {g : Q → Kuz.Blk}
    (h : Does m base P B g) :
    Does m base (do let q ← P; let k ← askBoth hi lo; return (q, k))
      (BlkEncrypted B (Key.ofBlocks H L base))
      (fun q => Kuz.BlkEncrypted (g q.1) (known base q.2.1 q.2.2)) := by
  obtain ⟨k3, k4, k5, k6, k7, k8, k9, k10⟩ := Knows.key (m := m) (base := base) (H := H) (L := L) hm
  have d1 := ((h.xored (Does.high (hi := hi) (H := H))).blkS).blkL hm
  have d2 := ((d1.xored (Does.low (lo := lo) (L := L))).blkS).blkL hm
  have d2' := d2.of_map (P' := do let q ← P; let k ← askBoth hi lo; return (q, k))
    (fun q => ((q.1, q.2.1), q.2.2)) (by simp [askBoth])
  have hr := Ready_then (hi := hi) (lo := lo) P
  have d2'' : Does m base (do let q ← P; let k ← askBoth hi lo; return (q, k))
      (Key.encryptStep (Key.encryptStep B (Key.ofBlocks H L base).k1)
        (Key.ofBlocks H L base).k2)
      (fun q => Kuz.Key.encryptStep (Kuz.Key.encryptStep (g q.1) (known base q.2.1 q.2.2).k1)
        (known base q.2.1 q.2.2).k2) := d2'
  generalize Key.ofBlocks H L base = k at *
  generalize known base = K at *
  have d10 := Does.xored_knows hr (((((((d2''.step hm hr k3).step hm hr k4).step hm hr k5).step hm hr k6).step
    hm hr k7).step hm hr k8).step hm hr k9) k10
  exact d10

/-! ### Chains of blocks -/

/-- Asking again for what is known. -/
theorem askBoth_again : (do let q ← askBoth hi lo; let k ← askBoth hi lo; return (q, k)) =
    (do let q ← askBoth hi lo; return (q, q)) := by
  funext mem
  rcases e : askBoth hi lo mem with ⟨r, mem'⟩
  cases r with
  | ok q =>
    rw [bind_ok e, bind_ok e]
    obtain ⟨a, b, w⟩ := mem'
    obtain ⟨h1, h2⟩ := askBoth_loads e
    simp only at h1 h2
    subst h1 h2
    rfl
  | throw x => rw [bind_run_throw e, bind_run_throw e]
  | ub x => rw [bind_run_ub e, bind_run_ub e]
  | diverge => rw [bind_diverge e, bind_diverge e]

/-- A block of a chain: it does not need the key, or it needs the key and nothing else. -/
def Stage (m : Machine) (base : Nat) (hi lo : Io W V) (B : Blk W) (g : V → V → Kuz.Blk) : Prop :=
  (∃ b, Does m base (pure ()) B (fun _ => b) ∧ g = fun _ _ => b) ∨
    Does m base (askBoth hi lo) B (fun q => g q.1 q.2)

theorem Does.raw (a b : W64) : Does m base (pure ()) (.raw a b : Blk W) (fun _ => .raw a b) :=
  fun _ hs => ⟨rfl, hs, _, rfl, rfl⟩

theorem Stage.raw (a b : W64) : Stage m base hi lo (.raw a b) (fun _ _ => .raw a b) :=
  .inl ⟨_, Does.raw a b, rfl⟩

theorem Does.askBoth_encrypt (hm : m.unalignedLoad = true) {B : Blk W} {g : V → V → Kuz.Blk}
    (h : Does m base (askBoth hi lo) B (fun q => g q.1 q.2)) :
    Does m base (askBoth hi lo) (BlkEncrypted B (Key.ofBlocks H L base))
      (fun q => Kuz.BlkEncrypted (g q.1 q.2) (known base q.1 q.2)) :=
  (h.encrypt hm).of_map (fun q => (q, q)) askBoth_again

theorem Stage.encrypt (hm : m.unalignedLoad = true) {B : Blk W} {g : V → V → Kuz.Blk}
    (h : Stage m base hi lo B g) :
    Does m base (askBoth hi lo) (BlkEncrypted B (Key.ofBlocks H L base))
      (fun q => Kuz.BlkEncrypted (g q.1 q.2) (known base q.1 q.2)) := by
  rcases h with ⟨b, h, rfl⟩ | h
  · exact (h.encrypt hm).of_map (fun q => ((), q)) rfl
  · exact h.askBoth_encrypt hm

theorem Does.knows {B : Blk W} {g : V → V → Kuz.Blk} (h : Does m base (askBoth hi lo) B (fun q => g q.1 q.2)) :
    Knows m base B g := by
  intro s a b hs h1 h2
  obtain ⟨k1, k2, k3⟩ := h s hs
  have e : view base s = (some a, some b, s.2) := by unfold view; rw [h1, h2]
  rw [e] at k1 k3
  rw [askBoth_known] at k1 k3
  obtain ⟨v, e1, e2⟩ := k3
  exact ⟨v, _, e1, Prod.ext e2 rfl, by rw [k1, e], k2⟩

theorem Stage.xored_raw {B : Blk W} {g : V → V → Kuz.Blk} (h : Stage m base hi lo B g) (a b : W64) :
    Stage m base hi lo (.xored B (.raw a b)) (fun h l => .xored (g h l) (.raw a b)) := by
  rcases h with ⟨c, h, rfl⟩ | h
  · exact .inl ⟨_, (h.xored (Does.raw a b)).of_map (fun _ => ((), ())) rfl, rfl⟩
  · exact .inr (h.xored_knows Ready_both (Knows.raw a b))

theorem Stage.xored {A B : Blk W} {g g' : V → V → Kuz.Blk} (h : Stage m base hi lo A g)
    (hb : Does m base (askBoth hi lo) B (fun q => g' q.1 q.2)) :
    Does m base (askBoth hi lo) (.xored A B) (fun q => .xored (g q.1 q.2) (g' q.1 q.2)) := by
  rcases h with ⟨c, h, rfl⟩ | h
  · exact (h.xored hb).of_map (fun q => ((), q)) rfl
  · exact h.xored_knows Ready_both hb.knows

theorem Does.double {A : Blk W} {g : V → V → Kuz.Blk} (h : Does m base (askBoth hi lo) A (fun q => g q.1 q.2))
    (a b : W64) : Does m base (askBoth hi lo) (.xoredIfHighBit A (.raw a b))
      (fun q => .xoredIfHighBit (g q.1 q.2) (.raw a b)) := by
  intro s hs
  obtain ⟨h1, h2, h3⟩ := h s hs
  simp only [Blk.value]
  rcases hp : askBoth hi lo (view base s) with ⟨r, mem⟩
  rcases hv : A.value m s with ⟨ra, s'⟩
  rw [hp] at h1 h3
  rw [hv] at h1 h2 h3
  cases r with
  | ok q =>
    obtain ⟨v, e1, rfl⟩ := h3
    obtain ⟨r1, r2⟩ := askBoth_loads hp
    simp only at h1
    rw [← h1] at r1 r2
    obtain ⟨v', s'', k1, k2, k3, k4⟩ := h.knows s' _ _ h2 r1 r2
    rw [e1] at k1
    cases k1
    obtain ⟨x, hx, -⟩ := Kuz.shiftValue_eq v 1 (by omega) (by omega)
    have hx' : shiftValue v 1 = .ok x := hx
    rw [bind_ok hv]
    by_cases hz : v.2 &&& 0x8000000000000000 = 0
    · rw [if_pos hz, bind_ok k2, hx']
      refine ⟨k3.trans h1, k4, x, ?_, rfl⟩
      simp only [Kuz.Blk.value, e1, Exec.ok_bind, if_pos hz, hx']
    · rw [if_neg hz, bind_ok k2, hx']
      refine ⟨k3.trans h1, k4, (x.1 ^^^ a, x.2 ^^^ b), ?_, rfl⟩
      simp only [Kuz.Blk.value, e1, Exec.ok_bind, if_neg hz, hx']
      rfl
  | throw e => cases h3; rw [bind_run_throw hv]; exact ⟨h1, h2, rfl⟩
  | ub u => cases h3; rw [bind_run_ub hv]; exact ⟨h1, h2, rfl⟩
  | diverge => cases h3; rw [bind_diverge hv]; exact ⟨h1, h2, rfl⟩

/-! ### Messages -/

theorem outside_ok {α : Type} {x : Io W α} {c : Caches} {w w' : W} {a : α} (h : x w = (.ok a, w')) :
    outside x (c, w) = (.ok a, (c, w')) := by
  simp only [outside, h]

theorem loop_plays (hm : m.unalignedLoad = true) {it : IterImpl W ι} {n : Nat} (p : List V) (v : V)
    {i : ι} {w w' : W} (h : Plays it n i w (p ++ [v]) w') (fuel : Nat) (hf : p.length < fuel) (c : Caches)
    {B : Blk W} {g : V → V → Kuz.Blk} (hB : Stage m base hi lo B g) :
    ∃ B' g' j w1 w2, Imit.loop it (Key.ofBlocks H L base) fuel (some i) B (c, w) =
        (.ok (B', some j), (c, w1)) ∧
      Stage m base hi lo B' g' ∧
      (∀ h l, Kuz.Imit.loop (KuzLive.listIter n) (known base h l) fuel (some (p ++ [v])) (g h l) =
        .ok (g' h l, some [v])) ∧
      it.value j w1 = (.ok v, w2) ∧ it.size j w2 = (.ok n, w') := by
  induction p generalizing i w fuel B g with
  | nil =>
    obtain ⟨fuel, rfl⟩ : ∃ k, fuel = k + 1 := ⟨fuel - 1, by simp at hf; omega⟩
    obtain ⟨w1, w2, h1, h2, h3⟩ := h
    refine ⟨B, g, i, w1, w2, ?_, hB, fun _ _ => rfl, h2, h3⟩
    unfold Imit.loop
    simp only [deref]
    rw [bind_ok (outside_ok h1)]
    rfl
  | cons x p ih =>
    obtain ⟨fuel, rfl⟩ : ∃ k, fuel = k + 1 := ⟨fuel - 1, by simp at hf; omega⟩
    have hx : ∃ y r, p ++ [v] = y :: r := by
      cases p with
      | nil => exact ⟨v, [], rfl⟩
      | cons y r => exact ⟨y, r ++ [v], rfl⟩
    obtain ⟨y, r, hy⟩ := hx
    rw [List.cons_append, hy] at h
    obtain ⟨w1, w2, w3, j, h1, h2, h3, h4⟩ := h
    rw [← hy] at h4
    obtain ⟨B', g', j', w4, w5, e1, e2, e3, e4, e5⟩ := ih h4 fuel (by simp at hf; omega)
      (B := BlkEncrypted (.xored B (BlkRaw.ofPair x)) (Key.ofBlocks H L base))
      (g := fun h l => Kuz.BlkEncrypted (.xored (g h l) (.raw x.1 x.2)) (known base h l))
      (.inr (Stage.encrypt (g := fun h l => .xored (g h l) (.raw x.1 x.2)) hm (hB.xored_raw x.1 x.2)))
    refine ⟨B', g', j', w4, w5, ?_, e2, ?_, e4, e5⟩
    · unfold Imit.loop
      simp only [deref]
      rw [bind_ok (outside_ok h1)]
      simp only [Bool.not_false, if_true]
      rw [bind_ok (outside_ok h2), bind_ok (outside_ok h3)]
      exact e1
    · intro h l
      unfold Kuz.Imit.loop
      have hl : (KuzLive.listIter n).last (x :: p ++ [v]) = .ok false := by simp [KuzLive.listIter]
      simp only [Kuz.deref, hl, Exec.ok_bind, Bool.not_false, if_true]
      exact e3 h l

/-- The message is read, then a block is evaluated that asks for the key. -/
theorem value_plays (hm : m.unalignedLoad = true) {it : IterImpl W ι} {n : Nat} (p : List V) (v : V)
    {i : ι} {w w' : W} (h : Plays it n i w (p ++ [v]) w') (fuel : Nat) (hf : p.length < fuel) (c : Caches)
    (start : Io W (Option ι)) (w0 : W) (hs : start w0 = (.ok (some i), w)) :
    ∃ (B : Blk W) (g : V → V → Kuz.Blk), Imit.value m it start fuel (Key.ofBlocks H L base) (c, w0) = B.value m (c, w') ∧
      Does m base (askBoth hi lo) B (fun q => g q.1 q.2) ∧
      ∀ h l, Kuz.Imit.build (KuzLive.listIter n) (.ok (some (p ++ [v]))) fuel (known base h l) = .ok (g h l) := by
  obtain ⟨B, g, j, w1, w2, e1, e2, e3, e4, e5⟩ := loop_plays (hi := hi) (lo := lo) (H := H) (L := L) (base := base) hm p v h fuel hf
    c (Stage.raw 0 0)
  have d0 := (Stage.raw (m := m) (base := base) (hi := hi) (lo := lo) 0 0).encrypt (H := H) (L := L) hm
  have k1 := Does.double (g := fun h l => Kuz.BlkEncrypted (.raw 0 0) (known base h l)) d0 0x87 0
  have k2 := Does.double (g := fun h l => .xoredIfHighBit (Kuz.BlkEncrypted (.raw 0 0) (known base h l))
    (.raw 0x87 0)) k1 0x87 0
  have run : Imit.value m it start fuel (Key.ofBlocks H L base) (c, w0) =
      (if n = 16 then (BlkEncrypted (.xored (.xored B (.raw v.1 v.2)) (.xoredIfHighBit (BlkEncrypted (.raw 0 0)
          (Key.ofBlocks H L base)) (.raw 0x87 0))) (Key.ofBlocks H L base))
        else BlkEncrypted (.xored (.xored B (.raw v.1 v.2)) (.xoredIfHighBit (.xoredIfHighBit (BlkEncrypted
          (.raw 0 0) (Key.ofBlocks H L base)) (.raw 0x87 0)) (.raw 0x87 0)))
          (Key.ofBlocks H L base)).value m (c, w') := by
    unfold Imit.value
    rw [bind_ok (outside_ok hs)]
    erw [bind_ok e1]
    simp only [deref]
    rw [bind_ok (outside_ok e4), bind_ok (outside_ok e5)]
    by_cases hn : n = 16
    · rw [if_pos hn, if_pos hn]; rfl
    · rw [if_neg hn, if_neg hn]; rfl
  have build : ∀ h l, Kuz.Imit.build (KuzLive.listIter n) (.ok (some (p ++ [v]))) fuel (known base h l) =
      .ok (if n = 16 then Kuz.BlkEncrypted (.xored (.xored (g h l) (.raw v.1 v.2)) (.xoredIfHighBit
          (Kuz.BlkEncrypted (.raw 0 0) (known base h l)) (.raw 0x87 0))) (known base h l)
        else Kuz.BlkEncrypted (.xored (.xored (g h l) (.raw v.1 v.2)) (.xoredIfHighBit (.xoredIfHighBit
          (Kuz.BlkEncrypted (.raw 0 0) (known base h l)) (.raw 0x87 0)) (.raw 0x87 0))) (known base h l)) := by
    intro h l
    have := e3 h l
    unfold Kuz.Imit.build
    simp only [Exec.ok_bind]
    erw [this]
    have hv : (KuzLive.listIter n).value [v] = .ok v := rfl
    have hz : (KuzLive.listIter n).size [v] = .ok n := rfl
    simp only [Exec.ok_bind, Kuz.deref, hv, hz]
    by_cases hn : n = 16
    · rw [if_pos hn, if_pos hn]; rfl
    · rw [if_neg hn, if_neg hn]; rfl
  by_cases hn : n = 16
  · simp only [if_pos hn] at run build
    exact ⟨_, fun h l => Kuz.BlkEncrypted (.xored (.xored (g h l) (.raw v.1 v.2)) (.xoredIfHighBit
      (Kuz.BlkEncrypted (.raw 0 0) (known base h l)) (.raw 0x87 0))) (known base h l), run,
      Does.askBoth_encrypt (g := fun h l => .xored (.xored (g h l) (.raw v.1 v.2))
      (.xoredIfHighBit (Kuz.BlkEncrypted (.raw 0 0) (known base h l)) (.raw 0x87 0))) hm
      (Stage.xored (g := fun h l => .xored (g h l) (.raw v.1 v.2)) (g' := fun h l => .xoredIfHighBit
        (Kuz.BlkEncrypted (.raw 0 0) (known base h l)) (.raw 0x87 0)) (e2.xored_raw v.1 v.2) k1), build⟩
  · simp only [if_neg hn] at run build
    exact ⟨_, fun h l => Kuz.BlkEncrypted (.xored (.xored (g h l) (.raw v.1 v.2)) (.xoredIfHighBit
      (.xoredIfHighBit (Kuz.BlkEncrypted (.raw 0 0) (known base h l)) (.raw 0x87 0)) (.raw 0x87 0)))
      (known base h l), run, Does.askBoth_encrypt (g := fun h l => .xored (.xored (g h l) (.raw v.1 v.2))
      (.xoredIfHighBit (.xoredIfHighBit (Kuz.BlkEncrypted (.raw 0 0) (known base h l)) (.raw 0x87 0))
        (.raw 0x87 0))) hm
      (Stage.xored (g := fun h l => .xored (g h l) (.raw v.1 v.2)) (g' := fun h l => .xoredIfHighBit
        (.xoredIfHighBit (Kuz.BlkEncrypted (.raw 0 0) (known base h l)) (.raw 0x87 0)) (.raw 0x87 0))
        (e2.xored_raw v.1 v.2) k2), build⟩

/-! ### The ideal memory -/

theorem pair64_join64 (v : V) : pair64 (join64 v) = v := by
  obtain ⟨a, b⟩ := v
  exact Prod.ext (extract_append_low b a) (extract_append_high b a)

theorem askKey_eq : askKey hi lo = (do let q ← askBoth hi lo; return join64 q.1 ++ join64 q.2) := by
  simp [askKey, askBoth]

/-- The library does what the ideal program does. -/
def Meets (m : Machine) (base : Nat) (P : Io (KeyMemory W) V) (x : Io (Caches × W) V) : Prop :=
  ∀ s, Inv m base s.1 → (x s).1 = (P (view base s)).1 ∧ view base (x s).2 = (P (view base s)).2 ∧
    Inv m base (x s).2.1

theorem Out.meets {P : Io (KeyMemory W) Q} {g : Q → Kuz.Blk} {f : Q → Spec.Kuz.Block}
    (hf : ∀ q, HasValue m (g q) (f q)) {mem : KeyMemory W} {r : Exec V × (Caches × W)}
    (h : Out m base g (P mem) r) :
    r.1 = ((do let q ← P; return pair64 (f q)) mem).1 ∧
      view base r.2 = ((do let q ← P; return pair64 (f q)) mem).2 ∧ Inv m base r.2.1 := by
  obtain ⟨h1, h2, h3⟩ := h
  rcases e : P mem with ⟨x, mem'⟩
  rw [e] at h1 h3
  cases x with
  | ok q =>
    rw [bind_ok e]
    obtain ⟨v, e1, e2⟩ := h3
    obtain ⟨v', k1, k2⟩ := hf q
    rw [e1] at k1
    cases k1
    refine ⟨?_, h1, h2⟩
    rw [e2, ← k2, pair64_join64]
    rfl
  | throw x => rw [bind_run_throw e]; exact ⟨h3, h1, h2⟩
  | ub x => rw [bind_run_ub e]; exact ⟨h3, h1, h2⟩
  | diverge => rw [bind_diverge e]; exact ⟨h3, h1, h2⟩

theorem known_encrypts (hm : m.unalignedLoad = true) (h l : V) :
    Encrypts m (known base h l) (join64 h ++ join64 l) :=
  encrypts_ofBlocks hm (h := h) (l := l) rfl rfl base

theorem Does.user (b : Io W V) :
    Does m base (besides b) (.user b) (fun v => .raw v.1 v.2) := by
  intro s hs
  simp only [Blk.value, outside, besides, view]
  rcases e : b s.2 with ⟨r, w⟩
  cases r with
  | ok v => exact ⟨rfl, hs, v, rfl, rfl⟩
  | throw x => exact ⟨rfl, hs, rfl⟩
  | ub x => exact ⟨rfl, hs, rfl⟩
  | diverge => exact ⟨rfl, hs, rfl⟩

theorem Meets.encrypt (hm : m.unalignedLoad = true) (b : Io W V) :
    Meets m base (ideal hi lo (.encrypt b)) (perform m (Key.ofBlocks H L base) (.encrypt b)) := by
  intro s hs
  have hv : ∀ q : V × V × V, HasValue m (Kuz.BlkEncrypted (.raw q.1.1 q.1.2) (known base q.2.1 q.2.2))
      (Spec.Kuz.enc (join64 q.2.1 ++ join64 q.2.2) (join64 q.1)) := fun q =>
    (known_encrypts hm q.2.1 q.2.2).has (x := join64 q.1) (HasValue.raw m q.1.1 q.1.2)
  have h := Out.meets hv ((Does.user b).encrypt (hi := hi) (lo := lo) (H := H) (L := L) hm s hs)
  have e : ideal hi lo (.encrypt b) = (do
      let q ← (do
        let q ← besides b
        let k ← askBoth hi lo
        return (q, k))
      return pair64 (Spec.Kuz.enc (join64 q.2.1 ++ join64 q.2.2) (join64 q.1))) := by
    simp only [ideal, askKey_eq, bind_assoc, pure_bind]
  have run : perform m (Key.ofBlocks H L base) (.encrypt b) =
    (BlkEncrypted (.user b) (Key.ofBlocks H L base)).value m := by simp only [perform]
  rw [e, run]
  exact h

/-- The counter after `n` steps. -/
def stepped (W : Type) (iv : W64) : Nat → Blk W
  | 0 => .raw 0 iv
  | n + 1 => .incremented (stepped W iv n)

def steppedK (iv : W64) : Nat → Kuz.Blk
  | 0 => .raw 0 iv
  | n + 1 => .incremented (steppedK iv n)

theorem Does.stepped (iv : W64) (n : Nat) :
    Does m base (pure ()) (stepped W iv n) (fun _ => steppedK iv n) := by
  induction n with
  | zero => exact Does.raw 0 iv
  | succ n ih => exact ih.incremented

theorem steppedK_value (m : Machine) (iv : W64) (n : Nat) : HasValue m (steppedK iv n) (counter iv n) := by
  induction n with
  | zero => exact KuzLive.raw_iv m iv
  | succ n ih =>
    rw [counter_succ]
    exact ih.incremented

theorem skip_shelf (size : Nat) (key : Key W) (iv : W64) (before rest : List V) (k : Nat) (s : Caches × W) :
    skip (shelf W size) before.length ⟨some (before ++ rest), key, stepped W iv k⟩ s =
      (.ok ⟨some rest, key, stepped W iv (k + before.length)⟩, s) := by
  induction before generalizing k with
  | nil => rfl
  | cons x r ih =>
    have := ih (k + 1)
    have e : k + (x :: r).length = k + 1 + r.length := by simp; omega
    rw [e, ← this]
    rfl

theorem shelf_plays (n : Nat) (p : List V) (h : p ≠ []) (w : W) : Plays (shelf W n) n p w p w := by
  induction p with
  | nil => exact absurd rfl h
  | cons v r ih =>
    cases r with
    | nil => exact ⟨w, w, rfl, rfl, rfl⟩
    | cons x r =>
      refine ⟨w, w, w, x :: r, ?_, rfl, rfl, ih (by simp)⟩
      show ((Exec.ok (decide ((v :: x :: r).length ≤ 1)) : Exec Bool), w) = _
      simp

theorem Meets.ctr (hm : m.unalignedLoad = true) (iv : W64) (before : List V) (block : V) (after : List V) :
    Meets m base (ideal hi lo (.ctr iv before block after))
      (perform m (Key.ofBlocks H L base) (.ctr iv before block after)) := by
  intro s hs
  have run : perform m (Key.ofBlocks H L base) (.ctr iv before block after) s =
      (Blk.xored (.raw block.1 block.2) (BlkEncrypted (stepped W iv before.length)
        (Key.ofBlocks H L base))).value m s := by
    simp only [perform, StCTREncrypted.iter]
    have h1 : outside (pure (some (before ++ [block] ++ after)) : Io W _) s =
        (.ok (some (before ++ [block] ++ after)), s) := rfl
    rw [bind_assoc, bind_ok h1, pure_bind]
    have h2 := skip_shelf 16 (Key.ofBlocks H L base) iv before (block :: after) 0 s
    rw [Nat.zero_add] at h2
    rw [List.append_assoc]
    erw [bind_ok h2]
    rfl
  rw [run]
  have st : Stage m base hi lo (stepped W iv before.length) (fun _ _ => steppedK iv before.length) :=
    .inl ⟨_, Does.stepped iv before.length, rfl⟩
  have hv : ∀ q : V × V, HasValue m (.xored (.raw block.1 block.2)
        (Kuz.BlkEncrypted (steppedK iv before.length) (known base q.1 q.2)))
      (join64 block ^^^ Spec.Kuz.enc (join64 q.1 ++ join64 q.2) (counter iv before.length)) := fun q =>
    HasValue.xored (x := join64 block) (HasValue.raw m block.1 block.2)
      ((known_encrypts hm q.1 q.2).has (steppedK_value m iv before.length))
  have h := Out.meets hv
    (Stage.xored (g := fun _ _ => .raw block.1 block.2)
      (g' := fun h l => Kuz.BlkEncrypted (steppedK iv before.length) (known base h l))
      (Stage.raw block.1 block.2) (st.encrypt (H := H) (L := L) hm) s hs)
  have e : ideal hi lo (.ctr iv before block after) = (do
      let q ← askBoth hi lo
      return pair64 (join64 block ^^^ Spec.Kuz.enc (join64 q.1 ++ join64 q.2) (counter iv before.length))) := by
    simp [ideal, askKey_eq]
  rw [e]
  exact h

/-- The code of a message that is read in one pass. -/
theorem mac_plays (hm : m.unalignedLoad = true) {it : IterImpl W ι} {n : Nat} (p : List V) (v : V)
    {i : ι} {w w' : W} (h : Plays it n i w (p ++ [v]) w') (fuel : Nat) (hf : p.length < fuel) (c : Caches)
    (start : Io W (Option ι)) (w0 : W) (hs : start w0 = (.ok (some i), w)) (hc : Inv m base c) :
    let x := Imit.value m it start fuel (Key.ofBlocks H L base) (c, w0)
    let y := ideal hi lo (.mac p v n) (view base (c, w'))
    x.1 = y.1 ∧ view base x.2 = y.2 ∧ Inv m base x.2.1 := by
  obtain ⟨B, g, e1, e2, e3⟩ := value_plays (hi := hi) (lo := lo) (H := H) (L := L) (base := base) hm p v h fuel hf c start w0 hs
  intro x y
  have hx : x = B.value m (c, w') := e1
  rw [hx]
  have := Out.meets (f := fun q => kuzMac (join64 q.1 ++ join64 q.2) p v n) (fun q => by
    obtain ⟨b, k1, k2, -⟩ := Kuz.Imit_build_eq (known_encrypts (base := base) hm q.1 q.2) p v
      (KuzLive.listIter_shows n (p ++ [v]) (by simp)) fuel hf
    rw [e3] at k1
    cases k1
    exact k2) (e2 (c, w') hc)
  have e : ideal hi lo (.mac p v n) = (do
      let q ← askBoth hi lo
      return pair64 (kuzMac (join64 q.1 ++ join64 q.2) p v n)) := by
    simp [ideal, askKey_eq]
  have hy : y = ideal hi lo (.mac p v n) (view base (c, w')) := rfl
  rw [hy, e]
  exact this

theorem Meets.use (hm : m.unalignedLoad = true) (u : KeyUse W) :
    Meets m base (ideal hi lo u) (perform m (Key.ofBlocks H L base) u) := by
  cases u with
  | encrypt b => exact Meets.encrypt hm b
  | ctr iv before block after => exact Meets.ctr hm iv before block after
  | mac p v n =>
    intro s hs
    exact mac_plays hm p v (shelf_plays n (p ++ [v]) (by simp) s.2) (p.length + 1) (by omega) s.1 _ s.2 rfl hs

/-- A history of uses. -/
theorem history (hm : m.unalignedLoad = true) (us : List (KeyUse W)) (s : Caches × W) (hs : Inv m base s.1) :
    let x := runCalls (perform m (Key.ofBlocks H L base)) us s
    let y := runCalls (ideal hi lo) us (view base s)
    x.1 = y.1 ∧ view base x.2 = y.2 ∧ Inv m base x.2.1 := by
  induction us generalizing s with
  | nil => exact ⟨rfl, rfl, hs⟩
  | cons u us ih =>
    obtain ⟨h1, h2, h3⟩ := Meets.use (hi := hi) (lo := lo) (H := H) (L := L) (base := base) hm u s hs
    obtain ⟨k1, k2, k3⟩ := ih _ h3
    rw [h2] at k1 k2
    simp only [runCalls]
    exact ⟨by rw [h1, k1], k2, k3⟩

/-! ### After the first success -/

theorem askKey_loads {mem mem' : KeyMemory W} {K : BitVec 256} (e : askKey hi lo mem = (.ok K, mem')) :
    ∃ h l, mem'.1 = some h ∧ mem'.2.1 = some l := by
  rw [askKey_eq] at e
  obtain ⟨q, m1, e1, e⟩ := ok_of_bind e
  cases e
  obtain ⟨h1, h2⟩ := askBoth_loads e1
  exact ⟨_, _, h1, h2⟩

theorem ideal_loads {u : KeyUse W} {mem mem' : KeyMemory W} {r : V} (e : ideal hi lo u mem = (.ok r, mem')) :
    ∃ h l, mem'.1 = some h ∧ mem'.2.1 = some l := by
  cases u with
  | encrypt b =>
    simp only [ideal] at e
    obtain ⟨v, m1, e1, e⟩ := ok_of_bind e
    obtain ⟨K, m2, e2, e⟩ := ok_of_bind e
    cases e
    exact askKey_loads e2
  | ctr iv before block after =>
    simp only [ideal] at e
    obtain ⟨K, m2, e2, e⟩ := ok_of_bind e
    cases e
    exact askKey_loads e2
  | mac p v n =>
    simp only [ideal] at e
    obtain ⟨K, m2, e2, e⟩ := ok_of_bind e
    cases e
    exact askKey_loads e2

/-- The first memory knows both halves, the second may get them without effect. -/
def Fixed (h l : V) (a b : KeyMemory W) : Prop :=
  a.1 = some h ∧ a.2.1 = some l ∧ (b.1 = none ∨ b.1 = some h) ∧ (b.2.1 = none ∨ b.2.1 = some l) ∧ b.2.2 = a.2.2

theorem askKey_fixed {h l : V} {a b : KeyMemory W} (hab : Fixed h l a b) :
    askKey hi lo a = (.ok (join64 h ++ join64 l), a) ∧
      ∃ b', askKey (pure h) (pure l) b = (.ok (join64 h ++ join64 l), b') ∧ Fixed h l a b' := by
  obtain ⟨a1, a2, w⟩ := a
  obtain ⟨b1, b2, w'⟩ := b
  obtain ⟨h1, h2, h3, h4, h5⟩ := hab
  simp only at h1 h2 h3 h4 h5
  subst h1 h2 h5
  refine ⟨rfl, (some h, some l, w'), ?_, rfl, rfl, .inr rfl, .inr rfl, rfl⟩
  rcases h3 with rfl | rfl <;> rcases h4 with rfl | rfl <;> rfl

theorem ideal_fixed (u : KeyUse W) {h l : V} {a b : KeyMemory W} (hab : Fixed h l a b) :
    (ideal hi lo u a).1 = (ideal (pure h) (pure l) u b).1 ∧
      Fixed h l (ideal hi lo u a).2 (ideal (pure h) (pure l) u b).2 := by
  cases u with
  | encrypt blk =>
    simp only [ideal]
    obtain ⟨h1, h2, h3, h4, h5⟩ := hab
    rcases e : blk a.2.2 with ⟨r, w⟩
    have ea : besides blk a = (r, (a.1, a.2.1, w)) := by simp only [besides, e]
    have eb : besides blk b = (r, (b.1, b.2.1, w)) := by simp only [besides, h5, e]
    have f : Fixed h l (a.1, a.2.1, w) (b.1, b.2.1, w) := ⟨h1, h2, h3, h4, rfl⟩
    cases r with
    | ok v =>
      rw [bind_ok ea, bind_ok eb]
      obtain ⟨k1, b', k2, k3⟩ := askKey_fixed (hi := hi) (lo := lo) f
      rw [bind_ok k1, bind_ok k2]
      exact ⟨rfl, k3⟩
    | throw x => rw [bind_run_throw ea, bind_run_throw eb]; exact ⟨rfl, f⟩
    | ub x => rw [bind_run_ub ea, bind_run_ub eb]; exact ⟨rfl, f⟩
    | diverge => rw [bind_diverge ea, bind_diverge eb]; exact ⟨rfl, f⟩
  | ctr iv before block after =>
    simp only [ideal]
    obtain ⟨k1, b', k2, k3⟩ := askKey_fixed (hi := hi) (lo := lo) hab
    rw [bind_ok k1, bind_ok k2]
    exact ⟨rfl, k3⟩
  | mac p v n =>
    simp only [ideal]
    obtain ⟨k1, b', k2, k3⟩ := askKey_fixed (hi := hi) (lo := lo) hab
    rw [bind_ok k1, bind_ok k2]
    exact ⟨rfl, k3⟩

theorem runCalls_fixed (us : List (KeyUse W)) {h l : V} (a b : KeyMemory W) (hab : Fixed h l a b) :
    (runCalls (ideal hi lo) us a).1 = (runCalls (ideal (pure h) (pure l)) us b).1 ∧
      (runCalls (ideal hi lo) us a).2.2.2 = (runCalls (ideal (pure h) (pure l)) us b).2.2.2 := by
  induction us generalizing a b with
  | nil => exact ⟨rfl, hab.2.2.2.2.symm⟩
  | cons u us ih =>
    obtain ⟨h1, h2⟩ := ideal_fixed (hi := hi) (lo := lo) u hab
    obtain ⟨k1, k2⟩ := ih _ _ h2
    simp only [runCalls]
    exact ⟨by rw [h1, k1], k2⟩

/-! ### Blocks without effects -/

theorem still_value (b : Kuz.Blk) (c : Caches) (w : W) :
    (still W b).value m (c, w) = ((b.valueS m c).1, ((b.valueS m c).2, w)) := by
  induction b generalizing c with
  | raw low high => rfl
  | str s => rfl
  | xored a b iha ihb =>
    simp only [still, Blk.value, Kuz.Blk.valueS]
    rcases e : a.valueS m c with ⟨r, c'⟩
    have ha := iha c
    rw [e] at ha
    cases r with
    | ok v =>
      rw [bind_ok ha]
      rcases e' : b.valueS m c' with ⟨r', c''⟩
      have hb := ihb c'
      rw [e'] at hb
      cases r' with
      | ok v' => rw [bind_ok hb]; simp [e']; rfl
      | throw x => rw [bind_run_throw hb]; simp [e']
      | ub x => rw [bind_run_ub hb]; simp [e']
      | diverge => rw [bind_diverge hb]; simp [e']
    | throw x => rw [bind_run_throw ha]
    | ub x => rw [bind_run_ub ha]
    | diverge => rw [bind_diverge ha]
  | blkS b ih =>
    simp only [still, Blk.value, Kuz.Blk.valueS]
    rcases e : b.valueS m c with ⟨r, c'⟩
    have ha := ih c
    rw [e] at ha
    cases r with
    | ok v => rw [bind_ok ha]; rfl
    | throw x => rw [bind_run_throw ha]; rfl
    | ub x => rw [bind_run_ub ha]; rfl
    | diverge => rw [bind_diverge ha]; rfl
  | blkR b ih =>
    simp only [still, Blk.value, Kuz.Blk.valueS]
    rcases e : b.valueS m c with ⟨r, c'⟩
    have ha := ih c
    rw [e] at ha
    cases r with
    | ok v => rw [bind_ok ha]; rfl
    | throw x => rw [bind_run_throw ha]; rfl
    | ub x => rw [bind_run_ub ha]; rfl
    | diverge => rw [bind_diverge ha]; rfl
  | incremented b ih =>
    simp only [still, Blk.value, Kuz.Blk.valueS]
    rcases e : b.valueS m c with ⟨r, c'⟩
    have ha := ih c
    rw [e] at ha
    cases r with
    | ok v => rw [bind_ok ha]; rfl
    | throw x => rw [bind_run_throw ha]; rfl
    | ub x => rw [bind_run_ub ha]; rfl
    | diverge => rw [bind_diverge ha]; rfl
  | shifted b n ih =>
    simp only [still, Blk.value, Kuz.Blk.valueS]
    rcases e : b.valueS m c with ⟨r, c'⟩
    have ha := ih c
    rw [e] at ha
    cases r with
    | ok v => rw [bind_ok ha]; rfl
    | throw x => rw [bind_run_throw ha]; rfl
    | ub x => rw [bind_run_ub ha]; rfl
    | diverge => rw [bind_diverge ha]; rfl
  | xoredIfHighBit a b iha ihb =>
    simp only [still, Blk.value, Kuz.Blk.valueS]
    rcases e : a.valueS m c with ⟨r, c1⟩
    have ha := iha c
    rw [e] at ha
    cases r with
    | ok v =>
      rw [bind_ok ha]
      rcases e' : a.valueS m c1 with ⟨r', c2⟩
      have ha' := iha c1
      rw [e'] at ha'
      by_cases hz : v.2 &&& 0x8000000000000000 = 0
      · simp only [if_pos hz]
        cases r' with
        | ok v' => rw [bind_ok ha']; simp [e']; rfl
        | throw x => rw [bind_run_throw ha']; simp [e']
        | ub x => rw [bind_run_ub ha']; simp [e']
        | diverge => rw [bind_diverge ha']; simp [e']
      · simp only [if_neg hz]
        cases r' with
        | ok v' =>
          rw [bind_ok ha']
          simp only [e']
          cases hs : shiftValue v' 1 with
          | ok y =>
            rw [Io.lift_ok_bind]
            rcases e'' : b.valueS m c2 with ⟨r'', c3⟩
            have hb := ihb c2
            rw [e''] at hb
            cases r'' with
            | ok v'' => rw [bind_ok hb]; rfl
            | throw x => rw [bind_run_throw hb]
            | ub x => rw [bind_run_ub hb]
            | diverge => rw [bind_diverge hb]
          | throw x => rfl
          | ub x => rfl
          | diverge => rfl
        | throw x => rw [bind_run_throw ha']; simp [e']
        | ub x => rw [bind_run_ub ha']; simp [e']
        | diverge => rw [bind_diverge ha']; simp [e']
    | throw x => rw [bind_run_throw ha]
    | ub x => rw [bind_run_ub ha]
    | diverge => rw [bind_diverge ha]
  | cached id b ih =>
    simp only [still, Blk.value, Kuz.Blk.valueS]
    cases hc : c id with
    | some v => rfl
    | none =>
      rcases e : b.valueS m c with ⟨r, c'⟩
      have ha := ih c
      rw [e] at ha
      simp only [ha]
      cases r <;> rfl
  | user v => rfl

theorem still_transform (b : Kuz.Blk) (n : Nat) :
    still W (Kuz.BlkL.transform b n) = BlkL.transform (still W b) n := by
  induction n generalizing b with
  | zero => rfl
  | succ n ih => exact ih _

theorem still_blkL (b : Kuz.Blk) : still W (Kuz.BlkL b) = BlkL (still W b) := still_transform b 16

theorem still_generate (c2 : Int) (a b : Kuz.Blk) (i : Int) :
    still W (Kuz.BlkIterKey.generate c2 a b i) = BlkIterKey.generate c2 (still W a) (still W b) i := by
  rw [Kuz.BlkIterKey.generate, BlkIterKey.generate]
  by_cases h : i > c2
  · rw [if_pos h, if_pos h]
  · rw [if_neg h, if_neg h]
    simp only
    rw [still_generate c2 _ _ (i + 1)]
    simp only [still, still_blkL]
    rfl
termination_by (c2 + 1 - i).toNat
decreasing_by omega

theorem still_ofBlocks (a b : Kuz.Blk) (base : Nat) :
    stillKey W (Kuz.Key.ofBlocks a b base) = Key.ofBlocks (still W a) (still W b) base := by
  simp only [stillKey, Kuz.Key.ofBlocks, Key.ofBlocks, still, Kuz.BlkIterKey, BlkIterKey, still_generate]

theorem still_encrypt (b : Kuz.Blk) (k : Kuz.Key) :
    still W (Kuz.BlkEncrypted b k) = BlkEncrypted (still W b) (stillKey W k) := by
  simp only [Kuz.BlkEncrypted, BlkEncrypted, Kuz.Key.encrypt, Key.encrypt, Kuz.Key.encryptStep, Key.encryptStep,
    still, still_blkL, stillKey]

end Goost.KuzToken
