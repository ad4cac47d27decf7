import Verif.Lemmas.KuzLeak
import Verif.Lemmas.KuzKey
/-
The number of observable steps of Kuznyechik blocks, and their caches after a history of encryptions.
-/
namespace Goost.Kuz
open Spec

/-- Which caches are loaded. -/
def loaded (c : Caches) : Nat → Bool := fun i => (c i).isSome

/-- The steps of an evaluation that succeeds, and the caches loaded by it. -/
def Blk.steps : Blk → (Nat → Bool) → Nat × (Nat → Bool)
  | .xored a b, L =>
    let (n, L) := a.steps L
    let (k, L) := b.steps L
    (n + k, L)
  | .blkS b, L => ((b.steps L).1 + 16, (b.steps L).2)
  | .blkR b, L => ((b.steps L).1 + 256, (b.steps L).2)
  | .incremented b, L => ((b.steps L).1 + 1, (b.steps L).2)
  | .shifted b _, L => b.steps L
  | .cached id b, L =>
    if L id then (0, L) else
      let (n, L) := b.steps L
      (n, fun i => if i = id then true else L i)
  | _, L => (0, L)

/-- Blocks whose number of steps does not depend on values. -/
def Even : Blk → Prop
  | .xored a b => Even a ∧ Even b
  | .blkS b => Even b
  | .blkR b => Even b
  | .incremented b => Even b
  | .shifted b _ => Even b
  | .xoredIfHighBit _ _ => False
  | .cached _ b => Even b
  | _ => True

theorem steps_eq {m : Machine} (b : Blk) (hb : Even b) {c d : Caches} {v : W64 × W64}
    (h : b.valueS m c = (.ok v, d)) :
    (b.log m c).length = (b.steps (loaded c)).1 ∧ loaded d = (b.steps (loaded c)).2 := by
  induction b generalizing c d v with
  | raw l h' => simp only [Blk.valueS, Prod.mk.injEq] at h; rw [← h.2]; exact ⟨rfl, rfl⟩
  | str s => simp only [Blk.valueS, Prod.mk.injEq] at h; rw [← h.2]; exact ⟨rfl, rfl⟩
  | user u => simp only [Blk.valueS, Prod.mk.injEq] at h; rw [← h.2]; exact ⟨rfl, rfl⟩
  | xoredIfHighBit a b _ _ => exact absurd hb id
  | blkS b ih =>
    rcases hv : b.valueS m c with ⟨r, d'⟩
    simp only [Blk.valueS, hv, Prod.mk.injEq] at h
    obtain ⟨h, rfl⟩ := h
    cases r with
    | ok x =>
      obtain ⟨i1, i2⟩ := ih hb hv
      refine ⟨?_, i2⟩
      simp only [Blk.log, hv, List.length_append, i1, sLog_length, Blk.steps]
    | _ => cases h
  | blkR b ih =>
    rcases hv : b.valueS m c with ⟨r, d'⟩
    simp only [Blk.valueS, hv, Prod.mk.injEq] at h
    obtain ⟨h, rfl⟩ := h
    cases r with
    | ok x =>
      obtain ⟨i1, i2⟩ := ih hb hv
      refine ⟨?_, i2⟩
      simp only [Blk.log, hv, List.length_append, i1, rLog_length, Blk.steps]
    | _ => cases h
  | incremented b ih =>
    rcases hv : b.valueS m c with ⟨r, d'⟩
    simp only [Blk.valueS, hv, Prod.mk.injEq] at h
    obtain ⟨h, rfl⟩ := h
    cases r with
    | ok x =>
      obtain ⟨i1, i2⟩ := ih hb hv
      refine ⟨?_, i2⟩
      simp only [Blk.log, hv, List.length_append, i1, List.length_singleton, Blk.steps]
    | _ => cases h
  | shifted b s ih =>
    rcases hv : b.valueS m c with ⟨r, d'⟩
    simp only [Blk.valueS, hv, Prod.mk.injEq] at h
    obtain ⟨h, rfl⟩ := h
    cases r with
    | ok x =>
      obtain ⟨i1, i2⟩ := ih hb hv
      refine ⟨?_, i2⟩
      simp only [Blk.log, i1, Blk.steps]
    | _ => cases h
  | xored a b iha ihb =>
    rcases hv : a.valueS m c with ⟨r, d'⟩
    cases r with
    | ok x =>
      rcases hw : b.valueS m d' with ⟨r', d''⟩
      cases r' with
      | ok y =>
        obtain ⟨h1, h2⟩ := xored_run hv hw
        rw [h1, Prod.mk.injEq] at h
        obtain ⟨-, rfl⟩ := h
        obtain ⟨i1, i2⟩ := iha hb.1 hv
        obtain ⟨j1, j2⟩ := ihb hb.2 hw
        rw [h2, List.length_append, i1, j1, j2, i2]
        exact ⟨rfl, rfl⟩
      | _ => simp only [Blk.valueS, hv, hw, Prod.mk.injEq, reduceCtorEq, false_and] at h
    | _ => simp only [Blk.valueS, hv, Prod.mk.injEq, reduceCtorEq, false_and] at h
  | cached id b ih =>
    rcases hc : c id with - | x
    · rcases hv : b.valueS m c with ⟨r, d'⟩
      cases r with
      | ok x =>
        simp only [Blk.valueS, hc, hv, Prod.mk.injEq] at h
        obtain ⟨-, rfl⟩ := h
        obtain ⟨i1, i2⟩ := ih hb hv
        have : loaded c id = false := by simp [loaded, hc]
        simp only [Blk.log, hc, i1, Blk.steps, this, Bool.false_eq_true, if_false, true_and, ← i2]
        funext i
        simp only [loaded]
        split <;> rfl
      | _ => simp only [Blk.valueS, hc, hv, Prod.mk.injEq, reduceCtorEq, false_and] at h
    · simp only [Blk.valueS, hc, Prod.mk.injEq] at h
      obtain ⟨-, rfl⟩ := h
      have : loaded c id = true := by simp [loaded, hc]
      simp only [Blk.log, hc, Blk.steps, this, if_true, List.length_nil, and_self]

/-! ### Blocks of one shape -/

def Alike (b b' : Blk) : Prop := Even b ∧ Even b' ∧ b.steps = b'.steps

theorem Alike.raw (v u : W64 × W64) : Alike (BlkRaw.ofPair v) (BlkRaw.ofPair u) :=
  ⟨trivial, trivial, rfl⟩

theorem Alike.str (s t : List Char) : Alike (.str s) (.str t) := ⟨trivial, trivial, rfl⟩

theorem Alike.xored {a a' b b' : Blk} (h : Alike a a') (g : Alike b b') :
    Alike (.xored a b) (.xored a' b') :=
  ⟨⟨h.1, g.1⟩, ⟨h.2.1, g.2.1⟩, by funext L; simp only [Blk.steps, h.2.2, g.2.2]⟩

theorem Alike.blkS {b b' : Blk} (h : Alike b b') : Alike (.blkS b) (.blkS b') :=
  ⟨h.1, h.2.1, by funext L; simp only [Blk.steps, h.2.2]⟩

theorem Alike.blkR {b b' : Blk} (h : Alike b b') : Alike (.blkR b) (.blkR b') :=
  ⟨h.1, h.2.1, by funext L; simp only [Blk.steps, h.2.2]⟩

theorem Alike.cached {b b' : Blk} (h : Alike b b') (id : Nat) : Alike (.cached id b) (.cached id b') :=
  ⟨h.1, h.2.1, by funext L; simp only [Blk.steps, h.2.2]⟩

theorem Alike.transform (n : Nat) {b b' : Blk} (h : Alike b b') :
    Alike (BlkL.transform b n) (BlkL.transform b' n) := by
  induction n generalizing b b' with
  | zero => exact h
  | succ n ih => exact ih h.blkR

theorem Alike.generate (c2 : Int) {n : Nat} {a a' b b' : Blk} {i : Int} (hi : (c2 + 1 - i).toNat = n)
    (ha : Alike a a') (hb : Alike b b') :
    Alike (BlkIterKey.generate c2 a b i) (BlkIterKey.generate c2 a' b' i) := by
  induction n generalizing a a' b b' i with
  | zero =>
    rw [BlkIterKey.generate.eq_def c2 a b, BlkIterKey.generate.eq_def c2 a' b', if_pos (by omega),
      if_pos (by omega)]
    exact hb
  | succ n ih =>
    rw [BlkIterKey.generate.eq_def c2 a b, BlkIterKey.generate.eq_def c2 a' b', if_neg (by omega), if_neg (by omega)]
    refine ih (by omega) hb (ha.xored (Alike.transform 16 (hb.xored ?_).blkS))
    exact Alike.transform 16 (Alike.raw (_, _) (_, _))

theorem Alike.iterKey {a a' b b' : Blk} (ha : Alike a a') (hb : Alike b b') (c1 c2 : Int) :
    Alike (BlkIterKey a b c1 c2) (BlkIterKey a' b' c1 c2) := Alike.generate c2 rfl hb ha

theorem Alike.step {a a' k k' : Blk} (ha : Alike a a') (hk : Alike k k') :
    Alike (Key.encryptStep a k) (Key.encryptStep a' k') := Alike.transform 16 (ha.xored hk).blkS

theorem Alike.encrypted {high high' low low' b b' : Blk} (hh : Alike high high') (hl : Alike low low')
    (hb : Alike b b') (base : Nat) :
    Alike (BlkEncrypted b (Key.ofBlocks high low base)) (BlkEncrypted b' (Key.ofBlocks high' low' base)) := by
  have k1 := hh.cached (base + 1)
  have k2 := hl.cached (base + 2)
  have k3 := (k1.iterKey k2 1 8).cached (base + 3)
  have k4 := (k1.iterKey k2 1 7).cached (base + 4)
  have k5 := (k3.iterKey k4 9 16).cached (base + 5)
  have k6 := (k3.iterKey k4 9 15).cached (base + 6)
  have k7 := (k5.iterKey k6 17 24).cached (base + 7)
  have k8 := (k5.iterKey k6 17 23).cached (base + 8)
  have k9 := (k7.iterKey k8 25 32).cached (base + 9)
  have k10 := (k7.iterKey k8 25 31).cached (base + 10)
  exact Alike.xored (Alike.step (Alike.step (Alike.step (Alike.step (Alike.step (Alike.step (Alike.step
    (Alike.step (Alike.step hb k1) k2) k3) k4) k5) k6) k7) k8) k9) k10

/-! ### Loaded caches -/

theorem steps_mono (b : Blk) (L : Nat → Bool) (i : Nat) (h : L i = true) : (b.steps L).2 i = true := by
  induction b generalizing L with
  | xored a b iha ihb => exact ihb _ (iha _ h)
  | blkS b ih => exact ih _ h
  | blkR b ih => exact ih _ h
  | incremented b ih => exact ih _ h
  | shifted b _ ih => exact ih _ h
  | cached id b ih =>
    simp only [Blk.steps]
    split
    · exact h
    · simp only
      split
      · rfl
      · exact ih _ h
  | _ => exact h

/-- An evaluation of the block loads the cache. -/
def Loads (id : Nat) (b : Blk) : Prop := ∀ L, (b.steps L).2 id = true

theorem Loads.cached (id : Nat) (b : Blk) : Loads id (.cached id b) := by
  intro L
  simp only [Blk.steps]
  split
  · assumption
  · simp only [if_true]

theorem Loads.left {id : Nat} {a : Blk} (h : Loads id a) (b : Blk) : Loads id (.xored a b) :=
  fun _ => steps_mono b _ _ (h _)

theorem Loads.right {id : Nat} {b : Blk} (h : Loads id b) (a : Blk) : Loads id (.xored a b) :=
  fun _ => h _

theorem Loads.transform {id : Nat} {b : Blk} (h : Loads id b) (n : Nat) : Loads id (BlkL.transform b n) := by
  induction n generalizing b with
  | zero => exact h
  | succ n ih => exact ih (b := .blkR b) fun L => h L

theorem Loads.step {id : Nat} {a : Blk} (h : Loads id a) (k : Blk) : Loads id (Key.encryptStep a k) :=
  Loads.transform (b := .blkS (.xored a k)) (fun L => h.left k L) 16

theorem Loads.key {id : Nat} {k : Blk} (h : Loads id k) (a : Blk) : Loads id (Key.encryptStep a k) :=
  Loads.transform (b := .blkS (.xored a k)) (fun L => h.right a L) 16

theorem Loads.encrypted (b high low : Blk) (base i : Nat) (h1 : 1 ≤ i) (h2 : i ≤ 10) :
    Loads (base + i) (BlkEncrypted b (Key.ofBlocks high low base)) := by
  have : i = 1 ∨ i = 2 ∨ i = 3 ∨ i = 4 ∨ i = 5 ∨ i = 6 ∨ i = 7 ∨ i = 8 ∨ i = 9 ∨ i = 10 := by omega
  rcases this with rfl | rfl | rfl | rfl | rfl | rfl | rfl | rfl | rfl | rfl
  · exact Loads.left (((((((((Loads.cached (base + 1) _).key _).step _).step _).step _).step _).step _).step
      _).step _ |>.step _) _
  · exact Loads.left ((((((((Loads.cached (base + 2) _).key _).step _).step _).step _).step _).step _).step
      _ |>.step _) _
  · exact Loads.left (((((((Loads.cached (base + 3) _).key _).step _).step _).step _).step _).step _ |>.step _) _
  · exact Loads.left ((((((Loads.cached (base + 4) _).key _).step _).step _).step _).step _ |>.step _) _
  · exact Loads.left (((((Loads.cached (base + 5) _).key _).step _).step _).step _ |>.step _) _
  · exact Loads.left ((((Loads.cached (base + 6) _).key _).step _).step _ |>.step _) _
  · exact Loads.left (((Loads.cached (base + 7) _).key _).step _ |>.step _) _
  · exact Loads.left ((Loads.cached (base + 8) _).key _ |>.step _) _
  · exact Loads.left ((Loads.cached (base + 9) _).key _) _
  · exact Loads.right (Loads.cached (base + 10) _) _

/-! ### Histories -/

/-- The caches after the evaluation of some blocks. -/
theorem consistent_after {m : Machine} {own : Nat → Blk} (f : W64 × W64 → Blk) (hf : ∀ v, Owned own (f v))
    (hist : List (W64 × W64)) {c : Caches} (hc : Consistent m own c) :
    Consistent m own (runCalls (fun v c => (f v).valueS m c) hist c).2 := by
  induction hist generalizing c with
  | nil => exact hc
  | cons v vs ih => exact ih (valueS_eq (f v) (hf v) hc).2

theorem after_alike {m m' : Machine} {own own' : Nat → Blk} {f f' : W64 × W64 → Blk}
    (ha : ∀ v u, Alike (f v) (f' u)) (ho : ∀ v, Owned own (f v)) (ho' : ∀ v, Owned own' (f' v))
    (hv : ∀ v, ∃ r, (f v).value m = .ok r) (hv' : ∀ v, ∃ r, (f' v).value m' = .ok r)
    {hist hist' : List (W64 × W64)} (hl : hist.length = hist'.length) {c c' : Caches}
    (hc : Consistent m own c) (hc' : Consistent m' own' c') (hcc : loaded c = loaded c') (v u : W64 × W64) :
    ((f v).log m (runCalls (fun v c => (f v).valueS m c) hist c).2).length =
      ((f' u).log m' (runCalls (fun v c => (f' v).valueS m' c) hist' c').2).length := by
  have run : ∀ v {c : Caches}, Consistent m own c → ∃ r d, (f v).valueS m c = (.ok r, d) := by
    intro v c hc
    obtain ⟨r, hr⟩ := hv v
    exact ⟨r, _, Prod.ext ((valueS_eq (f v) (ho v) hc).1.trans hr) rfl⟩
  have run' : ∀ v {c : Caches}, Consistent m' own' c → ∃ r d, (f' v).valueS m' c = (.ok r, d) := by
    intro v c hc
    obtain ⟨r, hr⟩ := hv' v
    exact ⟨r, _, Prod.ext ((valueS_eq (f' v) (ho' v) hc).1.trans hr) rfl⟩
  induction hist generalizing hist' c c' with
  | nil =>
    have : hist' = [] := List.length_eq_zero_iff.1 hl.symm
    subst this
    obtain ⟨r, d, e⟩ := run v hc
    obtain ⟨r', d', e'⟩ := run' u hc'
    have h1 := (steps_eq (f v) (ha v u).1 e).1
    have h2 := (steps_eq (f' u) (ha v u).2.1 e').1
    rw [(ha v u).2.2, hcc, ← h2] at h1
    exact h1
  | cons x xs ih =>
    match hist' with
    | y :: ys =>
      obtain ⟨r, d, e⟩ := run x hc
      obtain ⟨r', d', e'⟩ := run' y hc'
      have h1 := (steps_eq (f x) (ha x y).1 e).2
      have h2 := (steps_eq (f' y) (ha x y).2.1 e').2
      rw [(ha x y).2.2, hcc, ← h2] at h1
      have g1 := (valueS_eq (f x) (ho x) hc).2
      have g2 := (valueS_eq (f' y) (ho' y) hc').2
      rw [e] at g1
      rw [e'] at g2
      have := ih (hist' := ys) (by simpa using hl) g1 g2 h1
      simp only [runCalls, e, e']
      exact this

theorem after_loaded {m : Machine} {own : Nat → Blk} {f : W64 × W64 → Blk} {id : Nat}
    (hd : ∀ v, Even (f v)) (hi : ∀ v, Loads id (f v)) (ho : ∀ v, Owned own (f v))
    (hv : ∀ v, ∃ r, (f v).value m = .ok r) (x : W64 × W64) (hist : List (W64 × W64)) {c : Caches}
    (hc : Consistent m own c) :
    ∃ k, (runCalls (fun v c => (f v).valueS m c) (x :: hist) c).2 id = some k := by
  induction hist generalizing x c with
  | nil =>
    obtain ⟨r, hr⟩ := hv x
    have e : (f x).valueS m c = (.ok r, ((f x).valueS m c).2) :=
      Prod.ext ((valueS_eq (f x) (ho x) hc).1.trans hr) rfl
    have := (steps_eq (f x) (hd x) e).2
    have := congrFun this id
    rw [hi x] at this
    exact Option.isSome_iff_exists.1 this
  | cons y ys ih => exact ih y (valueS_eq (f x) (ho x) hc).2

end Goost.Kuz
