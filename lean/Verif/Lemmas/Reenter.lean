import Verif.Spec.Reenter
import Verif.Lemmas.KuzCache
import Verif.Lemmas.KuzToken
import Verif.Lemmas.Kuz
/-
Helper lemmas: keys that are used again while they are being asked for.
-/
namespace Goost.Reenter
open Goost.Kuz (Caches sValue rValue incValue shiftValue)
open Spec
variable {W : Type} {m : Machine} {E : Exn → Prop} {D : Prop} {own : Nat → Kuz.Blk} {val : Nat → W64 × W64} {I : W → Prop}

abbrev V := W64 × W64

/-- The outcome is the expected one, or a refusal, or (if `D`) the end of the stack. -/
def Agrees {α : Type} (E : Exn → Prop) (D : Prop) (r ref : Exec α) : Prop :=
  r = ref ∨ (D ∧ r = .diverge) ∨ ∃ e, E e ∧ r = .throw e

/-- A call with the expected outcome that keeps the caches right and the world in `I`. -/
def Right {α : Type} (m : Machine) (own : Nat → Kuz.Blk) (E : Exn → Prop) (D : Prop) (I : W → Prop) (x : Io (Caches × W) α)
    (ref : Exec α) : Prop :=
  ∀ s, Consistent m own s.1 → I s.2 → Agrees E D (x s).1 ref ∧ Consistent m own (x s).2.1 ∧ I (x s).2.2

theorem Right.lift {α : Type} (r : Exec α) : Right m own E D I (Io.lift r : Io (Caches × W) α) r :=
  fun _ hc hi => ⟨.inl rfl, hc, hi⟩

theorem Right.bind {α β : Type} {x : Io (Caches × W) α} {ref : Exec α} {f : α → Io (Caches × W) β} {g : α → Exec β}
    (h : Right m own E D I x ref) (hf : ∀ a, ref = .ok a → Right m own E D I (f a) (g a)) :
    Right m own E D I (x >>= f) (ref >>= g) := by
  intro s hc hi
  obtain ⟨h1, h2, h3⟩ := h s hc hi
  rcases hx : x s with ⟨r, s'⟩
  rw [hx] at h1 h2 h3
  simp only at h1 h2 h3
  cases r with
  | ok a =>
    rw [KuzToken.bind_ok hx]
    rcases h1 with h1 | h1 | ⟨e, -, h1⟩
    · subst h1; exact hf a rfl s' h2 h3
    · cases h1.2
    · cases h1
  | throw e =>
    rw [bind_run_throw hx]
    refine ⟨?_, h2, h3⟩
    rcases h1 with h1 | h1 | ⟨e', he, h1⟩
    · subst h1; exact .inl rfl
    · cases h1.2
    · cases h1; exact .inr (.inr ⟨_, he, rfl⟩)
  | ub u =>
    rw [bind_run_ub hx]
    refine ⟨?_, h2, h3⟩
    rcases h1 with h1 | h1 | ⟨e', he, h1⟩
    · subst h1; exact .inl rfl
    · cases h1.2
    · cases h1
  | diverge =>
    rw [KuzToken.bind_diverge hx]
    refine ⟨?_, h2, h3⟩
    rcases h1 with h1 | h1 | ⟨e', he, h1⟩
    · subst h1; exact .inl rfl
    · exact .inr (.inl ⟨h1.1, rfl⟩)
    · cases h1

/-- If the objects of the user answer `val`, every block has the value that it has with these answers. -/
theorem Right.valueWith {user : Nat → Io (Caches × W) V} (hu : ∀ n, Right m own E D I (user n) (.ok (val n)))
    (b : Blk) (ho : Owned own (plainly val b)) : Right m own E D I (b.valueWith m user) ((plainly val b).value m) := by
  induction b with
  | raw l h => exact Right.lift _
  | str s => exact Right.lift _
  | user n => exact hu n
  | xored a b iha ihb => exact (iha ho.1).bind fun _ _ => (ihb ho.2).bind fun _ _ => Right.lift _
  | blkS b ih => exact (ih ho).bind fun _ _ => Right.lift _
  | blkR b ih => exact (ih ho).bind fun _ _ => Right.lift _
  | incremented b ih => exact (ih ho).bind fun _ _ => Right.lift _
  | shifted b n ih => exact (ih ho).bind fun _ _ => Right.lift _
  | xoredIfHighBit a b iha ihb =>
    refine (iha ho.1).bind fun v _ => ?_
    split
    · exact (iha ho.1).bind fun _ _ => Right.lift _
    · exact (iha ho.1).bind fun _ _ => (Right.lift _).bind fun _ _ => (ihb ho.2).bind fun _ _ => Right.lift _
  | cached id b ih =>
    obtain ⟨ho1, ho2⟩ := ho
    intro s hc hi
    simp only [Blk.valueWith]
    cases hs : s.1 id with
    | some v => exact ⟨.inl (by simpa [plainly, Kuz.Blk.value, ho1] using (hc id v hs).symm), hc, hi⟩
    | none =>
      obtain ⟨h1, h2, h3⟩ := ih ho2 s hc hi
      rcases hx : b.valueWith m user s with ⟨r, s'⟩
      rw [hx] at h1 h2 h3
      cases r with
      | ok v =>
        refine ⟨h1, fun i x hx => ?_, h3⟩
        simp only at hx
        split at hx
        · next h =>
          subst h
          cases hx
          rcases h1 with h1 | h1 | ⟨e, -, h1⟩
          · rw [ho1]; exact h1.symm
          · cases h1.2
          · cases h1
        · exact h2 i x hx
      | throw e => exact ⟨h1, h2, h3⟩
      | ub u => exact ⟨h1, h2, h3⟩
      | diverge => exact ⟨h1, h2, h3⟩

/-- An object of the user that answers `v`, whatever its calls return. -/
theorem Right.run {lib : Blk → Io (Caches × W) V} {allowed : Blk → Prop} {v : V}
    (hl : ∀ b, allowed b → Right m own E True (fun _ => True) (lib b) ((plainly val b).value m))
    (hub : ∀ b, allowed b → ∀ u, (plainly val b).value m ≠ .ub u)
    (p : Code W Blk V V) (hp : Answers E allowed v p) : Right m own E True (fun _ => True) (p.run lib) (.ok v) := by
  induction p with
  | done r =>
    rintro s hc -
    refine ⟨?_, hc, trivial⟩
    rcases hp with h | h
    · exact .inl h
    · exact .inr (.inr h)
  | world act next ih =>
    rintro s hc -
    exact ih s.2 (hp s.2) (s.1, act s.2) hc trivial
  | call q next ih =>
    obtain ⟨hq, hn⟩ := hp
    rintro s hc -
    obtain ⟨h1, h2, -⟩ := hl q hq s hc trivial
    simp only [Code.run]
    rcases hx : lib q s with ⟨r, s'⟩
    rw [hx] at h1 h2
    cases r with
    | ok a => exact ih _ (hn _) s' h2 trivial
    | throw e => exact ih _ (hn _) s' h2 trivial
    | ub u =>
      rcases h1 with h1 | h1 | ⟨e, -, h1⟩
      · exact absurd h1.symm (hub q hq u)
      · cases h1.2
      · cases h1
    | diverge => exact ⟨.inr (.inl ⟨trivial, rfl⟩), h2, trivial⟩

/-- C126 for one evaluation. -/
theorem Right.value {env : Nat → Code W Blk V V} {allowed : Blk → Prop}
    (ha : ∀ b, allowed b → Owned own (plainly val b) ∧ ∀ u, (plainly val b).value m ≠ .ub u)
    (he : ∀ n, Answers E allowed (val n) (env n)) (depth : Nat) (b : Blk) (ho : Owned own (plainly val b)) :
    Right m own E True (fun _ => True) (b.value m env depth) ((plainly val b).value m) := by
  induction depth generalizing b with
  | zero =>
    refine Right.valueWith (fun n => ?_) b ho
    exact fun s hc hi => ⟨.inr (.inl ⟨trivial, rfl⟩), hc, hi⟩
  | succ d ih =>
    refine Right.valueWith (fun n => ?_) b ho
    exact Right.run (fun b hb => ih b (ha b hb).1) (fun b hb => (ha b hb).2) _ (he n)

/-! ### Blocks without objects of the user -/

theorem plainly_transform (b : Blk) (n : Nat) : plainly val (BlkL.transform b n) = Kuz.BlkL.transform (plainly val b) n := by
  induction n generalizing b with
  | zero => rfl
  | succ n ih => exact ih (.blkR b)

theorem plainly_step (a k : Blk) : plainly val (Key.encryptStep a k) = Kuz.Key.encryptStep (plainly val a) (plainly val k) :=
  plainly_transform _ 16

theorem plainly_generate (n : Nat) {c2 i : Int} (hn : (c2 + 1 - i).toNat = n) (a b : Blk) :
    plainly val (BlkIterKey.generate c2 a b i) = Kuz.BlkIterKey.generate c2 (plainly val a) (plainly val b) i := by
  induction n generalizing a b i with
  | zero => rw [BlkIterKey.generate, if_pos (by omega), Kuz.BlkIterKey.generate, if_pos (by omega)]
  | succ n ih =>
    rw [BlkIterKey.generate, if_neg (by omega), Kuz.BlkIterKey.generate, if_neg (by omega)]
    rw [ih (by omega)]
    simp only [plainly, BlkL, Kuz.BlkL, plainly_transform, BlkRaw.ofU64, Kuz.BlkRaw.ofU64]

theorem plainly_iterKey (a b : Blk) (c1 c2 : Int) :
    plainly val (BlkIterKey a b c1 c2) = Kuz.BlkIterKey (plainly val a) (plainly val b) c1 c2 := plainly_generate _ rfl _ _

theorem plainly_encrypted (b high low : Blk) (base : Nat) : plainly val (BlkEncrypted b (Key.ofBlocks high low base)) =
    Kuz.BlkEncrypted (plainly val b) (Kuz.Key.ofBlocks (plainly val high) (plainly val low) base) := by
  simp only [BlkEncrypted, Key.encrypt, plainly, plainly_step, Key.ofBlocks, plainly_iterKey, Kuz.BlkEncrypted,
    Kuz.Key.encrypt, Kuz.Key.ofBlocks]

/-! ### Loaded caches -/

/-- All outermost caches of the block satisfy `P`, and no object of the user is outside of them. -/
def Outer (P : Nat → Prop) : Blk → Prop
  | .raw _ _ => True
  | .str _ => True
  | .xored a b => Outer P a ∧ Outer P b
  | .blkS b => Outer P b
  | .blkR b => Outer P b
  | .incremented b => Outer P b
  | .shifted b _ => Outer P b
  | .xoredIfHighBit a b => Outer P a ∧ Outer P b
  | .cached id _ => P id
  | .user _ => False

/-- The value of a cache. -/
def held (c : Caches) (id : Nat) : Kuz.Blk := .user (match c id with | some v => .ok v | none => .diverge)

/-- The block with its outermost caches replaced by what they hold. -/
def frozen (c : Caches) : Blk → Kuz.Blk
  | .raw low high => .raw low high
  | .str s => .str s
  | .xored a b => .xored (frozen c a) (frozen c b)
  | .blkS b => .blkS (frozen c b)
  | .blkR b => .blkR (frozen c b)
  | .incremented b => .incremented (frozen c b)
  | .shifted b n => .shifted (frozen c b) n
  | .xoredIfHighBit a b => .xoredIfHighBit (frozen c a) (frozen c b)
  | .cached id _ => held c id
  | .user _ => .user .diverge

theorem lift_bind {S α β : Type} {x : Io S α} {f : α → Io S β} {s : S} {r : Exec α} (h : x s = (r, s)) {g : α → Exec β}
    (hf : ∀ a, f a s = (g a, s)) : (x >>= f) s = (r >>= g, s) := by
  cases r with
  | ok a => rw [KuzToken.bind_ok h, hf]; rfl
  | throw e => rw [bind_run_throw h]; rfl
  | ub u => rw [bind_run_ub h]; rfl
  | diverge => rw [KuzToken.bind_diverge h]; rfl

/-- With loaded caches nothing is asked and nothing changes. -/
theorem loaded_value (user : Nat → Io (Caches × W) V) (b : Blk) (s : Caches × W)
    (h : Outer (fun id => (s.1 id).isSome) b) : b.valueWith m user s = ((frozen s.1 b).value m, s) := by
  induction b with
  | raw l h => rfl
  | str s => rfl
  | user n => exact h.elim
  | xored a b iha ihb => exact lift_bind (iha h.1) fun _ => lift_bind (ihb h.2) fun _ => rfl
  | blkS b ih => exact lift_bind (ih h) fun _ => rfl
  | blkR b ih => exact lift_bind (ih h) fun _ => rfl
  | incremented b ih => exact lift_bind (ih h) fun _ => rfl
  | shifted b n ih => exact lift_bind (ih h) fun _ => rfl
  | xoredIfHighBit a b iha ihb =>
    refine lift_bind (iha h.1) fun v => ?_
    split
    · exact lift_bind (iha h.1) fun _ => rfl
    · exact lift_bind (iha h.1) fun v' => lift_bind (x := Io.lift (shiftValue v' 1)) rfl fun _ =>
        lift_bind (ihb h.2) fun _ => rfl
  | cached id b ih =>
    simp only [Blk.valueWith]
    cases hs : s.1 id with
    | some v => simp only [frozen, held, hs, Kuz.Blk.value]
    | none => simp only [Outer, hs] at h; cases h

/-- Loaded caches stay loaded. -/
def Keeps {α : Type} (x : Io (Caches × W) α) : Prop := ∀ s id, (s.1 id).isSome → ((x s).2.1 id).isSome

theorem Keeps.lift {α : Type} (r : Exec α) : Keeps (Io.lift r : Io (Caches × W) α) := fun _ _ h => h

theorem Keeps.bind {α β : Type} {x : Io (Caches × W) α} {f : α → Io (Caches × W) β} (hx : Keeps x) (hf : ∀ a, Keeps (f a)) :
    Keeps (x >>= f) := by
  intro s id h
  have h1 := hx s id h
  rcases e : x s with ⟨r, s'⟩
  rw [e] at h1
  cases r with
  | ok a => rw [KuzToken.bind_ok e]; exact hf a s' id h1
  | throw _ => rw [bind_run_throw e]; exact h1
  | ub _ => rw [bind_run_ub e]; exact h1
  | diverge => rw [KuzToken.bind_diverge e]; exact h1

theorem Keeps.valueWith {user : Nat → Io (Caches × W) V} (hu : ∀ n, Keeps (user n)) (b : Blk) : Keeps (b.valueWith m user) := by
  induction b with
  | raw l h => exact Keeps.lift _
  | str s => exact Keeps.lift _
  | user n => exact hu n
  | xored a b iha ihb => exact iha.bind fun _ => ihb.bind fun _ => Keeps.lift _
  | blkS b ih => exact ih.bind fun _ => Keeps.lift _
  | blkR b ih => exact ih.bind fun _ => Keeps.lift _
  | incremented b ih => exact ih.bind fun _ => Keeps.lift _
  | shifted b n ih => exact ih.bind fun _ => Keeps.lift _
  | xoredIfHighBit a b iha ihb =>
    refine iha.bind fun v => ?_
    split
    · exact iha.bind fun _ => Keeps.lift _
    · exact iha.bind fun _ => (Keeps.lift _).bind fun _ => ihb.bind fun _ => Keeps.lift _
  | cached id b ih =>
    intro s i h
    simp only [Blk.valueWith]
    cases hs : s.1 id with
    | some v => exact h
    | none =>
      have h1 := ih s i h
      rcases e : b.valueWith m user s with ⟨r, s'⟩
      rw [e] at h1
      cases r with
      | ok v => simp only; split <;> simp [h1]
      | throw _ => exact h1
      | ub _ => exact h1
      | diverge => exact h1

theorem Keeps.run {Q A R : Type} {lib : Q → Io (Caches × W) A} (hl : ∀ q, Keeps (lib q)) (p : Code W Q A R) : Keeps (p.run lib) := by
  induction p with
  | done r => exact Keeps.lift _
  | world act next ih => exact fun s id h => ih s.2 (s.1, act s.2) id h
  | call q next ih =>
    intro s id h
    have h1 := hl q s id h
    simp only [Code.run]
    rcases e : lib q s with ⟨r, s'⟩
    rw [e] at h1
    cases r with
    | ok a => exact ih _ s' id h1
    | throw _ => exact ih _ s' id h1
    | ub _ => exact h1
    | diverge => exact h1

theorem Keeps.value (env : Nat → Code W Blk V V) (depth : Nat) (b : Blk) : Keeps (b.value m env depth) := by
  induction depth generalizing b with
  | zero => exact Keeps.valueWith (fun _ => Keeps.lift _) b
  | succ d ih => exact Keeps.valueWith (fun n => Keeps.run (fun b => ih b) _) b

/-- The block cannot be evaluated without the cache. -/
def Needs (id : Nat) : Blk → Prop
  | .raw _ _ => False
  | .str _ => False
  | .xored a b => Needs id a ∨ Needs id b
  | .blkS b => Needs id b
  | .blkR b => Needs id b
  | .incremented b => Needs id b
  | .shifted b _ => Needs id b
  | .xoredIfHighBit a _ => Needs id a
  | .cached i _ => i = id
  | .user _ => False

theorem bind_ok_inv {S α β : Type} {x : Io S α} {f : α → Io S β} {s s' : S} {b : β} (h : (x >>= f) s = (.ok b, s')) :
    ∃ a t, x s = (.ok a, t) ∧ f a t = (.ok b, s') := by
  rcases e : x s with ⟨r, t⟩
  cases r with
  | ok a => rw [KuzToken.bind_ok e] at h; exact ⟨a, t, rfl, h⟩
  | throw _ => rw [bind_run_throw e] at h; cases h
  | ub _ => rw [bind_run_ub e] at h; cases h
  | diverge => rw [KuzToken.bind_diverge e] at h; cases h

theorem lift_state {S α : Type} {r : Exec α} {s s' : S} {a : α} (h : (Io.lift r : Io S α) s = (.ok a, s')) : s = s' :=
  congrArg Prod.snd h

theorem needs_loads {user : Nat → Io (Caches × W) V} (hu : ∀ n, Keeps (user n)) (id : Nat) (b : Blk) (hb : Needs id b)
    (s s' : Caches × W) (v : V) (h : b.valueWith m user s = (.ok v, s')) : (s'.1 id).isSome := by
  induction b generalizing s s' v with
  | raw l h => exact hb.elim
  | str s => exact hb.elim
  | user n => exact hb.elim
  | xored a b iha ihb =>
    obtain ⟨va, t, h1, h2⟩ := bind_ok_inv h
    obtain ⟨vb, t', h3, h4⟩ := bind_ok_inv h2
    obtain rfl := lift_state (r := .ok _) h4
    rcases hb with hb | hb
    · have := Keeps.valueWith (m := m) hu b t id (iha hb _ _ _ h1)
      rwa [h3] at this
    · exact ihb hb _ _ _ h3
  | blkS b ih =>
    obtain ⟨va, t, h1, h2⟩ := bind_ok_inv h
    obtain rfl := lift_state h2
    exact ih hb _ _ _ h1
  | blkR b ih =>
    obtain ⟨va, t, h1, h2⟩ := bind_ok_inv h
    obtain rfl := lift_state h2
    exact ih hb _ _ _ h1
  | incremented b ih =>
    obtain ⟨va, t, h1, h2⟩ := bind_ok_inv h
    obtain rfl := lift_state (r := .ok _) h2
    exact ih hb _ _ _ h1
  | shifted b n ih =>
    obtain ⟨va, t, h1, h2⟩ := bind_ok_inv h
    obtain rfl := lift_state h2
    exact ih hb _ _ _ h1
  | xoredIfHighBit a b iha ihb =>
    obtain ⟨va, t, h1, h2⟩ := bind_ok_inv h
    split at h2
    · obtain ⟨va', t', h3, h4⟩ := bind_ok_inv h2
      obtain rfl := lift_state h4
      exact iha hb _ _ _ h3
    · obtain ⟨va', t', h3, h4⟩ := bind_ok_inv h2
      obtain ⟨vs, t'', h5, h6⟩ := bind_ok_inv h4
      obtain rfl := lift_state h5
      obtain ⟨vb, t3, h7, h8⟩ := bind_ok_inv h6
      obtain rfl := lift_state (r := .ok _) h8
      have := Keeps.valueWith (m := m) hu b _ id (iha hb _ _ _ h3)
      rwa [h7] at this
  | cached i b ih =>
    obtain rfl : i = id := hb
    simp only [Blk.valueWith] at h
    cases hs : s.1 i with
    | some x => rw [hs] at h; cases h; rw [hs]; rfl
    | none =>
      rw [hs] at h
      simp only at h
      rcases e : b.valueWith m user s with ⟨r, t⟩
      rw [e] at h
      cases r with
      | ok x => cases h; simp
      | throw _ => cases h
      | ub _ => cases h
      | diverge => cases h

theorem needs_value {env : Nat → Code W Blk V V} {depth : Nat} {id : Nat} {b : Blk} (hb : Needs id b)
    {s s' : Caches × W} {v : V} (h : b.value m env depth s = (.ok v, s')) : (s'.1 id).isSome := by
  cases depth with
  | zero => exact needs_loads (fun _ => Keeps.lift _) id b hb s s' v h
  | succ d => exact needs_loads (fun _ => Keeps.run (fun b => Keeps.value env d b) _) id b hb s s' v h

theorem loaded (env : Nat → Code W Blk V V) (depth : Nat) (b : Blk) (s : Caches × W)
    (h : Outer (fun id => (s.1 id).isSome) b) : b.value m env depth s = ((frozen s.1 b).value m, s) := by
  cases depth <;> exact loaded_value _ b s h

/-! ### Encryption -/

theorem outer_transform {P : Nat → Prop} {b : Blk} (h : Outer P b) (n : Nat) : Outer P (BlkL.transform b n) := by
  induction n generalizing b with
  | zero => exact h
  | succ n ih => exact ih (b := .blkR b) h

theorem outer_step {P : Nat → Prop} {a k : Blk} (ha : Outer P a) (hk : Outer P k) : Outer P (Key.encryptStep a k) :=
  outer_transform (b := .blkS (.xored a k)) ⟨ha, hk⟩ 16

theorem needs_transform {id : Nat} {b : Blk} (h : Needs id b) (n : Nat) : Needs id (BlkL.transform b n) := by
  induction n generalizing b with
  | zero => exact h
  | succ n ih => exact ih (b := .blkR b) h

theorem needs_step_left {id : Nat} {a k : Blk} (h : Needs id a) : Needs id (Key.encryptStep a k) :=
  needs_transform (b := .blkS (.xored a k)) (.inl h) 16

theorem needs_step_right {id : Nat} {a k : Blk} (h : Needs id k) : Needs id (Key.encryptStep a k) :=
  needs_transform (b := .blkS (.xored a k)) (.inr h) 16

theorem outer_encryption {P : Nat → Prop} {high low : Blk} {base : Nat} (h : ∀ j, 1 ≤ j → j ≤ 10 → P (base + j)) (v : V) :
    Outer P (encryption (Key.ofBlocks high low base) v) :=
  ⟨outer_step (outer_step (outer_step (outer_step (outer_step (outer_step (outer_step (outer_step (outer_step
    (a := .raw v.1 v.2) trivial (k := .cached _ _) (h 1 (by omega) (by omega)))
    (k := .cached _ _) (h 2 (by omega) (by omega))) (k := .cached _ _) (h 3 (by omega) (by omega)))
    (k := .cached _ _) (h 4 (by omega) (by omega))) (k := .cached _ _) (h 5 (by omega) (by omega)))
    (k := .cached _ _) (h 6 (by omega) (by omega))) (k := .cached _ _) (h 7 (by omega) (by omega)))
    (k := .cached _ _) (h 8 (by omega) (by omega))) (k := .cached _ _) (h 9 (by omega) (by omega)),
    h 10 (by omega) (by omega)⟩

theorem needs_encryption {high low : Blk} {base : Nat} (v : V) (j : Nat) (h1 : 1 ≤ j) (h10 : j ≤ 10) :
    Needs (base + j) (encryption (Key.ofBlocks high low base) v) := by
  obtain rfl | rfl | rfl | rfl | rfl | rfl | rfl | rfl | rfl | rfl : j = 1 ∨ j = 2 ∨ j = 3 ∨ j = 4 ∨ j = 5 ∨ j = 6 ∨ j = 7 ∨
    j = 8 ∨ j = 9 ∨ j = 10 := by omega
  all_goals simp only [encryption, BlkEncrypted, Key.encrypt, Key.ofBlocks, Needs]
  · exact .inl (needs_step_left (needs_step_left (needs_step_left (needs_step_left (needs_step_left (needs_step_left
      (needs_step_left (needs_step_left (needs_step_right rfl)))))))))
  · exact .inl (needs_step_left (needs_step_left (needs_step_left (needs_step_left (needs_step_left (needs_step_left
      (needs_step_left (needs_step_right rfl))))))))
  · exact .inl (needs_step_left (needs_step_left (needs_step_left (needs_step_left (needs_step_left (needs_step_left
      (needs_step_right rfl)))))))
  · exact .inl (needs_step_left (needs_step_left (needs_step_left (needs_step_left (needs_step_left (needs_step_right rfl))))))
  · exact .inl (needs_step_left (needs_step_left (needs_step_left (needs_step_left (needs_step_right rfl)))))
  · exact .inl (needs_step_left (needs_step_left (needs_step_left (needs_step_right rfl))))
  · exact .inl (needs_step_left (needs_step_left (needs_step_right rfl)))
  · exact .inl (needs_step_left (needs_step_right rfl))
  · exact .inl (needs_step_right rfl)
  · exact .inr trivial

theorem frozen_transform (c : Caches) (b : Blk) (n : Nat) : frozen c (BlkL.transform b n) = Kuz.BlkL.transform (frozen c b) n := by
  induction n generalizing b with
  | zero => rfl
  | succ n ih => exact ih (.blkR b)

theorem frozen_step (c : Caches) (a k : Blk) : frozen c (Key.encryptStep a k) = Kuz.Key.encryptStep (frozen c a) (frozen c k) :=
  frozen_transform c _ 16

/-- The key with the round keys that the caches hold. -/
def heldKey (c : Caches) (base : Nat) : Kuz.Key :=
  ⟨held c (base + 1), held c (base + 2), held c (base + 3), held c (base + 4), held c (base + 5), held c (base + 6),
    held c (base + 7), held c (base + 8), held c (base + 9), held c (base + 10)⟩

theorem frozen_encryption (c : Caches) (high low : Blk) (base : Nat) (v : V) :
    frozen c (encryption (Key.ofBlocks high low base) v) = (heldKey c base).encrypt (.raw v.1 v.2) := by
  simp only [encryption, BlkEncrypted, Key.encrypt, frozen, frozen_step, Key.ofBlocks, Kuz.Key.encrypt, heldKey, BlkRaw.ofPair]

/-- What the caches hold, as round keys of the standard. -/
def Holds (c : Caches) (base : Nat) (k : Fin 10 → Spec.Kuz.Block) : Prop :=
  ∀ i : Fin 10, ∃ v, c (base + (i.val + 1)) = some v ∧ join64 v = k i

theorem Holds.keyValues {c : Caches} {base : Nat} {k : Fin 10 → Spec.Kuz.Block} (h : Holds c base k) :
    KeyValues m (heldKey c base) k := by
  have g : ∀ i : Fin 10, HasValue m (held c (base + (i.val + 1))) (k i) := by
    intro i
    obtain ⟨v, e1, e2⟩ := h i
    exact ⟨v, by simp only [held, e1, Kuz.Blk.value], e2⟩
  exact ⟨g 0, g 1, g 2, g 3, g 4, g 5, g 6, g 7, g 8, g 9⟩

theorem Holds.some {c : Caches} {base : Nat} {k : Fin 10 → Spec.Kuz.Block} (h : Holds c base k) (j : Nat) (h1 : 1 ≤ j)
    (h10 : j ≤ 10) : (c (base + j)).isSome := by
  obtain ⟨v, e, -⟩ := h ⟨j - 1, by omega⟩
  have : j - 1 + 1 = j := by omega
  simp only [this] at e
  rw [e]; rfl

/-- An encryption with loaded caches. -/
theorem Holds.encryption {c : Caches} {base : Nat} {k : Fin 10 → Spec.Kuz.Block} (h : Holds c base k)
    (hm : m.unalignedLoad = true) (env : Nat → Code W Blk V V) (depth : Nat) (high low : Blk) (v : V) (w : W) :
    ∃ r, (encryption (Key.ofBlocks high low base) v).value m env depth (c, w) = (.ok r, (c, w)) ∧
      join64 r = Spec.Kuz.encWith ((List.finRange 10).map k) (join64 v) := by
  rw [loaded env depth _ (c, w) (outer_encryption h.some v), frozen_encryption]
  obtain ⟨r, e1, e2⟩ := h.keyValues.encrypt hm (HasValue.raw m v.1 v.2)
  exact ⟨r, by rw [e1], e2⟩

theorem holds_of_some {c : Caches} {base : Nat} (h : ∀ j, 1 ≤ j → j ≤ 10 → (c (base + j)).isSome) : ∃ k, Holds c base k := by
  refine ⟨fun i => join64 ((c (base + (i.val + 1))).get (h _ (by omega) (by omega))), fun i => ⟨_, (Option.some_get _).symm, rfl⟩⟩

/-! ### What is evaluated first -/

/-- The evaluation of `b` begins with that of `h`. -/
def Leads (m : Machine) (h b : Blk) : Prop :=
  ∃ g : V → Blk, ∀ (W : Type) (user : Nat → Io (Caches × W) V),
    b.valueWith m user = h.valueWith m user >>= fun x => (g x).valueWith m user

theorem Leads.refl (h : Blk) : Leads m h h := ⟨fun x => .raw x.1 x.2, fun _ user => by
  have : (fun x : V => (Blk.raw x.1 x.2).valueWith m user) = pure := rfl
  rw [this, bind_pure]⟩

theorem Leads.blkS {h b : Blk} : Leads m h b → Leads m h (.blkS b) := fun ⟨g, e⟩ => ⟨fun x => .blkS (g x), fun W user => by
  simp only [Blk.valueWith, e W user, bind_assoc]⟩

theorem Leads.blkR {h b : Blk} : Leads m h b → Leads m h (.blkR b) := fun ⟨g, e⟩ => ⟨fun x => .blkR (g x), fun W user => by
  simp only [Blk.valueWith, e W user, bind_assoc]⟩

theorem Leads.xored {h a : Blk} (k : Blk) : Leads m h a → Leads m h (.xored a k) := fun ⟨g, e⟩ =>
  ⟨fun x => .xored (g x) k, fun W user => by simp only [Blk.valueWith, e W user, bind_assoc]⟩

theorem Leads.transform {h b : Blk} (hb : Leads m h b) (n : Nat) : Leads m h (BlkL.transform b n) := by
  induction n generalizing b with
  | zero => exact hb
  | succ n ih => exact ih hb.blkR

theorem Leads.step {h a : Blk} (k : Blk) (ha : Leads m h a) : Leads m h (Key.encryptStep a k) := (ha.xored k).blkS.transform 16

theorem Leads.encryption (high low : Blk) (base : Nat) (v : V) :
    Leads m (.xored (.raw v.1 v.2) (.cached (base + 1) high)) (encryption (Key.ofBlocks high low base) v) :=
  (((((((((((Leads.refl _).blkS.transform 16).step _).step _).step _).step _).step _).step _).step _).step _).xored _)

theorem Leads.same {h b : Blk} (hb : Leads m h b) {user : Nat → Io (Caches × W) V} {s s' : Caches × W} {x : V}
    (h1 : h.valueWith m user s = (.ok x, s')) (h2 : h.valueWith m user s' = (.ok x, s')) :
    b.valueWith m user s = b.valueWith m user s' := by
  obtain ⟨g, e⟩ := hb
  rw [e, KuzToken.bind_ok h1, KuzToken.bind_ok h2]

theorem Leads.diverge {h b : Blk} (hb : Leads m h b) {user : Nat → Io (Caches × W) V} {s s' : Caches × W}
    (h1 : h.valueWith m user s = (.diverge, s')) : b.valueWith m user s = (.diverge, s') := by
  obtain ⟨g, e⟩ := hb
  rw [e, KuzToken.bind_diverge h1]

end Goost.Reenter
