import Verif.Spec.ScarceKuz
import Verif.Lemmas.KuzToken
import Verif.Lemmas.Scarce
/-
Helper lemmas: the 128-bit cipher on a machine that may run out of memory.
-/
namespace Goost.ScarceKuz
open Goost.Kuz (Caches sValue rValue incValue shiftValue)
open Goost.KuzLive (IterImpl)
open Goost.KuzToken (Blk Key ItCTR BlkRaw.zero BlkRaw.ofU64 BlkRaw.ofPair BlkEncrypted BlkL BlkIterKey.generate
  outside Key.ofBlocks view Inv Does Knows Ready askBoth V known Key.encryptStep)
open Goost.Scarce (alloc below UO.alloc UO.lift UO.pure UO.below UO.bind UO.lift_bind UO.below_bind)
open Spec Spec.Modes
variable {W ι α Q Q' : Type} {m : Machine} {base : Nat} {hi lo : Io W V} {H L : Blk W}

/-- `s'` is a state that is passed through while the block is evaluated from `s`. -/
def Passing (m : Machine) : Blk W → Caches × W → Caches × W → Prop
  | .raw _ _, s, s' => s' = s
  | .str _, s, s' => s' = s
  | .xored a b, s, s' => s' = s ∨ Passing m a s s' ∨ ∃ v t, a.value m s = (.ok v, t) ∧ Passing m b t s'
  | .blkS b, s, s' => s' = s ∨ Passing m b s s'
  | .blkR b, s, s' => s' = s ∨ Passing m b s s'
  | .incremented b, s, s' => s' = s ∨ Passing m b s s'
  | .shifted b _, s, s' => s' = s ∨ Passing m b s s'
  | .xoredIfHighBit a b, s, s' => s' = s ∨ Passing m a s s' ∨ ∃ v t, a.value m s = (.ok v, t) ∧
      (s' = t ∨ Passing m a t s' ∨ ∃ v' t', a.value m t = (.ok v', t') ∧ Passing m b t' s')
  | .cached id b, s, s' => s.1 id = none ∧ Passing m b s s'
  | .user _, s, s' => s' = s

theorem UO.mono {R R' : W → W → Prop} {x : Io (Nat × W) α} {y : Io W α} (h : UnlessOut R x y)
    (hR : ∀ w w', R w w' → R' w w') : UnlessOut R' x y := by
  intro w
  obtain ⟨N, h1, h2⟩ := h w
  exact ⟨N, h1, fun n hn => (h2 n hn).imp fun _ k => ⟨k.1, hR _ _ k.2⟩⟩

theorem UO.then {R R1 : W → W → Prop} {β : Type} {x : Io (Nat × W) α} {y : Io W α} (hx : UnlessOut R1 x y)
    (f : α → Exec β) (hR : ∀ w w', R1 w w' → R w w') :
    UnlessOut R (x >>= fun v => Io.lift (f v)) (y >>= fun v => Io.lift (f v)) :=
  UO.bind (R' := fun _ _ _ => False) hx (fun _ _ _ _ => UO.lift _ _) hR (fun _ _ _ _ _ h => h.elim)

theorem Blk_value_unless (m : Machine) (b : Blk W) :
    UnlessOut (Passing m b) (Blk.value m b) (b.value m) := by
  induction b with
  | raw l h => exact UO.alloc (R := Passing m (.raw l h)) (fun _ => rfl) (UO.pure _ _)
  | str s => exact UO.alloc (R := Passing m (.str s)) (fun _ => rfl) (UO.lift _ _)
  | user u => exact UO.alloc (R := Passing m (.user u)) (fun _ => rfl) (UO.below _ _)
  | blkS b ih => exact UO.alloc (R := Passing m (.blkS b)) (fun _ => .inl rfl) (UO.then ih _ fun _ _ => .inr)
  | blkR b ih => exact UO.alloc (R := Passing m (.blkR b)) (fun _ => .inl rfl) (UO.then ih _ fun _ _ => .inr)
  | incremented b ih =>
    exact UO.alloc (R := Passing m (.incremented b)) (fun _ => .inl rfl)
      (UO.then ih (fun v => .ok (incValue v)) fun _ _ => .inr)
  | shifted b n ih =>
    exact UO.alloc (R := Passing m (.shifted b n)) (fun _ => .inl rfl) (UO.then ih _ fun _ _ => .inr)
  | xored a b iha ihb =>
    refine UO.alloc (R := Passing m (.xored a b)) (fun _ => .inl rfl) ?_
    refine UO.bind (R' := fun _ => Passing m b) iha ?_ (fun _ _ h => .inr (.inl h))
      (fun w v w1 w2 h1 h2 => .inr (.inr ⟨v, w1, h1, h2⟩))
    intro w v w1 _
    exact UO.then ihb (fun vb => .ok (v.1 ^^^ vb.1, v.2 ^^^ vb.2)) (fun _ _ h => h)
  | xoredIfHighBit a b iha ihb =>
    refine UO.alloc (R := Passing m (.xoredIfHighBit a b)) (fun _ => .inl rfl) ?_
    refine UO.bind (R' := fun _ t s' => s' = t ∨ Passing m a t s' ∨
      ∃ v' t', a.value m t = (.ok v', t') ∧ Passing m b t' s') iha ?_ (fun _ _ h => .inr (.inl h))
      (fun w v w1 w2 h1 h2 => .inr (.inr ⟨v, w1, h1, h2⟩))
    intro w v w1 _
    refine UO.alloc (fun _ => .inl rfl) ?_
    split
    · exact UO.then iha _ fun _ _ h => .inr (.inl h)
    · refine UO.bind (R' := fun _ => Passing m b) iha ?_ (fun _ _ h => .inr (.inl h))
        (fun w v w1 w2 h1 h2 => .inr (.inr ⟨v, w1, h1, h2⟩))
      intro w v w1 _
      refine UO.lift_bind fun s _ => ?_
      exact UO.then ihb (fun vb => .ok (s.1 ^^^ vb.1, s.2 ^^^ vb.2)) (fun _ _ h => h)
  | cached id b ih =>
    intro s
    cases hc : s.1 id with
    | some v =>
      refine ⟨0, fun n => ?_, fun n h => by omega⟩
      simp only [Blk.value, KuzToken.Blk.value, hc, Nat.zero_add]
    | none =>
      obtain ⟨N, h1, h2⟩ := ih s
      refine ⟨N, fun n => ?_, fun n hn => ?_⟩
      · simp only [Blk.value, KuzToken.Blk.value, hc, h1]
        rcases KuzToken.Blk.value m b s with ⟨r, s'⟩
        cases r <;> rfl
      · obtain ⟨s', e, hr⟩ := h2 n hn
        refine ⟨s', ?_, hc, hr⟩
        simp only [Blk.value, hc, e]

/-! ### With both halves loaded -/

/-- With both halves loaded, what is passed through differs in derived round keys only. -/
def Held (m : Machine) (base : Nat) (B : Blk W) : Prop :=
  ∀ s s' h l, Inv m base s.1 → s.1 (base + 1) = some h → s.1 (base + 2) = some l → Passing m B s s' →
    view base s' = view base s ∧ Inv m base s'.1

theorem Held.same {B : Blk W} (h : ∀ s s', Passing m B s s' → s' = s) : Held m base B := by
  intro s s' a b hs _ _ hp
  rw [h s s' hp]
  exact ⟨rfl, hs⟩

theorem Held.raw (a b : W64) : Held m base (.raw a b : Blk W) := Held.same fun _ _ h => h

theorem Held.of {A B : Blk W} (hA : Held m base A) (h : ∀ s s', Passing m B s s' → s' = s ∨ Passing m A s s') :
    Held m base B := by
  intro s s' a b hs h1 h2 hp
  rcases h s s' hp with rfl | hp
  · exact ⟨rfl, hs⟩
  · exact hA s s' a b hs h1 h2 hp

theorem Held.blkS {A : Blk W} (h : Held m base A) : Held m base (.blkS A) := h.of fun _ _ h => h

theorem Held.transform (n : Nat) {A : Blk W} (h : Held m base A) : Held m base (KuzToken.BlkL.transform A n) := by
  induction n generalizing A with
  | zero => exact h
  | succ n ih => exact ih (A := .blkR A) (h.of fun _ _ h => h)

theorem Held.blkL {A : Blk W} (h : Held m base A) : Held m base (BlkL A) := h.transform 16

theorem Held.xored {A B : Blk W} {g : V → V → Kuz.Blk} (ha : Held m base A) (ka : Knows m base A g)
    (hb : Held m base B) : Held m base (.xored A B) := by
  intro s s' h l hs h1 h2 hp
  rcases hp with rfl | hp | ⟨v, t, e, hp⟩
  · exact ⟨rfl, hs⟩
  · exact ha s s' h l hs h1 h2 hp
  · obtain ⟨v', t', -, k2, k3, k4⟩ := ka s h l hs h1 h2
    rw [e] at k2
    cases k2
    obtain ⟨j1, j2⟩ := hb t s' h l k4 ((congrArg (·.1) k3).trans h1) ((congrArg (·.2.1) k3).trans h2) hp
    exact ⟨j1.trans k3, j2⟩

theorem Held.cached {A : Blk W} (id : Nat) (h : Held m base A) : Held m base (.cached id A) := by
  intro s s' a b hs h1 h2 hp
  exact h s s' a b hs h1 h2 hp.2

theorem Held.high : Held m base (.cached (base + 1) H) := by
  intro s s' a b hs h1 h2 hp
  have := hp.1
  rw [h1] at this
  cases this

theorem Held.low : Held m base (.cached (base + 2) L) := by
  intro s s' a b hs h1 h2 hp
  have := hp.1
  rw [h2] at this
  cases this

theorem Held.generate (hm : m.unalignedLoad = true) (c2 : Int) {A B : Blk W} {g g' : V → V → Kuz.Blk} (i : Int)
    (ha : Held m base A) (ka : Knows m base A g) (hb : Held m base B) (kb : Knows m base B g') :
    Held m base (BlkIterKey.generate c2 A B i) := by
  by_cases hi : i > c2
  · have e1 : BlkIterKey.generate c2 A B i = B := by rw [KuzToken.BlkIterKey.generate, if_pos hi]
    rw [e1]
    exact hb
  · have e1 : BlkIterKey.generate c2 A B i = BlkIterKey.generate c2 B
        (.xored A (BlkL (.blkS (.xored B (BlkL (BlkRaw.ofU64 (BitVec.ofInt 64 i))))))) (i + 1) := by
      rw [KuzToken.BlkIterKey.generate, if_neg hi]
    rw [e1]
    have hf : Held m base (BlkL (.blkS (.xored B (BlkL (BlkRaw.ofU64 (BitVec.ofInt 64 i)))))) :=
      ((hb.xored kb ((Held.raw _ _).blkL)).blkS).blkL
    have kf := ka.xored (((kb.xored ((Knows.raw (BitVec.ofInt 64 i) 0).blkL hm)).blkS).blkL hm)
    exact Held.generate hm c2 (i + 1) hb kb (ha.xored ka hf) kf
termination_by (c2 + 1 - i).toNat
decreasing_by omega

/-- The derived round keys. -/
theorem Held.key (hm : m.unalignedLoad = true) :
    let k := Key.ofBlocks H L base
    Held m base k.k3 ∧ Held m base k.k4 ∧ Held m base k.k5 ∧ Held m base k.k6 ∧ Held m base k.k7 ∧
      Held m base k.k8 ∧ Held m base k.k9 ∧ Held m base k.k10 := by
  intro k
  obtain ⟨n3, n4, n5, n6, n7, n8, n9, n10⟩ := Knows.key (H := H) (L := L) (base := base) hm
  have k3 : Held m base k.k3 := Held.cached _ (Held.generate hm 8 1 Held.low Knows.low Held.high Knows.high)
  have k4 : Held m base k.k4 := Held.cached _ (Held.generate hm 7 1 Held.low Knows.low Held.high Knows.high)
  have k5 : Held m base k.k5 := Held.cached _ (Held.generate hm 16 9 k4 n4 k3 n3)
  have k6 : Held m base k.k6 := Held.cached _ (Held.generate hm 15 9 k4 n4 k3 n3)
  have k7 : Held m base k.k7 := Held.cached _ (Held.generate hm 24 17 k6 n6 k5 n5)
  have k8 : Held m base k.k8 := Held.cached _ (Held.generate hm 23 17 k6 n6 k5 n5)
  have k9 : Held m base k.k9 := Held.cached _ (Held.generate hm 32 25 k8 n8 k7 n7)
  have k10 : Held m base k.k10 := Held.cached _ (Held.generate hm 31 25 k8 n8 k7 n7)
  exact ⟨k3, k4, k5, k6, k7, k8, k9, k10⟩

/-! ### In general -/

/-- What is passed through is related to the beginning by `C`. -/
def Cut (m : Machine) (base : Nat) (C : KeyMemory W → KeyMemory W → Prop) (B : Blk W) : Prop :=
  ∀ s s', Inv m base s.1 → Passing m B s s' → C (view base s) (view base s') ∧ Inv m base s'.1

theorem Cut.mono {C C' : KeyMemory W → KeyMemory W → Prop} {B : Blk W} (h : Cut m base C B)
    (hC : ∀ x y, C x y → C' x y) : Cut m base C' B :=
  fun s s' hs hp => ⟨hC _ _ (h s s' hs hp).1, (h s s' hs hp).2⟩

theorem Cut.same {B : Blk W} (h : ∀ s s', Passing m B s s' → s' = s) : Cut m base (fun x y => y = x) B := by
  intro s s' hs hp
  rw [h s s' hp]
  exact ⟨rfl, hs⟩

theorem Cut.of {C : KeyMemory W → KeyMemory W → Prop} {A B : Blk W} (hA : Cut m base C A) (hC : ∀ x, C x x)
    (h : ∀ s s', Passing m B s s' → s' = s ∨ Passing m A s s') : Cut m base C B := by
  intro s s' hs hp
  rcases h s s' hp with rfl | hp
  · exact ⟨hC _, hs⟩
  · exact hA s s' hs hp

theorem Cut.transform {C : KeyMemory W → KeyMemory W → Prop} (hC : ∀ x, C x x) (n : Nat) {A : Blk W}
    (h : Cut m base C A) : Cut m base C (KuzToken.BlkL.transform A n) := by
  induction n generalizing A with
  | zero => exact h
  | succ n ih => exact ih (A := .blkR A) (h.of hC fun _ _ h => h)

/-- The step of a round: the linear layer after the substitution. -/
theorem Cut.ls {C : KeyMemory W → KeyMemory W → Prop} (hC : ∀ x, C x x) {A : Blk W}
    (h : Cut m base C A) : Cut m base C (BlkL (.blkS A)) :=
  (h.of hC (B := .blkS A) fun _ _ h => h).transform hC 16

theorem Does.mid {P : Io (KeyMemory W) Q} {A : Blk W} {g : Q → Kuz.Blk} (h : Does m base P A g)
    {s t : Caches × W} {v : V} (hs : Inv m base s.1) (e : A.value m s = (.ok v, t)) :
    ∃ q, P (view base s) = (.ok q, view base t) ∧ Inv m base t.1 := by
  obtain ⟨h1, h2, h3⟩ := h s hs
  rcases hp : P (view base s) with ⟨r, mem⟩
  rw [hp] at h1 h3
  rw [e] at h1 h2 h3
  simp only at h1 h2
  cases r with
  | ok q => exact ⟨q, by rw [h1], h2⟩
  | throw x => cases h3
  | ub x => cases h3
  | diverge => cases h3

theorem Cut.xored {P : Io (KeyMemory W) Q} {A B : Blk W} {g : Q → Kuz.Blk}
    {C C' D : KeyMemory W → KeyMemory W → Prop} (da : Does m base P A g) (ha : Cut m base C A)
    (hb : Cut m base C' B) (h0 : ∀ x, D x x) (h1 : ∀ x y, C x y → D x y)
    (h2 : ∀ x q x1 y, P x = (.ok q, x1) → C' x1 y → D x y) : Cut m base D (.xored A B) := by
  intro s s' hs hp
  rcases hp with rfl | hp | ⟨v, t, e, hp⟩
  · exact ⟨h0 _, hs⟩
  · exact ⟨h1 _ _ (ha s s' hs hp).1, (ha s s' hs hp).2⟩
  · obtain ⟨q, e1, ht⟩ := Does.mid da hs e
    obtain ⟨k1, k2⟩ := hb t s' ht hp
    exact ⟨h2 _ _ _ _ e1 k1, k2⟩

theorem Cut.xored_held {P : Io (KeyMemory W) Q} {A B : Blk W} {g : Q → Kuz.Blk} {h l : Q → V}
    {C : KeyMemory W → KeyMemory W → Prop} (hr : Ready P h l) (da : Does m base P A g) (ha : Cut m base C A)
    (hb : Held m base B) (h0 : ∀ x, C x x) (h2 : ∀ x q x1, P x = (.ok q, x1) → C x x1) :
    Cut m base C (.xored A B) := by
  intro s s' hs hp
  rcases hp with rfl | hp | ⟨v, t, e, hp⟩
  · exact ⟨h0 _, hs⟩
  · exact ha s s' hs hp
  · obtain ⟨q, e1, ht⟩ := Does.mid da hs e
    obtain ⟨r1, r2⟩ := hr _ _ _ e1
    obtain ⟨k1, k2⟩ := hb t s' _ _ ht r1 r2 hp
    exact ⟨by rw [k1]; exact h2 _ _ _ e1, k2⟩

/-- While the block is evaluated, nothing happens before its effect. -/
class Brief (m : Machine) (H : Blk W) : Prop where
  same : ∀ s s', Passing m H s s' → s' = s

instance (x : Io W V) : Brief m (.user x) := ⟨fun _ _ h => h⟩

instance (s : List Char) : Brief (W := W) m (.str s) := ⟨fun _ _ h => h⟩

instance (a b : W64) : Brief (W := W) m (.raw a b) := ⟨fun _ _ h => h⟩

variable [KuzToken.Acts m H hi] [KuzToken.Acts m L lo] [Brief m H] [Brief m L]

/-- A block is evaluated, then the key is asked for. -/
def thenAsk (hi lo : Io W V) (P : Io (KeyMemory W) Q) (C : KeyMemory W → KeyMemory W → Prop)
    (x y : KeyMemory W) : Prop :=
  y = x ∨ C x y ∨ ∃ q x1, P x = (.ok q, x1) ∧ askedSome hi lo x1 y

theorem Cut.encrypt (hm : m.unalignedLoad = true) {P : Io (KeyMemory W) Q} {B : Blk W} {g : Q → Kuz.Blk}
    {C : KeyMemory W → KeyMemory W → Prop} (d : Does m base P B g) (h : Cut m base C B) :
    Cut m base (thenAsk hi lo P C) (BlkEncrypted B (Key.ofBlocks H L base)) := by
  have c0 : ∀ x, thenAsk hi lo P C x x := fun _ => .inl rfl
  have ch : Cut m base (fun x y : KeyMemory W => y = x) (Key.ofBlocks H L base).k1 :=
    Cut.same fun _ _ h => Brief.same _ _ h.2
  have cl : Cut m base (fun x y : KeyMemory W => y = x) (Key.ofBlocks H L base).k2 :=
    Cut.same fun _ _ h => Brief.same _ _ h.2
  have t1 : Cut m base (thenAsk hi lo P C)
      (Key.encryptStep B (Key.ofBlocks H L base).k1) :=
    Cut.ls c0 (Cut.xored d h ch c0 (fun _ _ h => .inr (.inl h)) fun x q x1 y e k =>
      .inr (.inr ⟨q, x1, e, .inl k⟩))
  have d1 : Does m base _ (Key.encryptStep B (Key.ofBlocks H L base).k1) _ :=
    (((d.xored (Does.high (hi := hi) (H := H))).blkS).blkL hm)
  have t2 : Cut m base (thenAsk hi lo P C)
      (Key.encryptStep (Key.encryptStep B (Key.ofBlocks H L base).k1)
        (Key.ofBlocks H L base).k2) := by
    refine Cut.ls c0 (Cut.xored d1 t1 cl c0 (fun _ _ h => h) fun x q x1 y e k => ?_)
    obtain ⟨q1, x2, e1, e⟩ := KuzToken.ok_of_bind e
    obtain ⟨h1, x3, e2, e⟩ := KuzToken.ok_of_bind e
    cases e
    exact .inr (.inr ⟨q1, x2, e1, .inr ⟨h1, x1, e2, .inl k⟩⟩)
  have d2 := ((d1.xored (Does.low (lo := lo) (L := L))).blkS).blkL hm
  have d2' := d2.of_map (P' := do let q ← P; let k ← askBoth hi lo; return (q, k))
    (fun q => ((q.1, q.2.1), q.2.2)) (by simp [askBoth])
  have hr := KuzToken.Ready_then (hi := hi) (lo := lo) P
  have last : ∀ x q x1, (do let q ← P; let k ← askBoth hi lo; return (q, k)) x = (.ok q, x1) →
      thenAsk hi lo P C x x1 := by
    intro x q x1 e
    obtain ⟨q1, x2, e1, e⟩ := KuzToken.ok_of_bind e
    obtain ⟨k, x3, e2, e⟩ := KuzToken.ok_of_bind e
    cases e
    obtain ⟨a, y1, f1, e2⟩ := KuzToken.ok_of_bind e2
    obtain ⟨b, y2, f2, e2⟩ := KuzToken.ok_of_bind e2
    cases e2
    exact .inr (.inr ⟨q1, x2, e1, .inr ⟨a, y1, f1, .inr ⟨b, f2⟩⟩⟩)
  obtain ⟨n3, n4, n5, n6, n7, n8, n9, n10⟩ := Knows.key (H := H) (L := L) (base := base) hm
  obtain ⟨k3, k4, k5, k6, k7, k8, k9, k10⟩ := Held.key (H := H) (L := L) (base := base) hm
  have step : ∀ {A K : Blk W} {g : Q × V × V → Kuz.Blk} {g' : V → V → Kuz.Blk},
      Does m base (do let q ← P; let k ← askBoth hi lo; return (q, k)) A g → Cut m base (thenAsk hi lo P C) A →
      Knows m base K g' → Held m base K →
      Does m base (do let q ← P; let k ← askBoth hi lo; return (q, k)) (Key.encryptStep A K)
        (fun q => Kuz.Key.encryptStep (g q) (g' q.2.1 q.2.2)) ∧
      Cut m base (thenAsk hi lo P C) (Key.encryptStep A K) := by
    intro A K g g' dA cA nK kK
    exact ⟨dA.step hm hr nK, Cut.ls c0 (Cut.xored_held hr dA cA kK c0 last)⟩
  obtain ⟨d3, c3⟩ := step d2' t2 n3 k3
  obtain ⟨d4, c4⟩ := step d3 c3 n4 k4
  obtain ⟨d5, c5⟩ := step d4 c4 n5 k5
  obtain ⟨d6, c6⟩ := step d5 c5 n6 k6
  obtain ⟨d7, c7⟩ := step d6 c6 n7 k7
  obtain ⟨d8, c8⟩ := step d7 c7 n8 k8
  obtain ⟨d9, c9⟩ := step d8 c8 n9 k9
  exact Cut.xored_held hr d9 c9 k10 c0 last

/-! ### Chains of blocks -/

theorem askedSome_refl (x : KeyMemory W) : askedSome hi lo x x := .inl rfl

theorem askedSome_both {x x1 : KeyMemory W} {q : V × V} (e : askBoth hi lo x = (.ok q, x1)) :
    askedSome hi lo x x1 := by
  obtain ⟨a, y1, f1, e⟩ := KuzToken.ok_of_bind e
  obtain ⟨b, y2, f2, e⟩ := KuzToken.ok_of_bind e
  cases e
  exact .inr ⟨a, y1, f1, .inr ⟨b, f2⟩⟩

theorem askedSome_known {x y : KeyMemory W} {h l : V} (h1 : x.1 = some h) (h2 : x.2.1 = some l)
    (k : askedSome hi lo x y) : y = x := by
  obtain ⟨a, b, w⟩ := x
  simp only at h1 h2
  subst h1 h2
  rcases k with rfl | ⟨h', x1, e, k⟩
  · rfl
  · rw [KuzToken.askHigh_known] at e
    cases e
    rcases k with rfl | ⟨l', e⟩
    · rfl
    · rw [KuzToken.askLow_known] at e
      cases e
      rfl

theorem Cut.held {B : Blk W} (h : Cut m base (askedSome hi lo) B) : Held m base B := by
  intro s s' a b hs h1 h2 hp
  obtain ⟨k1, k2⟩ := h s s' hs hp
  exact ⟨askedSome_known (x := view base s) h1 h2 k1, k2⟩

theorem Cut.raw (a b : W64) : Cut m base (askedSome hi lo) (.raw a b : Blk W) :=
  (Cut.same (B := .raw a b) fun _ _ h => h).mono fun _ _ h => .inl h

theorem Cut.chain (hm : m.unalignedLoad = true) {B : Blk W} {g : V → V → Kuz.Blk}
    (h : KuzToken.Stage m base hi lo B g) (c : Cut m base (askedSome hi lo) B) :
    Cut m base (askedSome hi lo) (BlkEncrypted B (Key.ofBlocks H L base)) := by
  rcases h with ⟨b, h, -⟩ | h
  · refine (Cut.encrypt (hi := hi) (lo := lo) (H := H) (L := L) hm h c).mono ?_
    rintro x y (h | h | ⟨q, x1, e, h⟩)
    · exact .inl h
    · exact h
    · cases e
      exact h
  · refine (Cut.encrypt (hi := hi) (lo := lo) (H := H) (L := L) hm h c).mono ?_
    rintro x y (h | h | ⟨q, x1, e, h⟩)
    · exact .inl h
    · exact h
    · obtain ⟨k1, k2⟩ := KuzToken.askBoth_loads e
      rw [askedSome_known k1 k2 h]
      exact askedSome_both e

theorem Cut.stage_xored {A B : Blk W} {g : V → V → Kuz.Blk} (h : KuzToken.Stage m base hi lo A g)
    (a : Cut m base (askedSome hi lo) A) (b : Cut m base (askedSome hi lo) B) :
    Cut m base (askedSome hi lo) (.xored A B) := by
  rcases h with ⟨_, h, -⟩ | h
  · refine Cut.xored h a b askedSome_refl (fun _ _ h => h) ?_
    intro x q x1 y e k
    cases e
    exact k
  · exact Cut.xored_held KuzToken.Ready_both h a b.held askedSome_refl fun _ _ _ e => askedSome_both e

theorem Cut.double {A : Blk W} {g : V → V → Kuz.Blk} (d : Does m base (askBoth hi lo) A (fun q => g q.1 q.2))
    (c : Cut m base (askedSome hi lo) A) (a b : W64) :
    Cut m base (askedSome hi lo) (.xoredIfHighBit A (.raw a b)) := by
  intro s s' hs hp
  rcases hp with rfl | hp | ⟨v, t, e, hp⟩
  · exact ⟨.inl rfl, hs⟩
  · exact c s s' hs hp
  · obtain ⟨q, e1, ht⟩ := Does.mid d hs e
    obtain ⟨r1, r2⟩ := KuzToken.askBoth_loads e1
    have last := askedSome_both e1
    rcases hp with rfl | hp | ⟨v', t', e', hp⟩
    · exact ⟨last, ht⟩
    · obtain ⟨k1, k2⟩ := c.held t s' _ _ ht r1 r2 hp
      exact ⟨by rw [k1]; exact last, k2⟩
    · obtain ⟨u, t2, -, k2, k3, k4⟩ := d.knows t _ _ ht r1 r2
      rw [e'] at k2
      cases k2
      have : s' = t' := hp
      subst this
      exact ⟨by rw [k3]; exact last, k4⟩

/-! ### Streams -/

theorem UO.deref {R : Caches × W → Caches × W → Prop} (p : Option ι) (f : ι → Io W α) :
    UnlessOut R (deref p f) (KuzToken.deref p f) := UO.below _ _

/-- The calls do not change the world. -/
def Quiet (it : IterImpl W ι) : Prop :=
  ∀ i w, (it.value i w).2 = w ∧ (it.last i w).2 = w ∧ (it.size i w).2 = w ∧ (it.next i w).2 = w

theorem deref_quiet {p : Option ι} {f : ι → Io W α} (hf : ∀ i w, (f i w).2 = w) (s : Caches × W) :
    (KuzToken.deref p f s).2 = s := by
  cases p with
  | none => rfl
  | some i =>
    show (outside (f i) s).2 = s
    simp only [outside]
    rcases e : f i s.2 with ⟨r, w⟩
    have := hf i s.2
    rw [e] at this
    simp only at this
    rw [this]

theorem shelf_quiet (n : Nat) : Quiet (shelf W n) := fun _ _ => ⟨rfl, rfl, rfl, rfl⟩

theorem UO.deref_bind {β : Type} {p : Option ι} {f : ι → Io W α} (hf : ∀ i w, (f i w).2 = w)
    {x : α → Io (Nat × (Caches × W)) β} {y : α → Io (Caches × W) β}
    (h : ∀ a, UnlessOut (fun s s' => s' = s) (x a) (y a)) :
    UnlessOut (fun s s' => s' = s) (ScarceKuz.deref p f >>= x) (KuzToken.deref p f >>= y) := by
  refine UO.bind (R1 := fun s s' => s' = s) (R' := fun _ s s' => s' = s) (UO.below _ _)
    (fun _ a _ _ => h a) (fun _ _ h => h) ?_
  intro s a s1 s2 e k
  have := deref_quiet (p := p) hf s
  rw [e] at this
  rw [k]
  exact this

theorem Imit_loop_unless {it : IterImpl W ι} (hq : Quiet it) (key : Key W) (fuel : Nat) (p : Option ι)
    (B : Blk W) :
    UnlessOut (fun s s' => s' = s) (Imit.loop it key fuel p B) (KuzToken.Imit.loop it key fuel p B) := by
  induction fuel generalizing p B with
  | zero => exact UO.lift _ _
  | succ n ih =>
    unfold Imit.loop KuzToken.Imit.loop
    refine UO.deref_bind (fun i w => (hq i w).2.1) fun l => ?_
    cases l with
    | true => exact UO.pure _ _
    | false =>
      simp only [Bool.not_false, if_true]
      refine UO.deref_bind (fun i w => (hq i w).1) fun v => ?_
      refine UO.alloc (R := fun s s' : Caches × W => s' = s) (fun _ => rfl) ?_
      exact UO.deref_bind (fun i w => (hq i w).2.2.2) fun p => ih p _

/-- Whatever the stream does. -/
theorem Imit_loop_any (it : IterImpl W ι) (key : Key W) (fuel : Nat) (p : Option ι) (B : Blk W) :
    UnlessOut (fun _ _ => True) (Imit.loop it key fuel p B) (KuzToken.Imit.loop it key fuel p B) := by
  induction fuel generalizing p B with
  | zero => exact UO.lift _ _
  | succ n ih =>
    unfold Imit.loop KuzToken.Imit.loop
    refine UO.below_bind (R' := fun _ _ _ => True) (fun l => ?_) (fun _ _ _ _ _ _ => trivial)
    cases l with
    | true => exact UO.pure _ _
    | false =>
      simp only [Bool.not_false, if_true]
      refine UO.below_bind (R' := fun _ _ _ => True) (fun v => ?_) (fun _ _ _ _ _ _ => trivial)
      refine UO.alloc (fun _ => trivial) ?_
      exact UO.below_bind (R' := fun _ _ _ => True) (fun p => ih p _) (fun _ _ _ _ _ _ => trivial)

theorem Imit_value_any (m : Machine) (it : IterImpl W ι) (start : Io W (Option ι)) (fuel : Nat) (key : Key W) :
    UnlessOut (fun _ _ => True) (Imit.value m it start fuel key) (KuzToken.Imit.value m it start fuel key) := by
  unfold Imit.value KuzToken.Imit.value
  refine UO.below_bind (R' := fun _ _ _ => True) (fun p => ?_) (fun _ _ _ _ _ _ => trivial)
  refine UO.alloc (fun _ => trivial) ?_
  refine UO.bind (R' := fun _ _ _ => True) (Imit_loop_any it key fuel p _) (fun _ a _ _ => ?_)
    (fun _ _ h => h) (fun _ _ _ _ _ _ => trivial)
  rcases a with ⟨B, j⟩
  simp only
  refine UO.alloc (fun _ => trivial) ?_
  refine UO.below_bind (R' := fun _ _ _ => True) (fun v => ?_) (fun _ _ _ _ _ _ => trivial)
  refine UO.alloc (fun _ => trivial) ?_
  refine UO.below_bind (R' := fun _ _ _ => True) (fun n => ?_) (fun _ _ _ _ _ _ => trivial)
  refine UO.alloc (fun _ => trivial) ?_
  split
  · exact UO.mono (Blk_value_unless m _) fun _ _ _ => trivial
  · exact UO.mono (Blk_value_unless m _) fun _ _ _ => trivial

theorem skip_unless {it : IterImpl W ι} (hq : Quiet it) (n : Nat) (i : ItCTR W ι) :
    UnlessOut (fun s s' => s' = s) (skipScarce it n i) (skip it n i) := by
  induction n generalizing i with
  | zero => exact UO.pure _ _
  | succ n ih =>
    unfold skipScarce skip
    refine UO.bind (R1 := fun s s' => s' = s) (R' := fun _ s s' => s' = s) ?_ (fun _ a _ _ => ih a)
      (fun _ _ h => h) ?_
    · unfold ItCTR.next KuzToken.ItCTR.next
      refine UO.alloc (R := fun s s' : Caches × W => s' = s) (fun _ => rfl) ?_
      refine UO.deref_bind (fun i w => (hq i w).2.2.2) fun p => ?_
      exact UO.alloc (R := fun s s' : Caches × W => s' = s) (fun _ => rfl) (UO.pure _ _)
    · intro s a s1 s2 e k
      rw [k]
      unfold KuzToken.ItCTR.next at e
      obtain ⟨p, s3, e1, e⟩ := KuzToken.ok_of_bind e
      cases e
      have := deref_quiet (p := i.iter) (f := it.next) (fun i w => (hq i w).2.2.2) s
      rw [e1] at this
      exact this

/-! ### Uses of a key -/

/-- What may be left behind. -/
def Leaves (m : Machine) (base : Nat) (C : KeyMemory W → KeyMemory W → Prop) (s s' : Caches × W) : Prop :=
  Inv m base s.1 → C (view base s) (view base s') ∧ Inv m base s'.1

theorem Leaves.same {C : KeyMemory W → KeyMemory W → Prop} (hC : ∀ x, C x x) {s s' : Caches × W} (h : s' = s) :
    Leaves m base C s s' := by
  subst h
  exact fun hs => ⟨hC _, hs⟩

theorem Cut.unless {C : KeyMemory W → KeyMemory W → Prop} {B : Blk W} (h : Cut m base C B) :
    UnlessOut (Leaves m base C) (Blk.value m B) (B.value m) :=
  UO.mono (Blk_value_unless m B) fun s s' hp hs => h s s' hs hp

theorem encrypt_unless (hm : m.unalignedLoad = true) (b : Io W V) :
    UnlessOut (Leaves m base (cutShort hi lo (.encrypt b)))
      (performScarce m (Key.ofBlocks H L base) (.encrypt b))
      (perform m (Key.ofBlocks H L base) (.encrypt b)) := by
  have c : Cut m base (fun x y : KeyMemory W => y = x) (.user b) := Cut.same fun _ _ h => h
  have := Cut.encrypt (hi := hi) (lo := lo) (H := H) (L := L) hm (Does.user (m := m) (base := base) b) c
  simp only [performScarce, perform]
  refine Cut.unless (this.mono ?_)
  rintro x y (h | h | h)
  · exact .inl h
  · exact .inl h
  · exact .inr h

theorem stepped_cut (iv : W64) (n : Nat) : Cut m base (askedSome hi lo) (KuzToken.stepped W iv n) := by
  induction n with
  | zero => exact Cut.raw 0 iv
  | succ n ih => exact ih.of askedSome_refl fun _ _ h => h

theorem ctr_unless (hm : m.unalignedLoad = true) (iv : W64) (before : List V) (block : V) (after : List V) :
    UnlessOut (Leaves m base (cutShort hi lo (.ctr iv before block after)))
      (performScarce m (Key.ofBlocks H L base) (.ctr iv before block after))
      (perform m (Key.ofBlocks H L base) (.ctr iv before block after)) := by
  have c0 : ∀ x : KeyMemory W, cutShort hi lo (.ctr iv before block after) x x := askedSome_refl
  simp only [performScarce, perform, StCTREncrypted.iter, KuzToken.StCTREncrypted.iter]
  simp only [bind_assoc]
  refine UO.alloc (fun _ => Leaves.same c0 rfl) ?_
  refine UO.below_bind (R' := fun a s s' => a = some (before ++ [block] ++ after) →
    Leaves m base (cutShort hi lo (.ctr iv before block after)) s s') ?_ ?_
  · intro a
    refine UO.alloc (fun _ _ => Leaves.same c0 rfl) ?_
    simp only [pure_bind]
    refine UO.bind (R' := fun i s s' => i = ⟨some (block :: after), Key.ofBlocks H L base,
      KuzToken.stepped W iv before.length⟩ → Leaves m base (cutShort hi lo (.ctr iv before block after)) s s')
      (skip_unless (shelf_quiet 16) before.length _) ?_ (fun _ _ h _ => Leaves.same c0 h) ?_
    · intro s i s1 e
      unfold ItCTR.value KuzToken.ItCTR.value
      refine UO.alloc (fun _ _ => Leaves.same c0 rfl) ?_
      refine UO.below_bind (R' := fun _ s s' => i = ⟨some (block :: after), Key.ofBlocks H L base,
        KuzToken.stepped W iv before.length⟩ → Leaves m base (cutShort hi lo (.ctr iv before block after)) s s')
        ?_ ?_
      · intro p
        refine UO.then (R1 := Passing m (BlkEncrypted i.ctr i.key)) (Blk_value_unless m _)
          (fun g => .ok (p.1 ^^^ g.1, p.2 ^^^ g.2)) ?_
        intro s s' hp hi' hs
        subst hi'
        have st : KuzToken.Stage m base hi lo (KuzToken.stepped W iv before.length)
            (fun _ _ => KuzToken.steppedK iv before.length) :=
          .inl ⟨_, Does.stepped iv before.length, rfl⟩
        exact Cut.chain hm st (stepped_cut iv before.length) s s' hs hp
      · intro s a s1 s2 e h hi'
        have := deref_quiet (p := i.iter) (f := (shelf W 16).value) (fun i w => (shelf_quiet 16 i w).1) s
        rw [e] at this
        simp only at this
        rw [← this]
        exact h hi'
    · intro s i s1 s2 e h ha
      subst ha
      have h2 := KuzToken.skip_shelf 16 (Key.ofBlocks H L base) iv before (block :: after) 0 s
      rw [Nat.zero_add] at h2
      rw [List.append_assoc] at e
      have e' := e.symm.trans h2
      cases e'
      exact h rfl
  · intro s a s1 s2 e h
    cases e
    exact h rfl

/-- The loop over a message in memory. -/
theorem loop_cut (hm : m.unalignedLoad = true) (n : Nat) (p : List V) (v : V) (fuel : Nat) (hf : p.length < fuel)
    {B : Blk W} {g : V → V → Kuz.Blk} (hB : KuzToken.Stage m base hi lo B g) (cB : Cut m base (askedSome hi lo) B) :
    ∃ B' g', KuzToken.Stage m base hi lo B' g' ∧ Cut m base (askedSome hi lo) B' ∧ ∀ s,
      KuzToken.Imit.loop (shelf W n) (Key.ofBlocks H L base) fuel (some (p ++ [v])) B s =
        (.ok (B', some [v]), s) := by
  induction p generalizing fuel B g with
  | nil =>
    obtain ⟨fuel, rfl⟩ : ∃ k, fuel = k + 1 := ⟨fuel - 1, by simp at hf; omega⟩
    exact ⟨B, g, hB, cB, fun _ => rfl⟩
  | cons x p ih =>
    obtain ⟨fuel, rfl⟩ : ∃ k, fuel = k + 1 := ⟨fuel - 1, by simp at hf; omega⟩
    obtain ⟨B', g', h1, h2, h3⟩ := ih fuel (by simp at hf; omega)
      (B := BlkEncrypted (.xored B (BlkRaw.ofPair x)) (Key.ofBlocks H L base))
      (g := fun h l => Kuz.BlkEncrypted (.xored (g h l) (.raw x.1 x.2)) (known base h l))
      (.inr (KuzToken.Stage.encrypt (g := fun h l => .xored (g h l) (.raw x.1 x.2)) hm (hB.xored_raw x.1 x.2)))
      (Cut.chain hm (hB.xored_raw x.1 x.2) (Cut.stage_xored hB cB (Cut.raw x.1 x.2)))
    refine ⟨B', g', h1, h2, fun s => ?_⟩
    unfold KuzToken.Imit.loop
    have e1 : KuzToken.deref (some (x :: p ++ [v])) (shelf W n).last s = (.ok false, s) := by
      simp [KuzToken.deref, outside, shelf, pure]
    rw [KuzToken.bind_ok e1]
    simp only [Bool.not_false, if_true]
    have e2 : KuzToken.deref (some (x :: p ++ [v])) (shelf W n).value s = (.ok x, s) := rfl
    have e3 : KuzToken.deref (some (x :: p ++ [v])) (shelf W n).next s = (.ok (some (p ++ [v])), s) := rfl
    rw [KuzToken.bind_ok e2, KuzToken.bind_ok e3]
    exact h3 s

theorem mac_unless (hm : m.unalignedLoad = true) (p : List V) (v : V) (n : Nat) :
    UnlessOut (Leaves m base (cutShort hi lo (.mac p v n)))
      (performScarce m (Key.ofBlocks H L base) (.mac p v n))
      (perform m (Key.ofBlocks H L base) (.mac p v n)) := by
  have c0 : ∀ x : KeyMemory W, cutShort hi lo (.mac p v n) x x := askedSome_refl
  obtain ⟨B', g', h1, h2, h3⟩ := loop_cut (hi := hi) (lo := lo) (H := H) (L := L) (base := base) hm n p v (p.length + 1) (by omega)
    (KuzToken.Stage.raw 0 0) (Cut.raw 0 0)
  have d0 := (KuzToken.Stage.raw (m := m) (base := base) (hi := hi) (lo := lo) 0 0).encrypt (H := H) (L := L) hm
  have x0 := Cut.chain (hi := hi) (lo := lo) (H := H) (L := L) (base := base) hm (KuzToken.Stage.raw 0 0) (Cut.raw 0 0)
  have k1 := Does.double (g := fun h l => Kuz.BlkEncrypted (.raw 0 0) (known base h l)) d0 0x87 0
  have x1 := Cut.double (g := fun h l => Kuz.BlkEncrypted (.raw 0 0) (known base h l)) d0 x0 0x87 0
  have x2 := Cut.double (g := fun h l => .xoredIfHighBit (Kuz.BlkEncrypted (.raw 0 0) (known base h l))
    (.raw 0x87 0)) k1 x1 0x87 0
  have k2 := Does.double (g := fun h l => .xoredIfHighBit (Kuz.BlkEncrypted (.raw 0 0) (known base h l))
    (.raw 0x87 0)) k1 0x87 0
  have st := h1.xored_raw v.1 v.2
  have sc := Cut.stage_xored h1 h2 (Cut.raw v.1 v.2)
  simp only [performScarce, perform, Imit.value, KuzToken.Imit.value]
  refine UO.below_bind (R' := fun a s s' => a = some (p ++ [v]) →
    Leaves m base (cutShort hi lo (.mac p v n)) s s') ?_ ?_
  · intro a
    refine UO.alloc (fun _ _ => Leaves.same c0 rfl) ?_
    refine UO.bind (R' := fun r s s' => r = (B', some [v]) → Leaves m base (cutShort hi lo (.mac p v n)) s s')
      (Imit_loop_unless (shelf_quiet n) _ _ _ _) ?_ (fun _ _ h _ => Leaves.same c0 h) ?_
    · intro s r s1 _
      rcases r with ⟨B, j⟩
      simp only
      refine UO.alloc (fun _ _ => Leaves.same c0 rfl) ?_
      refine UO.below_bind (R' := fun u s s' => u = v → (B, j) = (B', some [v]) →
        Leaves m base (cutShort hi lo (.mac p v n)) s s') ?_ ?_
      · intro u
        refine UO.alloc (fun _ _ _ => Leaves.same c0 rfl) ?_
        refine UO.below_bind (R' := fun _ s s' => u = v → (B, j) = (B', some [v]) →
          Leaves m base (cutShort hi lo (.mac p v n)) s s') ?_ ?_
        · intro k
          refine UO.alloc (fun _ _ _ => Leaves.same c0 rfl) ?_
          split
          · refine UO.mono (Blk_value_unless m _) ?_
            intro s s' hp hu hB hs
            cases hB
            subst hu
            exact Cut.chain (g := fun h l => .xored (.xored (g' h l) (.raw u.1 u.2))
              (.xoredIfHighBit (Kuz.BlkEncrypted (.raw 0 0) (known base h l)) (.raw 0x87 0))) hm
              (.inr (KuzToken.Stage.xored (g := fun h l => .xored (g' h l) (.raw u.1 u.2))
              (g' := fun h l => .xoredIfHighBit (Kuz.BlkEncrypted (.raw 0 0) (known base h l)) (.raw 0x87 0))
              st k1)) (Cut.stage_xored st sc x1) s s' hs hp
          · refine UO.mono (Blk_value_unless m _) ?_
            intro s s' hp hu hB hs
            cases hB
            subst hu
            exact Cut.chain (g := fun h l => .xored (.xored (g' h l) (.raw u.1 u.2))
              (.xoredIfHighBit (.xoredIfHighBit (Kuz.BlkEncrypted (.raw 0 0) (known base h l)) (.raw 0x87 0))
                (.raw 0x87 0))) hm
              (.inr (KuzToken.Stage.xored (g := fun h l => .xored (g' h l) (.raw u.1 u.2))
              (g' := fun h l => .xoredIfHighBit (.xoredIfHighBit (Kuz.BlkEncrypted (.raw 0 0) (known base h l))
                (.raw 0x87 0)) (.raw 0x87 0)) st k2)) (Cut.stage_xored st sc x2) s s' hs hp
        · intro s a s1 s2 e h
          have := deref_quiet (p := j) (f := (shelf W n).size) (fun i w => (shelf_quiet n i w).2.2.1) s
          rw [e] at this
          simp only at this
          rw [← this]
          exact h
      · intro s a s1 s2 e h hB
        cases hB
        cases e
        exact h rfl rfl
    · intro s r s1 s2 e h ha
      subst ha
      have := (h3 s).symm.trans e
      cases this
      exact h rfl
  · intro s a s1 s2 e h
    cases e
    exact h rfl

theorem use_unless (hm : m.unalignedLoad = true) (u : KeyUse W) :
    UnlessOut (Leaves m base (cutShort hi lo u)) (performScarce m (Key.ofBlocks H L base) u)
      (perform m (Key.ofBlocks H L base) u) := by
  cases u with
  | encrypt b => exact encrypt_unless hm b
  | ctr iv before block after => exact ctr_unless hm iv before block after
  | mac p v n => exact mac_unless hm p v n

/-- One attempt. -/
theorem attempt_result (hm : m.unalignedLoad = true) (u : KeyUse W) (s : Caches × W) (hs : Inv m base s.1) :
    ∃ N, ∀ n, let x := attempt m (Key.ofBlocks H L base) (n, u) s
      Inv m base x.2.1 ∧
      (N ≤ n → x.1 = (ideal hi lo u (view base s)).1 ∧ view base x.2 = (ideal hi lo u (view base s)).2) ∧
      (n < N → x.1 = .throw .badAlloc ∧ cutShort hi lo u (view base s) (view base x.2)) := by
  obtain ⟨N, h1, h2⟩ := use_unless (hi := hi) (lo := lo) (H := H) (L := L) (base := base) hm u s
  obtain ⟨k1, k2, k3⟩ := KuzToken.Meets.use (hi := hi) (lo := lo) (H := H) (L := L) (base := base) hm u s hs
  refine ⟨N, fun n => ?_⟩
  by_cases hn : n < N
  · obtain ⟨s', e, hr⟩ := h2 n hn
    obtain ⟨r1, r2⟩ := hr hs
    simp only [attempt, e]
    exact ⟨r2, fun h => by omega, fun _ => ⟨trivial, r1⟩⟩
  · have e := h1 (n - N)
    rw [Nat.add_sub_cancel' (by omega)] at e
    simp only [attempt, e]
    exact ⟨k3, fun _ => ⟨k1, k2⟩, fun h => absurd h hn⟩

theorem attempts (hm : m.unalignedLoad = true) (us : List (Nat × KeyUse W)) (s : Caches × W)
    (hs : Inv m base s.1) :
    let x := runCalls (attempt m (Key.ofBlocks H L base)) us s
    mayResult hi lo (us.map (·.2)) (view base s) x.1 (view base x.2) ∧ Inv m base x.2.1 := by
  induction us generalizing s with
  | nil => exact ⟨⟨rfl, rfl⟩, hs⟩
  | cons u us ih =>
    obtain ⟨n, u⟩ := u
    obtain ⟨N, h⟩ := attempt_result (hi := hi) (lo := lo) (H := H) (L := L) (base := base) hm u s hs
    obtain ⟨h1, h2, h3⟩ := h n
    obtain ⟨k1, k2⟩ := ih _ h1
    simp only [runCalls, List.map_cons, mayResult]
    refine ⟨⟨_, _, _, rfl, ?_, k1⟩, k2⟩
    by_cases hn : n < N
    · exact .inr (h3 hn)
    · obtain ⟨e1, e2⟩ := h2 (by omega)
      exact .inl (Prod.ext e1.symm e2.symm)

/-! ### Keys that do not change -/

/-- What is known is `h` and `l`. -/
def Agrees (h l : V) (x : KeyMemory W) : Prop := (x.1 = none ∨ x.1 = some h) ∧ (x.2.1 = none ∨ x.2.1 = some l)

theorem askHigh_agrees {h l : V} {x : KeyMemory W} (hx : Agrees h l x) :
    askHigh (pure h) x = (.ok h, (some h, x.2)) := by
  obtain ⟨a, b, w⟩ := x
  rcases hx.1 with e | e <;> (simp only at e; subst e; rfl)

theorem askLow_agrees {h l : V} {x : KeyMemory W} (hx : Agrees h l x) :
    askLow (pure l) x = (.ok l, (x.1, some l, x.2.2)) := by
  obtain ⟨a, b, w⟩ := x
  rcases hx.2 with e | e <;> (simp only at e; subst e; rfl)

theorem askKey_agrees {h l : V} {x : KeyMemory W} (hx : Agrees h l x) :
    askKey (pure h) (pure l) x = (.ok (join64 h ++ join64 l), (some h, some l, x.2.2)) := by
  unfold askKey
  rw [KuzToken.bind_ok (askHigh_agrees hx)]
  have h1 : Agrees h l (some h, x.2) := ⟨.inr rfl, hx.2⟩
  rw [KuzToken.bind_ok (askLow_agrees h1)]
  rfl

theorem ideal_agrees {h l : V} (u : KeyUse W) {x : KeyMemory W} (hx : Agrees h l x) :
    (ideal (pure h) (pure l) u x).1 = (kuzResult (join64 h ++ join64 l) u x.2.2).1 ∧
    (ideal (pure h) (pure l) u x).2.2.2 = (kuzResult (join64 h ++ join64 l) u x.2.2).2 ∧
    Agrees h l (ideal (pure h) (pure l) u x).2 := by
  have full : Agrees h l (some h, some l, x.2.2) := ⟨.inr rfl, .inr rfl⟩
  cases u with
  | encrypt b =>
    simp only [ideal, kuzResult]
    rcases e : b x.2.2 with ⟨r, w⟩
    have eb : besides b x = (r, (x.1, x.2.1, w)) := by simp only [besides, e]
    have f : Agrees h l (x.1, x.2.1, w) := hx
    cases r with
    | ok v =>
      rw [KuzToken.bind_ok eb, KuzToken.bind_ok (askKey_agrees f), KuzToken.bind_ok e]
      exact ⟨rfl, rfl, .inr rfl, .inr rfl⟩
    | throw t => rw [bind_run_throw eb, bind_run_throw e]; exact ⟨rfl, rfl, f⟩
    | ub t => rw [bind_run_ub eb, bind_run_ub e]; exact ⟨rfl, rfl, f⟩
    | diverge => rw [KuzToken.bind_diverge eb, KuzToken.bind_diverge e]; exact ⟨rfl, rfl, f⟩
  | ctr iv before block after =>
    simp only [ideal, kuzResult]
    rw [KuzToken.bind_ok (askKey_agrees hx)]
    exact ⟨rfl, rfl, full⟩
  | mac p v n =>
    simp only [ideal, kuzResult]
    rw [KuzToken.bind_ok (askKey_agrees hx)]
    exact ⟨rfl, rfl, full⟩

theorem askedSome_agrees {h l : V} {x y : KeyMemory W} (hx : Agrees h l x)
    (hy : askedSome (pure h) (pure l) x y) : y.2.2 = x.2.2 ∧ Agrees h l y := by
  rcases hy with rfl | ⟨a, x1, e1, hy⟩
  · exact ⟨rfl, hx⟩
  · rw [askHigh_agrees hx] at e1
    cases e1
    have h1 : Agrees h l (some h, x.2) := ⟨.inr rfl, hx.2⟩
    rcases hy with rfl | ⟨b, e2⟩
    · exact ⟨rfl, h1⟩
    · rw [askLow_agrees h1] at e2
      cases e2
      exact ⟨rfl, .inr rfl, .inr rfl⟩

theorem cutShort_agrees {h l : V} {u : KeyUse W} {x y : KeyMemory W} (hx : Agrees h l x)
    (hy : cutShort (pure h) (pure l) u x y) : atMostRead u x.2.2 y.2.2 ∧ Agrees h l y := by
  cases u with
  | encrypt b =>
    rcases hy with rfl | ⟨v, x1, e, hy⟩
    · exact ⟨.inl rfl, hx⟩
    · rcases eb : b x.2.2 with ⟨r, w⟩
      simp only [besides, eb] at e
      cases e
      obtain ⟨k1, k2⟩ := askedSome_agrees (x := (x.1, x.2.1, w)) hx hy
      exact ⟨.inr ⟨v, by rw [k1]; exact eb⟩, k2⟩
  | ctr iv before block after => exact askedSome_agrees hx hy
  | mac p v n => exact askedSome_agrees hx hy

theorem mayResult_agrees {h l : V} (us : List (KeyUse W)) {x y : KeyMemory W} {rs : List (Exec V)}
    (hx : Agrees h l x) (hy : mayResult (pure h) (pure l) us x rs y) : Agrees h l y := by
  induction us generalizing x rs with
  | nil => rw [hy.2]; exact hx
  | cons u us ih =>
    obtain ⟨r, z, rs', -, h1, h2⟩ := hy
    refine ih ?_ h2
    rcases h1 with e | ⟨-, e⟩
    · have := (ideal_agrees u hx).2.2
      rw [e] at this
      exact this
    · exact (cutShort_agrees hx e).2

/-- A text key. -/
theorem ofString_halves (m : Machine) {s : List Char} (hs : IsHex s) (hl : s.length = 64) (base : Nat) :
    ∃ h l, KuzToken.Key.ofString (W := W) s base =
        .ok (Key.ofBlocks (.str (s.take 32)) (.str ((s.drop 32).take 32)) base) ∧
      (Kuz.Blk.str (s.take 32)).value m = .ok h ∧ (Kuz.Blk.str ((s.drop 32).take 32)).value m = .ok l ∧
      join64 h ++ join64 l = BitVec.ofNat 256 (hexNat s) := by
  obtain ⟨h, h1, h2⟩ := Kuz.str_value m (s := s.take 32) (hs.take _) (by simp; omega)
  obtain ⟨l, l1, l2⟩ := Kuz.str_value m (s := (s.drop 32).take 32) ((hs.drop _).take _) (by simp; omega)
  refine ⟨h, l, ?_, h1, l1, ?_⟩
  · simp [KuzToken.Key.ofString, substr, show 32 ≤ s.length by omega]
  · rw [h2, l2]
    exact key_of_halves hl

/-- A text of digits answers always the same. -/
theorem acts_text {m : Machine} {s : List Char} {h : V} (e : (Kuz.Blk.str s).value m = .ok h) :
    KuzToken.Acts (W := W) m (.str s) (pure h) := by
  constructor
  have : KuzToken.Acts (W := W) m (.str s) (Io.lift ((Kuz.Blk.str s).value m)) := inferInstance
  rw [this.eq, e]
  rfl

theorem any_bind {β : Type} {x : Io (Nat × W) α} {y : Io W α} {f : α → Io (Nat × W) β} {g : α → Io W β}
    (hx : UnlessOut (fun _ _ => True) x y) (h : ∀ a, UnlessOut (fun _ _ => True) (f a) (g a)) :
    UnlessOut (fun _ _ => True) (x >>= f) (y >>= g) :=
  UO.bind (R' := fun _ _ _ => True) hx (fun _ a _ _ => h a) (fun _ _ h => h) (fun _ _ _ _ _ _ => trivial)

theorem ItCTR_value_any (m : Machine) (it : IterImpl W ι) (i : ItCTR W ι) :
    UnlessOut (fun _ _ => True) (ItCTR.value m it i) (KuzToken.ItCTR.value m it i) := by
  unfold ItCTR.value KuzToken.ItCTR.value
  refine UO.alloc (fun _ => trivial) (any_bind (UO.below _ _) fun p => ?_)
  exact any_bind (UO.mono (Blk_value_unless m _) fun _ _ _ => trivial) fun g => UO.pure _ _

theorem ItCTR_next_any (it : IterImpl W ι) (i : ItCTR W ι) :
    UnlessOut (fun _ _ => True) (ItCTR.next it i) (KuzToken.ItCTR.next it i) := by
  unfold ItCTR.next KuzToken.ItCTR.next
  refine UO.alloc (fun _ => trivial) (any_bind (UO.below _ _) fun p => ?_)
  exact UO.alloc (fun _ => trivial) (UO.pure _ _)

theorem skip_any (it : IterImpl W ι) (n : Nat) (i : ItCTR W ι) :
    UnlessOut (fun _ _ => True) (skipScarce it n i) (skip it n i) := by
  induction n generalizing i with
  | zero => exact UO.pure _ _
  | succ n ih =>
    unfold skipScarce skip
    exact any_bind (ItCTR_next_any it i) fun i => ih i

theorem iter_any (start : Io W (Option ι)) (key : Key W) (iv : W64) :
    UnlessOut (fun _ _ => True) (StCTREncrypted.iter start key iv) (KuzToken.StCTREncrypted.iter start key iv) := by
  unfold StCTREncrypted.iter KuzToken.StCTREncrypted.iter
  refine UO.alloc (fun _ => trivial) (any_bind (UO.below _ _) fun p => ?_)
  exact UO.alloc (fun _ => trivial) (UO.pure _ _)

end Goost.ScarceKuz
