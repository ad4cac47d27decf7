import Verif.Lemmas.Views
import Verif.Lemmas.Blocks
import Mathlib.Data.List.Forall2
/-
Helper lemmas for C127: the invariant of a program.
-/
namespace Goost.Views
open Goost.KuzToken (Blk Key)
open Goost.Kuz (Caches)
open Spec Spec.Views

variable {m : Machine} {start : Cells} {p : List Step}

/-! ### Objects of a program -/

/-- The objects that the steps from the moment `t` on make. -/
def objectsFrom (t : Nat) (p : List Step) : List (How × Nat) :=
  (p.zipIdx t).filterMap fun
    | (.make how, t) => some (how, t)
    | _ => none

/-- The calls of `value()` from the moment `t` on. -/
def askedFrom (t : Nat) (p : List Step) : List (Nat × Nat) :=
  (p.zipIdx t).filterMap fun
    | (.ask i, t) => some (i, t)
    | _ => none

theorem objects_append (pre rest : List Step) : objects (pre ++ rest) = objects pre ++ objectsFrom pre.length rest := by
  simp only [objects, objectsFrom, List.zipIdx_append, List.filterMap_append, Nat.zero_add]
  rfl

theorem objects_make (pre : List Step) (how : How) : objects (pre ++ [.make how]) = objects pre ++ [(how, pre.length)] := by
  rw [objects_append]; rfl

theorem objects_ask (pre : List Step) (i : Nat) : objects (pre ++ [.ask i]) = objects pre := by
  rw [objects_append]; simp [objectsFrom]

theorem objects_change (pre : List Step) (c : Nat) (v : V) : objects (pre ++ [.change c v]) = objects pre := by
  rw [objects_append]; simp [objectsFrom]

theorem getElem?_prefix {α : Type} {a b : List α} {i : Nat} {x : α} (h : a[i]? = some x) : (a ++ b)[i]? = some x := by
  obtain ⟨hl, -⟩ := List.getElem?_eq_some_iff.1 h
  rw [List.getElem?_append_left hl, h]

/-! ### What rests on what -/

/-- The object `j` has a cache with the identity `16 * j + r`. -/
def SlotOf (p : List Step) (j r : Nat) : Prop :=
  (∃ a t, (objects p)[j]? = some (.cached a, t) ∧ r = 0) ∨ (∃ h l t, (objects p)[j]? = some (.key h l, t) ∧ 1 ≤ r ∧ r ≤ 10)

theorem SlotOf.lt {j r : Nat} (h : SlotOf p j r) : r < 16 := by
  rcases h with ⟨_, _, _, h⟩ | ⟨_, _, _, _, _, h⟩ <;> omega

/-- The caches of what the object `i` rests on. -/
def Below (p : List Step) (i id : Nat) : Prop := ∃ j r, id = 16 * j + r ∧ SlotOf p j r ∧ RestsOn p i j

theorem _root_.Spec.Views.RestsOn.trans {i j k : Nat} (h : RestsOn p i j) (h' : RestsOn p j k) : RestsOn p i k := by
  induction h with
  | self => exact h'
  | through e hc ha _ ih => exact .through e hc ha (ih h')

theorem below_iff {i t : Nat} {how : How} (e : (objects p)[i]? = some (how, t)) (id : Nat) :
    Below p i id ↔ (∃ r, id = 16 * i + r ∧ SlotOf p i r) ∨
      ((∀ x, how ≠ .copy x) ∧ ∃ a, a ∈ how.blocks ++ how.keys ∧ Below p a id) := by
  constructor
  · rintro ⟨j, r, rfl, hs, hr⟩
    cases hr with
    | self => exact .inl ⟨r, rfl, hs⟩
    | through e' hc ha h =>
      rw [e] at e'
      cases e'
      exact .inr ⟨hc, _, ha, j, r, rfl, hs, h⟩
  · rintro (⟨r, rfl, hs⟩ | ⟨hc, a, ha, j, r, rfl, hs, hr⟩)
    · exact ⟨i, r, rfl, hs, .self i⟩
    · exact ⟨j, r, rfl, hs, .through e hc ha hr⟩

/-- The object has been used before. -/
def UsedBefore (p : List Step) (j t : Nat) : Prop := ∃ s, s < t ∧ Uses p s j

theorem firstUse_now {j t : Nat} (h : ¬ UsedBefore p j t) : FirstUse p j t t :=
  ⟨Nat.le_refl t, fun s hs hu => h ⟨s, hs, hu⟩, .inl rfl⟩

/-- The moment of the first use, in the past. -/
def First (p : List Step) (j u : Nat) : Prop := Uses p u j ∧ ∀ s, s < u → ¬ Uses p s j

theorem First.firstUse {j t u : Nat} (h : First p j u) (hu : u < t) : FirstUse p j t u := ⟨Nat.le_of_lt hu, h.2, .inr h.1⟩

/-! ### The invariant -/

/-- The object number `i` is as it has been made. -/
def Built (start : Cells) (p : List Step) (o : List Obj) (i : Nat) (how : How) (t : Nat) : Prop :=
  match how with
  | .own c => o[i]? = some (.block (.user (look c)))
  | .fixed v => o[i]? = some (.block (.raw v.1 v.2))
  | .copy a => ∃ v : V, o[i]? = some (.block (.raw v.1 v.2)) ∧ Shows start p a t (join64 v)
  | .cached a => a < i ∧ ∃ b, o[a]? = some (.block b) ∧ o[i]? = some (.block (.cached (16 * i) b))
  | .xored a b => a < i ∧ b < i ∧ ∃ x y, o[a]? = some (.block x) ∧ o[b]? = some (.block y) ∧
      o[i]? = some (.block (.xored x y))
  | .substituted a => a < i ∧ ∃ b, o[a]? = some (.block b) ∧ o[i]? = some (.block (.blkS b))
  | .mixed a => a < i ∧ ∃ b, o[a]? = some (.block b) ∧ o[i]? = some (.block (KuzToken.BlkL b))
  | .rotated a => a < i ∧ ∃ b, o[a]? = some (.block b) ∧ o[i]? = some (.block (.blkR b))
  | .shifted a n => (1 ≤ n ∧ n ≤ 63) ∧ a < i ∧ ∃ b, o[a]? = some (.block b) ∧ o[i]? = some (.block (.shifted b n))
  | .next a => a < i ∧ ∃ b, o[a]? = some (.block b) ∧ o[i]? = some (.block (.incremented b))
  | .key h l => h < i ∧ l < i ∧ ∃ x y, o[h]? = some (.block x) ∧ o[l]? = some (.block y) ∧
      o[i]? = some (.key (Key.ofBlocks x y (16 * i)))
  | .encrypted b k => b < i ∧ k < i ∧ (∃ h l t', (objects p)[k]? = some (.key h l, t')) ∧ ∃ x K, o[b]? = some (.block x) ∧
      o[k]? = some (.key K) ∧ o[i]? = some (.block (KuzToken.BlkEncrypted x K))

theorem Built.append {o : List Obj} {i t : Nat} {how : How} (h : Built start p o i how t) (x : List Obj) :
    Built start p (o ++ x) i how t := by
  cases how with
  | own c => exact getElem?_prefix h
  | fixed v => exact getElem?_prefix h
  | copy a => obtain ⟨v, h1, h2⟩ := h; exact ⟨v, getElem?_prefix h1, h2⟩
  | cached a => obtain ⟨hi, b, h1, h2⟩ := h; exact ⟨hi, b, getElem?_prefix h1, getElem?_prefix h2⟩
  | substituted a => obtain ⟨hi, b, h1, h2⟩ := h; exact ⟨hi, b, getElem?_prefix h1, getElem?_prefix h2⟩
  | mixed a => obtain ⟨hi, b, h1, h2⟩ := h; exact ⟨hi, b, getElem?_prefix h1, getElem?_prefix h2⟩
  | rotated a => obtain ⟨hi, b, h1, h2⟩ := h; exact ⟨hi, b, getElem?_prefix h1, getElem?_prefix h2⟩
  | shifted a n => obtain ⟨hn, hi, b, h1, h2⟩ := h; exact ⟨hn, hi, b, getElem?_prefix h1, getElem?_prefix h2⟩
  | next a => obtain ⟨hi, b, h1, h2⟩ := h; exact ⟨hi, b, getElem?_prefix h1, getElem?_prefix h2⟩
  | xored a b =>
    obtain ⟨hi, hj, x, y, h1, h2, h3⟩ := h
    exact ⟨hi, hj, x, y, getElem?_prefix h1, getElem?_prefix h2, getElem?_prefix h3⟩
  | key a b =>
    obtain ⟨hi, hj, x, y, h1, h2, h3⟩ := h
    exact ⟨hi, hj, x, y, getElem?_prefix h1, getElem?_prefix h2, getElem?_prefix h3⟩
  | encrypted b k =>
    obtain ⟨hi, hj, hk, x, y, h1, h2, h3⟩ := h
    exact ⟨hi, hj, hk, x, y, getElem?_prefix h1, getElem?_prefix h2, getElem?_prefix h3⟩

/-- The block behind a cache. -/
def ownOf (o : List Obj) (id : Nat) : Blk Cells :=
  match o[id / 16]? with
  | some (.block b) => inner b
  | some (.key k) => inner (member k (id % 16))
  | none => .raw 0 0

theorem ownOf_cached {o : List Obj} {i : Nat} {b : Blk Cells} (h : o[i]? = some (.block (.cached (16 * i) b))) :
    ownOf o (16 * i) = b := by
  have : 16 * i / 16 = i := by omega
  simp only [ownOf, this, h, inner]

theorem ownOf_key {o : List Obj} {i : Nat} {k : Key Cells} (h : o[i]? = some (.key k)) (r : Nat) (hr : r ≤ 10) :
    ownOf o (16 * i + r) = inner (member k r) := by
  have h1 : (16 * i + r) / 16 = i := by omega
  have h2 : (16 * i + r) % 16 = r := by omega
  simp only [ownOf, h1, h2, h]

/-- The state of a program after the steps `pre`. -/
structure Inv (start : Cells) (p pre : List Step) (o : List Obj) (c : Caches) (w : Cells) : Prop where
  begins : ∃ rest, p = pre ++ rest
  count : o.length = (objects pre).length
  cells : ∀ d, w d = contents start p d pre.length
  built : ∀ i how t, (objects pre)[i]? = some (how, t) → Built start p o i how t
  loaded : ∀ id, (c id).isSome ↔ ∃ j r, id = 16 * j + r ∧ SlotOf p j r ∧ UsedBefore p j pre.length
  caches : ∀ j a t v, (objects p)[j]? = some (.cached a, t) → c (16 * j) = some v →
    ∃ u, u < pre.length ∧ First p j u ∧ Shows start p a u (join64 v)
  keys : ∀ j h l t, (objects p)[j]? = some (.key h l, t) → UsedBefore p j pre.length →
    ∃ u x y, u < pre.length ∧ First p j u ∧ Shows start p h u x ∧ Shows start p l u y ∧ Holds c (16 * j) (roundKey (x ++ y))

variable {pre : List Step} {o : List Obj} {c : Caches} {w : Cells}

theorem Inv.here (h : Inv start p pre o c w) {i : Nat} {x : How × Nat} (e : (objects pre)[i]? = some x) :
    (objects p)[i]? = some x := by
  obtain ⟨rest, rfl⟩ := h.begins
  rw [objects_append]
  exact getElem?_prefix e

theorem Inv.made (h : Inv start p pre o c w) {i : Nat} {x : Obj} (e : o[i]? = some x) :
    ∃ how t, (objects pre)[i]? = some (how, t) := by
  obtain ⟨hl, -⟩ := List.getElem?_eq_some_iff.1 e
  rw [h.count] at hl
  exact ⟨_, _, List.getElem?_eq_getElem hl⟩

theorem Inv.back (h : Inv start p pre o c w) {i : Nat} {x : Obj} (e : o[i]? = some x) {how : How} {t : Nat}
    (e' : (objects p)[i]? = some (how, t)) : Built start p o i how t := by
  obtain ⟨how', t', e''⟩ := h.made e
  have := h.here e''
  rw [e'] at this
  cases this
  exact h.built _ _ _ e''

theorem not_slot {i t r : Nat} {how : How} (e : (objects p)[i]? = some (how, t)) (h1 : ∀ a, how ≠ .cached a)
    (h2 : ∀ a b, how ≠ .key a b) : ¬ SlotOf p i r := by
  rintro (⟨a, t', e', -⟩ | ⟨a, b, t', e', -⟩)
  · rw [e] at e'; cases e'; exact h1 _ rfl
  · rw [e] at e'; cases e'; exact h2 _ _ rfl

/-- The caches below an object are those of what it rests on. -/
theorem Inv.tree (h : Inv start p pre o c w) (i : Nat) (b : Blk Cells) (e : o[i]? = some (.block b)) :
    Good (ownOf o) b ∧ ∀ id, In b id ↔ Below p i id := by
  induction i using Nat.strongRecOn generalizing b with
  | _ i ih =>
    obtain ⟨how, t, e1⟩ := h.made e
    have hb := h.built _ _ _ e1
    have e2 := h.here e1
    cases how with
    | own d =>
      rw [Built, e] at hb; cases hb
      refine ⟨⟨d, rfl⟩, fun id => ?_⟩
      rw [below_iff e2]
      have := @not_slot p i t
      simp [In, How.blocks, How.keys, not_slot e2]
    | fixed v =>
      rw [Built, e] at hb; cases hb
      refine ⟨trivial, fun id => ?_⟩
      rw [below_iff e2]
      simp [In, How.blocks, How.keys, not_slot e2]
    | copy a =>
      obtain ⟨v, hb, -⟩ := hb
      rw [e] at hb; cases hb
      refine ⟨trivial, fun id => ?_⟩
      rw [below_iff e2]
      simp [In, How.blocks, How.keys, not_slot e2]
    | cached a =>
      obtain ⟨ha, x, hx, hb⟩ := hb
      rw [e] at hb; cases hb
      obtain ⟨g, hin⟩ := ih a ha x hx
      refine ⟨⟨ownOf_cached e, g⟩, fun id => ?_⟩
      rw [below_iff e2]
      simp only [In, hin]
      constructor
      · rintro (rfl | hj)
        · exact .inl ⟨0, rfl, .inl ⟨a, t, e2, rfl⟩⟩
        · exact .inr ⟨by simp, a, by simp [How.blocks], hj⟩
      · rintro (⟨r, rfl, hs⟩ | ⟨-, a', ha', hj⟩)
        · rcases hs with ⟨_, _, _, rfl⟩ | ⟨_, _, _, e', _⟩
          · exact .inl rfl
          · rw [e2] at e'; cases e'
        · simp only [How.blocks, How.keys, List.append_nil, List.mem_singleton] at ha'
          subst ha'
          exact .inr hj
    | xored a d =>
      obtain ⟨ha, hd, x, y, hx, hy, hb⟩ := hb
      rw [e] at hb; cases hb
      obtain ⟨g, hin⟩ := ih a ha x hx
      obtain ⟨g', hin'⟩ := ih d hd y hy
      refine ⟨⟨g, g'⟩, fun id => ?_⟩
      rw [below_iff e2]
      simp [In, hin, hin', How.blocks, How.keys, not_slot e2]
    | substituted a =>
      obtain ⟨ha, x, hx, hb⟩ := hb
      rw [e] at hb; cases hb
      obtain ⟨g, hin⟩ := ih a ha x hx
      refine ⟨g, fun id => ?_⟩
      rw [below_iff e2]
      simp [In, hin, How.blocks, How.keys, not_slot e2]
    | mixed a =>
      obtain ⟨ha, x, hx, hb⟩ := hb
      rw [e] at hb; cases hb
      obtain ⟨g, hin⟩ := ih a ha x hx
      refine ⟨good_transform g 16, fun id => ?_⟩
      rw [below_iff e2, KuzToken.BlkL, in_transform]
      simp [hin, How.blocks, How.keys, not_slot e2]
    | rotated a =>
      obtain ⟨ha, x, hx, hb⟩ := hb
      rw [e] at hb; cases hb
      obtain ⟨g, hin⟩ := ih a ha x hx
      refine ⟨g, fun id => ?_⟩
      rw [below_iff e2]
      simp [In, hin, How.blocks, How.keys, not_slot e2]
    | shifted a n =>
      obtain ⟨hn, ha, x, hx, hb⟩ := hb
      rw [e] at hb; cases hb
      obtain ⟨g, hin⟩ := ih a ha x hx
      refine ⟨⟨⟨n, rfl, hn⟩, g⟩, fun id => ?_⟩
      rw [below_iff e2]
      simp [In, hin, How.blocks, How.keys, not_slot e2]
    | next a =>
      obtain ⟨ha, x, hx, hb⟩ := hb
      rw [e] at hb; cases hb
      obtain ⟨g, hin⟩ := ih a ha x hx
      refine ⟨g, fun id => ?_⟩
      rw [below_iff e2]
      simp [In, hin, How.blocks, How.keys, not_slot e2]
    | key a d =>
      obtain ⟨-, -, x, y, -, -, hb⟩ := hb
      rw [e] at hb; cases hb
    | encrypted d k =>
      obtain ⟨hd, hk, ⟨a, l, t', ek⟩, x, K, hx, hK, hb⟩ := hb
      rw [e] at hb; cases hb
      obtain ⟨ha, hl, y, z, hy, hz, hK'⟩ := h.back hK ek
      rw [hK] at hK'; cases hK'
      obtain ⟨g, hin⟩ := ih d hd x hx
      obtain ⟨g', hin'⟩ := ih a (Nat.lt_trans ha hk) y hy
      obtain ⟨g'', hin''⟩ := ih l (Nat.lt_trans hl hk) z hz
      refine ⟨good_encrypted g (good_key g' g'' fun r _ h10 => ownOf_key hK r h10), fun id => ?_⟩
      rw [in_encryption, below_iff e2]
      have hbk : Below p k id ↔ (∃ q, 1 ≤ q ∧ q ≤ 10 ∧ id = 16 * k + q) ∨ Below p a id ∨ Below p l id := by
        rw [below_iff ek]
        constructor
        · rintro (⟨r, rfl, hs⟩ | ⟨-, a', ha', hj⟩)
          · rcases hs with ⟨_, _, e', _⟩ | ⟨_, _, _, _, h1, h10⟩
            · rw [ek] at e'; cases e'
            · exact .inl ⟨r, h1, h10, rfl⟩
          · simp only [How.blocks, How.keys, List.append_nil, List.mem_cons, List.not_mem_nil, or_false] at ha'
            rcases ha' with rfl | rfl
            · exact .inr (.inl hj)
            · exact .inr (.inr hj)
        · rintro (⟨q, h1, h10, rfl⟩ | hj | hj)
          · exact .inl ⟨q, rfl, .inr ⟨a, l, t', ek, h1, h10⟩⟩
          · exact .inr ⟨by simp, a, by simp [How.blocks], hj⟩
          · exact .inr ⟨by simp, l, by simp [How.blocks], hj⟩
      simp only [How.blocks, How.keys, List.cons_append, List.nil_append, List.mem_cons, List.not_mem_nil, or_false,
        exists_eq_or_imp, exists_eq_left, hbk, hin, hin', hin'']
      constructor
      · exact fun h => .inr ⟨by simp, h⟩
      · rintro (⟨r, _, hs⟩ | ⟨_, h⟩)
        · exact absurd hs (not_slot e2 (by simp) (by simp))
        · exact h

/-- What is used is used with all it rests on. -/
theorem UsedBefore.mono {j k t : Nat} (h : UsedBefore p j t) (hr : RestsOn p j k) : UsedBefore p k t := by
  obtain ⟨s, hs, i, e, hi⟩ := h
  exact ⟨s, hs, i, e, hi.trans hr⟩

/-- Objects rest on objects made before. -/
theorem Inv.rests_le (h : Inv start p pre o c w) {i j : Nat} (hr : RestsOn p i j) : ∀ x, o[i]? = some x → j ≤ i := by
  induction hr with
  | self => exact fun _ _ => Nat.le_refl _
  | @through i a j how t e hc ha hr ih =>
    intro x hx
    have hb := h.back hx e
    have hlen : ∀ a, a < i → ∃ y, o[a]? = some y := fun a hai => by
      obtain ⟨hl, -⟩ := List.getElem?_eq_some_iff.1 hx
      exact ⟨_, List.getElem?_eq_getElem (Nat.lt_trans hai hl)⟩
    have hai : a < i := by
      cases how <;> simp only [How.blocks, How.keys, List.append_nil, List.cons_append, List.nil_append, List.mem_cons,
        List.not_mem_nil, or_false] at ha
      · exact absurd rfl (hc _)
      · subst ha; exact hb.1
      · rcases ha with rfl | rfl
        · exact hb.1
        · exact hb.2.1
      · subst ha; exact hb.1
      · subst ha; exact hb.1
      · subst ha; exact hb.1
      · subst ha; exact hb.2.1
      · subst ha; exact hb.1
      · rcases ha with rfl | rfl
        · exact hb.1
        · exact hb.2.1
      · rcases ha with rfl | rfl
        · exact hb.1
        · exact hb.2.1
    obtain ⟨y, hy⟩ := hlen a hai
    exact Nat.le_trans (ih y hy) (Nat.le_of_lt hai)

theorem Inv.not_loaded (h : Inv start p pre o c w) {j r : Nat} (hs : SlotOf p j r) (hu : ¬ UsedBefore p j pre.length) :
    c (16 * j + r) = none := by
  cases hc : c (16 * j + r) with
  | none => rfl
  | some v =>
    obtain ⟨j', r', e, hs', hu'⟩ := (h.loaded (16 * j + r)).1 (by rw [hc]; rfl)
    have := hs.lt
    have := hs'.lt
    have : j' = j := by omega
    subst this
    exact absurd hu' hu

/-- What an object shows now. -/
theorem Inv.shows (hm : m.unalignedLoad = true) (h : Inv start p pre o c w) (i : Nat) (b : Blk Cells)
    (e : o[i]? = some (.block b)) : ∃ x, HasValue m (frozen c w b) x ∧ Shows start p i pre.length x := by
  induction i using Nat.strongRecOn generalizing b with
  | _ i ih =>
    obtain ⟨how, t, e1⟩ := h.made e
    have hb := h.built _ _ _ e1
    have e2 := h.here e1
    cases how with
    | own d =>
      rw [Built, e] at hb; cases hb
      exact ⟨_, ⟨w d, rfl, by rw [h.cells d]⟩, .own e2⟩
    | fixed v =>
      rw [Built, e] at hb; cases hb
      exact ⟨_, ⟨v, rfl, rfl⟩, .fixed e2⟩
    | copy a =>
      obtain ⟨v, hb, hs⟩ := hb
      rw [e] at hb; cases hb
      exact ⟨_, ⟨v, rfl, rfl⟩, .copy e2 hs⟩
    | cached a =>
      obtain ⟨ha, x, hx, hb⟩ := hb
      rw [e] at hb; cases hb
      cases hc : c (16 * i) with
      | some v =>
        obtain ⟨u, hu, hf, hs⟩ := h.caches i a t v e2 hc
        exact ⟨_, ⟨v, by simp only [frozen, hc, Kuz.Blk.value], rfl⟩, .cached e2 (hf.firstUse hu) hs⟩
      | none =>
        obtain ⟨y, h1, h2⟩ := ih a ha x hx
        refine ⟨y, ?_, .cached e2 (firstUse_now fun hu => ?_) h2⟩
        · simp only [frozen, hc]; exact h1
        · have := (h.loaded (16 * i)).2 ⟨i, 0, rfl, .inl ⟨a, t, e2, rfl⟩, hu⟩
          rw [hc] at this; cases this
    | xored a d =>
      obtain ⟨ha, hd, x, y, hx, hy, hb⟩ := hb
      rw [e] at hb; cases hb
      obtain ⟨_, h1, h2⟩ := ih a ha x hx
      obtain ⟨_, h3, h4⟩ := ih d hd y hy
      exact ⟨_, h1.xored h3, .xored e2 h2 h4⟩
    | substituted a =>
      obtain ⟨ha, x, hx, hb⟩ := hb
      rw [e] at hb; cases hb
      obtain ⟨_, h1, h2⟩ := ih a ha x hx
      exact ⟨_, h1.blkS, .substituted e2 h2⟩
    | mixed a =>
      obtain ⟨ha, x, hx, hb⟩ := hb
      rw [e] at hb; cases hb
      obtain ⟨_, h1, h2⟩ := ih a ha x hx
      refine ⟨_, ?_, .mixed e2 h2⟩
      rw [KuzToken.BlkL, frozen_transform]
      exact HasValue.blkL hm h1
    | rotated a =>
      obtain ⟨ha, x, hx, hb⟩ := hb
      rw [e] at hb; cases hb
      obtain ⟨_, ⟨v, hv, rfl⟩, h2⟩ := ih a ha x hx
      obtain ⟨r, hr, er⟩ := rValue_eq hm v
      exact ⟨_, ⟨r, by simp only [frozen, Kuz.Blk.value, hv, Exec.ok_bind]; exact hr, er⟩, .rotated e2 h2⟩
    | shifted a n =>
      obtain ⟨hn, ha, x, hx, hb⟩ := hb
      rw [e] at hb; cases hb
      obtain ⟨_, ⟨v, hv, rfl⟩, h2⟩ := ih a ha x hx
      obtain ⟨r, hr, er⟩ := Kuz.shiftValue_eq v n hn.1 hn.2
      exact ⟨_, ⟨r, by simp only [frozen, Kuz.Blk.value, hv, Exec.ok_bind]; exact hr, er⟩, .shifted e2 h2⟩
    | next a =>
      obtain ⟨ha, x, hx, hb⟩ := hb
      rw [e] at hb; cases hb
      obtain ⟨_, ⟨v, hv, rfl⟩, h2⟩ := ih a ha x hx
      exact ⟨_, ⟨Kuz.incValue v, by simp only [frozen, Kuz.Blk.value, hv, Exec.ok_bind]; rfl, Kuz.incValue_eq v⟩, .next e2 h2⟩
    | key a d =>
      obtain ⟨-, -, x, y, -, -, hb⟩ := hb
      rw [e] at hb; cases hb
    | encrypted d k =>
      obtain ⟨hd, hk, ⟨a, l, t', ek⟩, x, K, hx, hK, hb⟩ := hb
      rw [e] at hb; cases hb
      obtain ⟨ha, hl, y, z, hy, hz, hK'⟩ := h.back hK ek
      rw [hK] at hK'; cases hK'
      obtain ⟨_, h1, h2⟩ := ih d hd x hx
      by_cases hu : UsedBefore p k pre.length
      · obtain ⟨u, q, r, hut, hf, hq, hr, hh⟩ := h.keys k a l t' ek hu
        refine ⟨_, ?_, .encrypted e2 ek (hf.firstUse hut) hq hr h2⟩
        rw [frozen_encrypted]
        exact (frozenKey_used hh).encrypt hm h1
      · obtain ⟨_, h3, h4⟩ := ih a (Nat.lt_trans ha hk) y hy
        obtain ⟨_, h5, h6⟩ := ih l (Nat.lt_trans hl hk) z hz
        refine ⟨_, ?_, .encrypted e2 ek (firstUse_now hu) h4 h6 h2⟩
        rw [frozen_encrypted, frozenKey_fresh]
        · exact encrypt_value hm h3 h5 _ h1
        · intro r r1 r10
          refine h.not_loaded (.inr ⟨a, l, t', ek, r1, r10⟩) hu

theorem Inv.closed (h : Inv start p pre o c w) : Closed (ownOf o) c := by
  intro id hid k hk
  obtain ⟨j, r, rfl, hs, hu⟩ := (h.loaded id).1 hid
  have hle : (16 * j + r) / 16 = j := by have := hs.lt; omega
  cases hj : o[j]? with
  | none => rw [ownOf, hle, hj] at hk; exact hk.elim
  | some x =>
    have below : ∀ a, RestsOn p j a → Below p a k → (c k).isSome := by
      rintro a ha ⟨q, r', rfl, hs', hq⟩
      exact (h.loaded _).2 ⟨q, r', rfl, hs', hu.mono (ha.trans hq)⟩
    rcases hs with ⟨a, t, e, rfl⟩ | ⟨a, l, t, e, h1, h10⟩
    · obtain ⟨ha, b, hb, hx⟩ := h.back hj e
      have := ownOf_cached hx
      rw [Nat.add_zero, this] at hk
      exact below a (.through e (by simp) (by simp [How.blocks]) (.self a)) (((h.tree a b hb).2 k).1 hk)
    · obtain ⟨ha, hl, y, z, hy, hz, hx⟩ := h.back hj e
      rw [ownOf_key hx r h10] at hk
      have hin : In (member (Key.ofBlocks y z (16 * j)) r) k := by
        rw [member_cached y z (16 * j) r h1 h10]
        exact .inr hk
      rcases in_key y z (16 * j) r k h1 h10 hin with ⟨q, q1, q10, rfl⟩ | hin | hin
      · exact (h.loaded _).2 ⟨j, q, rfl, .inr ⟨a, l, t, e, q1, q10⟩, hu⟩
      · exact below a (.through e (by simp) (by simp [How.blocks]) (.self a)) (((h.tree a y hy).2 k).1 hin)
      · exact below l (.through e (by simp) (by simp [How.blocks]) (.self l)) (((h.tree l z hz).2 k).1 hin)

/-! ### Steps -/

theorem usedBefore_succ (t j : Nat) : UsedBefore p j (t + 1) ↔ UsedBefore p j t ∨ Uses p t j := by
  constructor
  · rintro ⟨s, hs, hu⟩
    rcases Nat.lt_succ_iff_lt_or_eq.1 hs with h | rfl
    · exact .inl ⟨s, h, hu⟩
    · exact .inr hu
  · rintro (⟨s, hs, hu⟩ | hu)
    · exact ⟨s, Nat.lt_succ_of_lt hs, hu⟩
    · exact ⟨t, Nat.lt_succ_self t, hu⟩

theorem contents_succ (start : Cells) {t : Nat} {s : Step} (e : p[t]? = some s) (d : Nat) :
    contents start p d (t + 1) = match s with
      | .change i x => if d = i then x else contents start p d t
      | _ => contents start p d t := by
  simp only [contents, List.take_add_one, e, Option.toList_some, List.foldl_append, List.foldl_cons, List.foldl_nil]
  cases s <;> rfl

/-- A step that does not use anything. -/
theorem Inv.quiet (h : Inv start p pre o c w) {s : Step} {rest : List Step} (hp : p = pre ++ s :: rest)
    (h1 : ∀ i, s ≠ .ask i) (h2 : ∀ i, s ≠ .make (.copy i)) {o' : List Obj} {w' : Cells}
    (hn : o'.length = (objects (pre ++ [s])).length) (hw : ∀ d, w' d = contents start p d (pre.length + 1))
    (hb : ∀ i how t, (objects (pre ++ [s]))[i]? = some (how, t) → Built start p o' i how t) :
    Inv start p (pre ++ [s]) o' c w' := by
  have hs : p[pre.length]? = some s := by rw [hp]; simp
  have hlen : (pre ++ [s]).length = pre.length + 1 := by simp
  have hu : ∀ j, UsedBefore p j (pre.length + 1) ↔ UsedBefore p j pre.length := by
    intro j
    rw [usedBefore_succ]
    refine or_iff_left ?_
    rintro ⟨i, e | e, -⟩
    · rw [hs] at e; cases e; exact h1 i rfl
    · rw [hs] at e; cases e; exact h2 i rfl
  refine ⟨⟨rest, by rw [hp]; simp⟩, hn, by rw [hlen]; exact hw, hb, fun id => ?_, fun j a t v e hv => ?_,
    fun j a l t e hj => ?_⟩
  · rw [h.loaded id, hlen]; simp only [hu]
  · obtain ⟨u, h3, h4⟩ := h.caches j a t v e hv
    exact ⟨u, by rw [hlen]; omega, h4⟩
  · rw [hlen, hu] at hj
    obtain ⟨u, x, y, h3, h4⟩ := h.keys j a l t e hj
    exact ⟨u, x, y, by rw [hlen]; omega, h4⟩

/-- A step that evaluates the object `i`, as far as the caches are concerned. -/
theorem Inv.evaluated (hm : m.unalignedLoad = true) (h : Inv start p pre o c w) {s : Step} {rest : List Step}
    (hp : p = pre ++ s :: rest) {i : Nat} (hs : s = .ask i ∨ s = .make (.copy i)) {b : Blk Cells}
    (hi : o[i]? = some (.block b)) :
    ∃ v c', b.value m (c, w) = (.ok v, (c', w)) ∧ Shows start p i pre.length (join64 v) ∧
      ∀ o', o'.length = (objects (pre ++ [s])).length →
        (∀ i how t, (objects (pre ++ [s]))[i]? = some (how, t) → Built start p o' i how t) →
        Inv start p (pre ++ [s]) o' c' w := by
  have hps : p[pre.length]? = some s := by rw [hp]; simp
  have hlen : (pre ++ [s]).length = pre.length + 1 := by simp
  obtain ⟨hgood, hin⟩ := h.tree i b hi
  obtain ⟨v, c', e1, e2, e3, -, e5⟩ := evaluates hm (ownOf o) w c b hgood c (fun id => .inl rfl) h.closed
  obtain ⟨x, ⟨v', hv', rfl⟩, hx⟩ := h.shows hm i b hi
  rw [e2] at hv'; cases hv'
  refine ⟨v, c', e1, hx, fun o' hn hb => ?_⟩
  have huses : ∀ j, Uses p pre.length j ↔ RestsOn p i j := by
    intro j
    constructor
    · rintro ⟨k, e | e, hk⟩
      all_goals
        rw [hps] at e
        cases e
        rcases hs with hs | hs <;> cases hs
        exact hk
    · intro hj
      refine ⟨i, ?_, hj⟩
      rcases hs with rfl | rfl
      · exact .inl hps
      · exact .inr hps
  have hu : ∀ j, UsedBefore p j (pre.length + 1) ↔ UsedBefore p j pre.length ∨ RestsOn p i j := by
    intro j
    rw [usedBefore_succ, huses]
  have hobj : ∀ j, RestsOn p i j → ∃ y, o[j]? = some y := fun j hj => by
    obtain ⟨hl, -⟩ := List.getElem?_eq_some_iff.1 hi
    exact ⟨_, List.getElem?_eq_getElem (Nat.lt_of_le_of_lt (h.rests_le hj _ hi) hl)⟩
  have hfirst : ∀ j, ¬ UsedBefore p j pre.length → RestsOn p i j → First p j pre.length := fun j hn hj =>
    ⟨(huses j).2 hj, fun s' hs' hu' => hn ⟨s', hs', hu'⟩⟩
  have hload : ∀ id, (c' id).isSome ↔ ∃ j r, id = 16 * j + r ∧ SlotOf p j r ∧ UsedBefore p j (pre.length + 1) := by
    intro id
    rw [e5 id, h.loaded id, hin id]
    constructor
    · rintro (⟨j, r, e, h1, h2⟩ | ⟨j, r, e, h1, h2⟩)
      · exact ⟨j, r, e, h1, (hu j).2 (.inl h2)⟩
      · exact ⟨j, r, e, h1, (hu j).2 (.inr h2)⟩
    · rintro ⟨j, r, e, h1, h2⟩
      rcases (hu j).1 h2 with h2 | h2
      · exact .inl ⟨j, r, e, h1, h2⟩
      · exact .inr ⟨j, r, e, h1, h2⟩
  refine ⟨⟨rest, by rw [hp]; simp⟩, hn, ?_, hb, ?_, ?_, ?_⟩
  · intro d
    rw [hlen, contents_succ start hps, h.cells d]
    rcases hs with rfl | rfl <;> rfl
  · rw [hlen]; exact hload
  · intro j a t v e hv
    rcases e3 (16 * j) with hc | ⟨hc, v', hv', hval⟩
    · rw [hc] at hv
      obtain ⟨u, h3, h4⟩ := h.caches j a t v e hv
      exact ⟨u, by rw [hlen]; omega, h4⟩
    · rw [hv] at hv'; cases hv'
      have hs0 : SlotOf p j 0 := .inl ⟨a, t, e, rfl⟩
      have hnot : ¬ UsedBefore p j pre.length := fun hub => by
        have := (h.loaded (16 * j)).2 ⟨j, 0, rfl, hs0, hub⟩
        rw [hc] at this; cases this
      have hj : RestsOn p i j := by
        obtain ⟨j', r, e', h1, h2⟩ := (hload (16 * j)).1 (by rw [hv]; rfl)
        have := h1.lt
        have : j' = j := by omega
        subst this
        exact ((hu j').1 h2).resolve_left hnot
      obtain ⟨y, hy⟩ := hobj j hj
      obtain ⟨ha, b', hb', hj'⟩ := h.back hy e
      obtain ⟨_, ⟨v', hv', rfl⟩, hx'⟩ := h.shows hm a b' hb'
      rw [ownOf_cached hj', hv'] at hval
      cases hval
      exact ⟨pre.length, by rw [hlen]; omega, hfirst j hnot hj, hx'⟩
  · intro j a l t e hub
    rw [hlen] at hub
    by_cases hold : UsedBefore p j pre.length
    · obtain ⟨u, x, y, h3, h4, h5, h6, h7⟩ := h.keys j a l t e hold
      refine ⟨u, x, y, by rw [hlen]; omega, h4, h5, h6, fun r => ?_⟩
      obtain ⟨v', hv', hr⟩ := h7 r
      refine ⟨v', ?_, hr⟩
      rcases e3 (16 * j + (r.val + 1)) with hc | ⟨hc, -⟩
      · rw [hc, hv']
      · rw [hc] at hv'; cases hv'
    · have hj : RestsOn p i j := ((hu j).1 hub).resolve_left hold
      obtain ⟨y, hy⟩ := hobj j hj
      obtain ⟨ha, hl, x, z, hx', hz, hj'⟩ := h.back hy e
      obtain ⟨X, hX, hX'⟩ := h.shows hm a x hx'
      obtain ⟨Z, hZ, hZ'⟩ := h.shows hm l z hz
      refine ⟨pre.length, X, Z, by rw [hlen]; omega, hfirst j hold hj, hX', hZ', fun r => ?_⟩
      have r10 := r.isLt
      have hslot : ∀ r, 1 ≤ r → r ≤ 10 → SlotOf p j r := fun r h1 h10 => .inr ⟨a, l, t, e, h1, h10⟩
      have hfresh : ∀ r, 1 ≤ r → r ≤ 10 → c (16 * j + r) = none := fun r h1 h10 => h.not_loaded (hslot r h1 h10) hold
      have hkv := ofBlocks_values hm hX hZ (16 * j)
      rw [← frozenKey_fresh hfresh] at hkv
      have hval := keyValues_member hkv r
      have hsome := (hload (16 * j + (r.val + 1))).2 ⟨j, r.val + 1, rfl, hslot _ (by omega) (by omega), hub⟩
      rcases e3 (16 * j + (r.val + 1)) with hc | ⟨hc, v', hv', hv''⟩
      · rw [hc, hfresh _ (by omega) (by omega)] at hsome; cases hsome
      · refine ⟨v', hv', ?_⟩
        rw [ownOf_key hj' _ (by omega)] at hv''
        rw [member_cached x z (16 * j) (r.val + 1) (by omega) (by omega)] at hval
        obtain ⟨v3, h3, h4⟩ := hval
        simp only [frozen, hc, Kuz.Blk.value] at h3
        rw [h3] at hv''
        cases hv''
        exact h4

theorem Inv.block (h : Inv start p pre o c w) {a : Nat} (ha : isBlock ((objects pre).map (·.1)) a = true) :
    a < o.length ∧ ∃ b, o[a]? = some (.block b) := by
  rw [isBlock, List.getElem?_map] at ha
  cases e : (objects pre)[a]? with
  | none => rw [e] at ha; cases ha
  | some x =>
    obtain ⟨how, t⟩ := x
    have hb := h.built _ _ _ e
    have hl : a < o.length := by
      rw [h.count]
      exact (List.getElem?_eq_some_iff.1 e).1
    refine ⟨hl, ?_⟩
    rw [e] at ha
    cases how with
    | own d => exact ⟨_, hb⟩
    | fixed v => exact ⟨_, hb⟩
    | copy d => obtain ⟨v, hb, -⟩ := hb; exact ⟨_, hb⟩
    | cached d => obtain ⟨-, b, -, hb⟩ := hb; exact ⟨_, hb⟩
    | xored d e => obtain ⟨-, -, x, y, -, -, hb⟩ := hb; exact ⟨_, hb⟩
    | substituted d => obtain ⟨-, b, -, hb⟩ := hb; exact ⟨_, hb⟩
    | mixed d => obtain ⟨-, b, -, hb⟩ := hb; exact ⟨_, hb⟩
    | rotated d => obtain ⟨-, b, -, hb⟩ := hb; exact ⟨_, hb⟩
    | shifted d n => obtain ⟨-, -, b, -, hb⟩ := hb; exact ⟨_, hb⟩
    | next d => obtain ⟨-, b, -, hb⟩ := hb; exact ⟨_, hb⟩
    | key d e => cases ha
    | encrypted d e => obtain ⟨-, -, -, x, K, -, -, hb⟩ := hb; exact ⟨_, hb⟩

theorem Inv.key (h : Inv start p pre o c w) {a : Nat} (ha : isKey ((objects pre).map (·.1)) a = true) :
    a < o.length ∧ (∃ d l t, (objects p)[a]? = some (.key d l, t)) ∧ ∃ K, o[a]? = some (.key K) := by
  rw [isKey, List.getElem?_map] at ha
  cases e : (objects pre)[a]? with
  | none => rw [e] at ha; cases ha
  | some x =>
    obtain ⟨how, t⟩ := x
    have hb := h.built _ _ _ e
    have hl : a < o.length := by
      rw [h.count]
      exact (List.getElem?_eq_some_iff.1 e).1
    rw [e] at ha
    cases how with
    | key d l =>
      obtain ⟨-, -, x, y, -, -, hb⟩ := hb
      exact ⟨hl, ⟨d, l, t, h.here e⟩, _, hb⟩
    | _ => cases ha

theorem blockAt_eq {o : List Obj} {a : Nat} {b : Blk Cells} (h : o[a]? = some (.block b)) : blockAt o a = .ok b := by
  rw [blockAt, h]

theorem keyAt_eq {o : List Obj} {a : Nat} {k : Key Cells} (h : o[a]? = some (.key k)) : keyAt o a = .ok k := by
  rw [keyAt, h]

theorem lift_bind {S α β : Type} {x : Exec α} {a : α} (h : x = .ok a) (f : α → Io S β) (s : S) : (Io.lift x >>= f) s = f a s :=
  KuzToken.bind_ok (by rw [h]; rfl)

/-- The objects after one more has been made. -/
theorem Inv.built_make (h : Inv start p pre o c w) (how : How) (x : Obj)
    (hx : Built start p (o ++ [x]) o.length how pre.length) :
    (o ++ [x]).length = (objects (pre ++ [.make how])).length ∧
    ∀ i how' t, (objects (pre ++ [.make how]))[i]? = some (how', t) → Built start p (o ++ [x]) i how' t := by
  rw [objects_make]
  refine ⟨by simp [h.count], fun i how' t e => ?_⟩
  rcases Nat.lt_or_ge i (objects pre).length with hl | hl
  · rw [List.getElem?_append_left hl] at e
    exact (h.built _ _ _ e).append [x]
  · rw [List.getElem?_append_right hl] at e
    have hi : i - (objects pre).length = 0 := by
      by_contra hne
      rw [List.getElem?_eq_none (by simp; omega)] at e
      cases e
    rw [hi] at e
    cases e
    have : i = o.length := by rw [h.count]; omega
    rw [this]
    exact hx

/-- Constructors other than the copying one do nothing but make the object. -/
theorem Inv.build_quiet (h : Inv start p pre o c w) (how : How) (hc : ∀ a, how ≠ .copy a)
    (hb : how.blocks.all (isBlock ((objects pre).map (·.1))) = true)
    (hk : how.keys.all (isKey ((objects pre).map (·.1))) = true) (hn : how.possible = true) (s : Caches × Cells) :
    ∃ x, build m o how s = (.ok x, s) ∧ Built start p (o ++ [x]) o.length how pre.length := by
  have last : ∀ x : Obj, (o ++ [x])[o.length]? = some x := fun x => by simp
  cases how with
  | copy a => exact absurd rfl (hc a)
  | own d => exact ⟨_, rfl, last _⟩
  | fixed v => exact ⟨_, rfl, last _⟩
  | cached a =>
    simp only [How.blocks, List.all_cons, List.all_nil, Bool.and_true] at hb
    obtain ⟨hl, b, e⟩ := h.block hb
    exact ⟨_, by simp only [build]; rw [lift_bind (blockAt_eq e)]; rfl, hl, b, getElem?_prefix e, last _⟩
  | substituted a =>
    simp only [How.blocks, List.all_cons, List.all_nil, Bool.and_true] at hb
    obtain ⟨hl, b, e⟩ := h.block hb
    exact ⟨_, by simp only [build]; rw [lift_bind (blockAt_eq e)]; rfl, hl, b, getElem?_prefix e, last _⟩
  | mixed a =>
    simp only [How.blocks, List.all_cons, List.all_nil, Bool.and_true] at hb
    obtain ⟨hl, b, e⟩ := h.block hb
    exact ⟨_, by simp only [build]; rw [lift_bind (blockAt_eq e)]; rfl, hl, b, getElem?_prefix e, last _⟩
  | rotated a =>
    simp only [How.blocks, List.all_cons, List.all_nil, Bool.and_true] at hb
    obtain ⟨hl, b, e⟩ := h.block hb
    exact ⟨_, by simp only [build]; rw [lift_bind (blockAt_eq e)]; rfl, hl, b, getElem?_prefix e, last _⟩
  | shifted a n =>
    simp only [How.blocks, List.all_cons, List.all_nil, Bool.and_true] at hb
    obtain ⟨hl, b, e⟩ := h.block hb
    exact ⟨_, by simp only [build]; rw [lift_bind (blockAt_eq e)]; rfl, by simpa [How.possible] using hn, hl, b, getElem?_prefix e, last _⟩
  | next a =>
    simp only [How.blocks, List.all_cons, List.all_nil, Bool.and_true] at hb
    obtain ⟨hl, b, e⟩ := h.block hb
    exact ⟨_, by simp only [build]; rw [lift_bind (blockAt_eq e)]; rfl, hl, b, getElem?_prefix e, last _⟩
  | xored a d =>
    simp only [How.blocks, List.all_cons, List.all_nil, Bool.and_true, Bool.and_eq_true] at hb
    obtain ⟨hl, b, e⟩ := h.block hb.1
    obtain ⟨hl', b', e'⟩ := h.block hb.2
    exact ⟨_, by simp only [build]; rw [lift_bind (blockAt_eq e), lift_bind (blockAt_eq e')]; rfl, hl, hl', b, b',
      getElem?_prefix e, getElem?_prefix e', last _⟩
  | key a d =>
    simp only [How.blocks, List.all_cons, List.all_nil, Bool.and_true, Bool.and_eq_true] at hb
    obtain ⟨hl, b, e⟩ := h.block hb.1
    obtain ⟨hl', b', e'⟩ := h.block hb.2
    exact ⟨_, by simp only [build]; rw [lift_bind (blockAt_eq e), lift_bind (blockAt_eq e')]; rfl, hl, hl', b, b',
      getElem?_prefix e, getElem?_prefix e', last _⟩
  | encrypted a k =>
    simp only [How.blocks, How.keys, List.all_cons, List.all_nil, Bool.and_true] at hb hk
    obtain ⟨hl, b, e⟩ := h.block hb
    obtain ⟨hl', ho, K, e'⟩ := h.key hk
    exact ⟨_, by simp only [build]; rw [lift_bind (blockAt_eq e), lift_bind (keyAt_eq e')]; rfl, hl, hl', ho, b, K,
      getElem?_prefix e, getElem?_prefix e', last _⟩

theorem map_objects_make (pre : List Step) (how : How) :
    (objects (pre ++ [.make how])).map (·.1) = (objects pre).map (·.1) ++ [how] := by
  rw [objects_make]; simp

/-- All answers from any moment on. -/
theorem Inv.run (hm : m.unalignedLoad = true) (rest : List Step) (pre : List Step) (o : List Obj) (c : Caches) (w : Cells)
    (h : Inv start p pre o c w) (hp : p = pre ++ rest) (hs : sound ((objects pre).map (·.1)) rest = true) :
    List.Forall₂ (fun x q => ∃ v, x = .ok v ∧ Shows start p q.1 q.2 (join64 v)) (run m rest o (c, w))
      (askedFrom pre.length rest) := by
  induction rest generalizing pre o c w with
  | nil => exact .nil
  | cons s r ih =>
    have hp' : p = (pre ++ [s]) ++ r := by rw [hp]; simp
    have hps : p[pre.length]? = some s := by rw [hp]; simp
    have hlen : (pre ++ [s]).length = pre.length + 1 := by simp
    cases s with
    | change d v =>
      have hq := h.quiet (o' := o) (w' := fun i => if i = d then v else w i) hp (by simp) (by simp)
        (by rw [objects_change]; exact h.count)
        (fun i => by rw [contents_succ start hps, h.cells i]) (by rw [objects_change]; exact h.built)
      have := ih _ _ _ _ hq hp' (by rw [objects_change]; exact hs)
      rw [hlen] at this
      exact this
    | ask i =>
      simp only [sound, Bool.and_eq_true] at hs
      obtain ⟨-, b, hb⟩ := h.block hs.1
      obtain ⟨v, c', e1, e2, e3⟩ := h.evaluated hm hp (i := i) (.inl rfl) hb
      have hq := e3 o (by rw [objects_ask]; exact h.count) (by rw [objects_ask]; exact h.built)
      have := ih _ _ _ _ hq hp' (by rw [objects_ask]; exact hs.2)
      rw [hlen] at this
      have ea : ask m o i (c, w) = (.ok v, (c', w)) := by
        unfold ask
        rw [lift_bind (blockAt_eq hb), e1]
      simp only [Views.run, ea]
      exact .cons ⟨v, rfl, e2⟩ this
    | make how =>
      simp only [sound, Bool.and_eq_true] at hs
      obtain ⟨⟨⟨hb, hk⟩, hn⟩, hs⟩ := hs
      by_cases hc : ∃ a, how = .copy a
      · obtain ⟨a, rfl⟩ := hc
        simp only [How.blocks, List.all_cons, List.all_nil, Bool.and_true] at hb
        obtain ⟨-, b, hb⟩ := h.block hb
        obtain ⟨v, c', e1, e2, e3⟩ := h.evaluated hm hp (i := a) (.inr rfl) hb
        have hbm := h.built_make (.copy a) (.block (KuzToken.BlkRaw.ofPair v)) ⟨v, by simp [KuzToken.BlkRaw.ofPair], e2⟩
        have hq := e3 _ hbm.1 hbm.2
        have := ih _ _ _ _ hq hp' (by rw [map_objects_make]; exact hs)
        rw [hlen] at this
        have ea : build m o (.copy a) (c, w) = (.ok (.block (KuzToken.BlkRaw.ofPair v)), (c', w)) := by
          simp only [build]
          rw [lift_bind (blockAt_eq hb), KuzToken.bind_ok e1]
          rfl
        simp only [Views.run, ea]
        exact this
      · have hc' : ∀ a, how ≠ .copy a := fun a e => hc ⟨a, e⟩
        obtain ⟨x, ea, hx⟩ := h.build_quiet (m := m) how hc' hb hk hn (c, w)
        have hbm := h.built_make how x hx
        have hq := h.quiet (o' := o ++ [x]) (w' := w) hp (by simp)
          (fun i e => by cases e; exact hc' i rfl) hbm.1
          (fun i => by rw [contents_succ start hps, h.cells i]) hbm.2
        have := ih _ _ _ _ hq hp' (by rw [map_objects_make]; exact hs)
        rw [hlen] at this
        simp only [Views.run, ea]
        exact this

/-- At the beginning. -/
theorem Inv.init (start : Cells) (p : List Step) : Inv start p [] [] (fun _ => none) start where
  begins := ⟨p, rfl⟩
  count := rfl
  cells d := rfl
  built i how t e := by cases e
  loaded id := by
    refine ⟨fun h => absurd h (by simp), ?_⟩
    rintro ⟨j, r, -, -, s, hs, -⟩
    exact absurd hs (Nat.not_lt_zero s)
  caches j a t v _ h := by cases h
  keys j a l t _ h := by
    obtain ⟨s, hs, -⟩ := h
    exact absurd hs (Nat.not_lt_zero s)

end Goost.Views
