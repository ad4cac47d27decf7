import Verif.Lemmas.MagmaViews
import Verif.Lemmas.Feistel
/-
Helper lemmas for C128: the invariant of a program.
-/
namespace Goost.MagmaViews
open Goost.Magma (CachedData KeyDataNative encP decP)
open Spec Spec.MagmaViews

variable {start : Nat → V} {keys : Nat → Nat → W32} {p : List Step}

/-! ### Objects of a program -/

/-- The objects that the steps from the moment `t` on make. -/
def objectsFrom (t : Nat) (p : List Step) : List (How × Nat) :=
  (p.zipIdx t).filterMap fun
    | (.make how, t) => some (how, t)
    | _ => none

/-- The calls from the moment `t` on. -/
def askedFrom (t : Nat) (p : List Step) : List (Step × Nat) :=
  (p.zipIdx t).filterMap fun
    | (.ask i, t) => some (.ask i, t)
    | (.transform k x, t) => some (.transform k x, t)
    | _ => none

theorem objects_append (pre rest : List Step) : objects (pre ++ rest) = objects pre ++ objectsFrom pre.length rest := by
  simp only [objects, objectsFrom, List.zipIdx_append, List.filterMap_append, Nat.zero_add]
  rfl

theorem objects_make (pre : List Step) (how : How) : objects (pre ++ [.make how]) = objects pre ++ [(how, pre.length)] := by
  rw [objects_append]; rfl

theorem objects_other (pre : List Step) {s : Step} (h : ∀ how, s ≠ .make how) : objects (pre ++ [s]) = objects pre := by
  rw [objects_append]
  cases s with
  | make how => exact absurd rfl (h how)
  | _ => simp [objectsFrom]

theorem getElem?_prefix {α : Type} {a b : List α} {i : Nat} {x : α} (h : a[i]? = some x) : (a ++ b)[i]? = some x := by
  obtain ⟨hl, -⟩ := List.getElem?_eq_some_iff.1 h
  rw [List.getElem?_append_left hl, h]

/-! ### What rests on what -/

theorem rests_iff {i t : Nat} {how : How} (e : (objects p)[i]? = some (how, t)) (j : Nat) :
    RestsOn p i j ↔ j = i ∨ ((∀ x, how ≠ .copy x) ∧ ∃ a, a ∈ how.blocks ++ how.keys ∧ RestsOn p a j) := by
  constructor
  · intro h
    cases h with
    | self => exact .inl rfl
    | through e' hc ha h =>
      rw [e] at e'
      cases e'
      exact .inr ⟨hc, _, ha, h⟩
  · rintro (rfl | ⟨hc, a, ha, h⟩)
    · exact .self _
    · exact .through e hc ha h

/-- Keys rest on nothing. -/
theorem rests_key {i t : Nat} {how : How} (e : (objects p)[i]? = some (how, t)) (h : how.isKey = true) (j : Nat) :
    RestsOn p i j ↔ j = i := by
  rw [rests_iff e]
  cases how with
  | key c => simp [How.blocks, How.keys]
  | cachedKey c => simp [How.blocks, How.keys]
  | nativeKey c => simp [How.blocks, How.keys]
  | _ => cases h

/-- As far as caches are concerned blocks are what they rest on. -/
theorem rests_block {i t : Nat} {how : How} (e : (objects p)[i]? = some (how, t)) (h : how.isKey = false) {j c t' : Nat}
    (e' : (objects p)[j]? = some (.cachedKey c, t')) :
    RestsOn p i j ↔ ((∀ x, how ≠ .copy x) ∧ ∃ a, a ∈ how.blocks ++ how.keys ∧ RestsOn p a j) := by
  rw [rests_iff e]
  refine or_iff_right ?_
  rintro rfl
  rw [e] at e'
  cases e'
  cases h

/-- The object has been used before. -/
def UsedBefore (p : List Step) (j t : Nat) : Prop := ∃ s, s < t ∧ Uses p s j

theorem firstUse_now {j t : Nat} (h : ¬ UsedBefore p j t) : FirstUse p j t t :=
  ⟨Nat.le_refl t, fun s hs hu => h ⟨s, hs, hu⟩, .inl rfl⟩

/-- The moment of the first use, in the past. -/
def First (p : List Step) (j u : Nat) : Prop := Uses p u j ∧ ∀ s, s < u → ¬ Uses p s j

theorem First.firstUse {j t u : Nat} (h : First p j u) (hu : u < t) : FirstUse p j t u := ⟨Nat.le_of_lt hu, h.2, .inr h.1⟩

/-! ### The invariant -/

/-- The object number `i` is as it has been made. -/
def Built (start : Nat → V) (keys : Nat → Nat → W32) (p : List Step) (o : List Obj) (i : Nat) (how : How) (t : Nat) : Prop :=
  match how with
  | .own c => o[i]? = some (.block (.user (look c)))
  | .fixed v => o[i]? = some (.block (.raw v.1 v.2))
  | .copy a => ∃ v : V, o[i]? = some (.block (.raw v.1 v.2)) ∧ Shows start keys p a t (join32 v)
  | .xored a b => a < i ∧ b < i ∧ ∃ x y, o[a]? = some (.block x) ∧ o[b]? = some (.block y) ∧
      o[i]? = some (.block (.xored x y))
  | .swapped a => a < i ∧ ∃ b, o[a]? = some (.block b) ∧ o[i]? = some (.block (.swapped b))
  | .key c => o[i]? = some (.key (Live.LazyKey (shown c) substitution))
  | .cachedKey c => o[i]? = some (.key (cachedKey i c))
  | .nativeKey c => o[i]? = some (.key (Live.LazyKey (fun i => Io.lift (KeyDataNative ((List.range 8).map (wordsAt keys p c t)) i))
      substitution))
  | .encrypted b k => b < i ∧ k < i ∧ ∃ x K, o[b]? = some (.block x) ∧ o[k]? = some (.key K) ∧
      o[i]? = some (.block (BlkEncrypted x K))
  | .decrypted b k => b < i ∧ k < i ∧ ∃ x K, o[b]? = some (.block x) ∧ o[k]? = some (.key K) ∧
      o[i]? = some (.block (BlkDecrypted x K))

theorem Built.append {o : List Obj} {i t : Nat} {how : How} (h : Built start keys p o i how t) (x : List Obj) :
    Built start keys p (o ++ x) i how t := by
  cases how with
  | own c => exact getElem?_prefix h
  | fixed v => exact getElem?_prefix h
  | copy a => obtain ⟨v, h1, h2⟩ := h; exact ⟨v, getElem?_prefix h1, h2⟩
  | swapped a => obtain ⟨hi, b, h1, h2⟩ := h; exact ⟨hi, b, getElem?_prefix h1, getElem?_prefix h2⟩
  | xored a b =>
    obtain ⟨hi, hj, x, y, h1, h2, h3⟩ := h
    exact ⟨hi, hj, x, y, getElem?_prefix h1, getElem?_prefix h2, getElem?_prefix h3⟩
  | key c => exact getElem?_prefix h
  | cachedKey c => exact getElem?_prefix h
  | nativeKey c => exact getElem?_prefix h
  | encrypted b k =>
    obtain ⟨hi, hj, x, y, h1, h2, h3⟩ := h
    exact ⟨hi, hj, x, y, getElem?_prefix h1, getElem?_prefix h2, getElem?_prefix h3⟩
  | decrypted b k =>
    obtain ⟨hi, hj, x, y, h1, h2, h3⟩ := h
    exact ⟨hi, hj, x, y, getElem?_prefix h1, getElem?_prefix h2, getElem?_prefix h3⟩

/-- The state of a program after the steps `pre`. -/
structure Inv (start : Nat → V) (keys : Nat → Nat → W32) (p pre : List Step) (o : List Obj) (w : World) : Prop where
  begins : ∃ rest, p = pre ++ rest
  count : o.length = (objects pre).length
  cells : ∀ d, w.cells d = contents start p d pre.length
  words : ∀ d, w.words d = wordsAt keys p d pre.length
  built : ∀ i how t, (objects pre)[i]? = some (how, t) → Built start keys p o i how t
  caches : ∀ j c t, (objects p)[j]? = some (.cachedKey c, t) → (w.caches j).key.length = 8 ∧
    ((w.caches j).cached = true ↔ UsedBefore p j pre.length) ∧
    ((w.caches j).cached = true → ∃ u, u < pre.length ∧ First p j u ∧ (w.caches j).key = (List.range 8).map (wordsAt keys p c u))

variable {pre : List Step} {o : List Obj} {w : World}

theorem Inv.here (h : Inv start keys p pre o w) {i : Nat} {x : How × Nat} (e : (objects pre)[i]? = some x) :
    (objects p)[i]? = some x := by
  obtain ⟨rest, rfl⟩ := h.begins
  rw [objects_append]
  exact getElem?_prefix e

theorem Inv.made (h : Inv start keys p pre o w) {i : Nat} {x : Obj} (e : o[i]? = some x) :
    ∃ how t, (objects pre)[i]? = some (how, t) := by
  obtain ⟨hl, -⟩ := List.getElem?_eq_some_iff.1 e
  rw [h.count] at hl
  exact ⟨_, _, List.getElem?_eq_getElem hl⟩

theorem round_congr {f g : Nat → W32} (h : ∀ i, i < 8 → f i = g i) : round f = round g := by
  funext i
  unfold round
  rw [h i i.isLt]

/-- What a key does now. -/
theorem Inv.transforms (h : Inv start keys p pre o w) (k : Nat) (K : Live.Key World) (e : o[k]? = some (.key K)) :
    (∀ j, RestsOn p k j ↔ j = k) ∧ ∃ ws, Words keys p k pre.length ws ∧ ∀ (Q : Nat → Prop) v (i : Fin 8),
      K.transform v (i.val : Int) (loaded p Q w) = (.ok (round ws i v), loaded p (fun j => Q j ∨ RestsOn p k j) w) := by
  obtain ⟨how, t, e1⟩ := h.made e
  have hb := h.built _ _ _ e1
  have e2 := h.here e1
  cases how with
  | key c =>
    rw [Built, e] at hb; cases hb
    refine ⟨rests_key e2 rfl, _, .key e2, fun Q v i => ?_⟩
    rw [plain_eq, ← h.words c]
    congr 1
    refine loaded_congr w fun j d t' ej => ?_
    rw [rests_key e2 rfl]
    refine (or_iff_left ?_).symm
    rintro rfl
    rw [e2] at ej; cases ej
  | nativeKey c =>
    rw [Built, e] at hb; cases hb
    refine ⟨rests_key e2 rfl, _, .nativeKey e2, fun Q v i => ?_⟩
    rw [native_eq]
    congr 1
    refine loaded_congr w fun j d t' ej => ?_
    rw [rests_key e2 rfl]
    refine (or_iff_left ?_).symm
    rintro rfl
    rw [e2] at ej; cases ej
  | cachedKey c =>
    rw [Built, e] at hb; cases hb
    obtain ⟨h8, hu, hk⟩ := h.caches k c t e2
    refine ⟨rests_key e2 rfl, ?_⟩
    have hl : ∀ Q : Nat → Prop, loaded p (fun j => Q j ∨ RestsOn p k j) w = loaded p (fun j => Q j ∨ j = k) w := fun Q =>
      loaded_congr w fun j _ _ _ => by rw [rests_key e2 rfl]
    by_cases hc : (w.caches k).cached = true
    · obtain ⟨u, h1, h2, h3⟩ := hk hc
      refine ⟨_, .cachedKey e2 (h2.firstUse h1), fun Q v i => ?_⟩
      rw [cached_eq e2 h8, hl]
      have : round (now w k c) = round (wordsAt keys p c u) := round_congr fun i hi => by
        rw [now, if_pos hc, h3]
        exact range_getD _ ⟨i, hi⟩
      rw [this]
    · refine ⟨_, .cachedKey e2 (firstUse_now fun hb => hc (hu.2 hb)), fun Q v i => ?_⟩
      rw [cached_eq e2 h8, hl, now, if_neg hc, h.words c]
  | own c => rw [Built, e] at hb; cases hb
  | fixed v => rw [Built, e] at hb; cases hb
  | copy a => obtain ⟨v, hb, -⟩ := hb; rw [e] at hb; cases hb
  | swapped a => obtain ⟨-, b, -, hb⟩ := hb; rw [e] at hb; cases hb
  | xored a d => obtain ⟨-, -, x, y, -, -, hb⟩ := hb; rw [e] at hb; cases hb
  | encrypted a d => obtain ⟨-, -, x, y, -, -, hb⟩ := hb; rw [e] at hb; cases hb
  | decrypted a d => obtain ⟨-, -, x, y, -, -, hb⟩ := hb; rw [e] at hb; cases hb

theorem join32_swap (v : V) : join32 (v.2, v.1) = (join32 v).rotateLeft 32 := by
  obtain ⟨a, b⟩ := v
  simp only [join32]
  apply BitVec.eq_of_getLsbD_eq
  intro i hi
  simp only [BitVec.getLsbD_append, BitVec.getLsbD_rotateLeft]
  by_cases h : i < 32
  · simp [h]
  · have h' : i - 32 < 32 := by omega
    simp [h, h', hi]

/-- What a block shows now. -/
theorem Inv.shows (h : Inv start keys p pre o w) (i : Nat) (b : Blk) (e : o[i]? = some (.block b)) :
    ∃ v : V, Shows start keys p i pre.length (join32 v) ∧
      ∀ Q : Nat → Prop, b.value (loaded p Q w) = (.ok v, loaded p (fun j => Q j ∨ RestsOn p i j) w) := by
  induction i using Nat.strongRecOn generalizing b with
  | _ i ih =>
    obtain ⟨how, t, e1⟩ := h.made e
    have hb := h.built _ _ _ e1
    have e2 := h.here e1
    have leaf : how.isKey = false → (how.blocks ++ how.keys = [] ∨ ∃ a, how = .copy a) → ∀ Q : Nat → Prop,
        loaded p Q w = loaded p (fun j => Q j ∨ RestsOn p i j) w := by
      intro hk hn Q
      refine loaded_congr w fun j c t' ej => ?_
      rw [rests_block e2 hk ej]
      refine (or_iff_left ?_).symm
      rintro ⟨hc, a, ha, -⟩
      rcases hn with hn | ⟨x, hx⟩
      · rw [hn] at ha; cases ha
      · exact hc x hx
    have node : how.isKey = false → (∀ a, how ≠ .copy a) → ∀ (Q R : Nat → Prop),
        (∀ j, R j ↔ ∃ a, a ∈ how.blocks ++ how.keys ∧ RestsOn p a j) →
        loaded p (fun j => Q j ∨ R j) w = loaded p (fun j => Q j ∨ RestsOn p i j) w := by
      intro hk hc Q R hR
      refine loaded_congr w fun j c t' ej => ?_
      rw [rests_block e2 hk ej, hR]
      exact or_congr Iff.rfl ⟨fun h => ⟨hc, h⟩, fun h => h.2⟩
    cases how with
    | own d =>
      rw [Built, e] at hb; cases hb
      refine ⟨w.cells d, by rw [h.cells d]; exact .own e2, fun Q => ?_⟩
      rw [← leaf rfl (.inl rfl)]
      rfl
    | fixed v =>
      rw [Built, e] at hb; cases hb
      refine ⟨v, .fixed e2, fun Q => ?_⟩
      rw [← leaf rfl (.inl rfl)]
      rfl
    | copy a =>
      obtain ⟨v, hb, hs⟩ := hb
      rw [e] at hb; cases hb
      refine ⟨v, .copy e2 hs, fun Q => ?_⟩
      rw [← leaf rfl (.inr ⟨a, rfl⟩)]
      rfl
    | swapped a =>
      obtain ⟨ha, x, hx, hb⟩ := hb
      rw [e] at hb; cases hb
      obtain ⟨v, h1, h2⟩ := ih a ha x hx
      refine ⟨(v.2, v.1), by rw [join32_swap]; exact .swapped e2 h1, fun Q => ?_⟩
      rw [← node rfl (by simp) Q (RestsOn p a) (by simp [How.blocks, How.keys])]
      exact (KuzToken.bind_ok (h2 Q)).trans rfl
    | xored a d =>
      obtain ⟨ha, hd, x, y, hx, hy, hb⟩ := hb
      rw [e] at hb; cases hb
      obtain ⟨v, h1, h2⟩ := ih a ha x hx
      obtain ⟨u, h3, h4⟩ := ih d hd y hy
      refine ⟨(v.1 ^^^ u.1, v.2 ^^^ u.2), by rw [join32_xor]; exact .xored e2 h1 h3, fun Q => ?_⟩
      rw [← node rfl (by simp) Q (fun j => RestsOn p a j ∨ RestsOn p d j) (by simp [How.blocks, How.keys])]
      simp only [← or_assoc]
      exact (KuzToken.bind_ok (h2 Q)).trans ((KuzToken.bind_ok (h4 _)).trans rfl)
    | encrypted d k =>
      obtain ⟨hd, hk, x, K, hx, hK, hb⟩ := hb
      rw [e] at hb; cases hb
      obtain ⟨v, h1, h2⟩ := ih d hd x hx
      obtain ⟨-, ws, h3, h4⟩ := h.transforms k K hK
      refine ⟨encP (round ws) v, by rw [Magma.join32_encP]; exact .encrypted e2 h1 h3, fun Q => ?_⟩
      rw [← node rfl (by simp) Q (fun j => RestsOn p d j ∨ RestsOn p k j) (by simp [How.blocks, How.keys])]
      simp only [← or_assoc]
      refine encrypted_eq (fun v i => h4 _ v i) (fun v i => ?_) (h2 Q)
      rw [h4]
      simp only [or_assoc, or_self]
    | decrypted d k =>
      obtain ⟨hd, hk, x, K, hx, hK, hb⟩ := hb
      rw [e] at hb; cases hb
      obtain ⟨v, h1, h2⟩ := ih d hd x hx
      obtain ⟨-, ws, h3, h4⟩ := h.transforms k K hK
      refine ⟨decP (round ws) v, by rw [Magma.join32_decP]; exact .decrypted e2 h1 h3, fun Q => ?_⟩
      rw [← node rfl (by simp) Q (fun j => RestsOn p d j ∨ RestsOn p k j) (by simp [How.blocks, How.keys])]
      simp only [← or_assoc]
      refine decrypted_eq (fun v i => h4 _ v i) (fun v i => ?_) (h2 Q)
      rw [h4]
      simp only [or_assoc, or_self]
    | key c => rw [Built, e] at hb; cases hb
    | cachedKey c => rw [Built, e] at hb; cases hb
    | nativeKey c => rw [Built, e] at hb; cases hb

/-! ### Steps -/

theorem usedBefore_succ (t j : Nat) : UsedBefore p j (t + 1) ↔ UsedBefore p j t ∨ Uses p t j := by
  constructor
  · rintro ⟨s, hs, hu⟩
    rcases Nat.lt_succ_iff_lt_or_eq.1 hs with h | rfl
    · exact .inl ⟨s, h, hu⟩
    · exact .inr hu
  · rintro (⟨s, hs, hu⟩ | hu)
    · exact ⟨s, Nat.lt_succ_of_lt hs, hu⟩
    · exact ⟨t, Nat.lt_succ_self t, hu⟩

theorem contents_succ (start : Nat → V) {t : Nat} {s : Step} (e : p[t]? = some s) (d : Nat) :
    contents start p d (t + 1) = match s with
      | .change i x => if d = i then x else contents start p d t
      | _ => contents start p d t := by
  simp only [contents, List.take_add_one, e, Option.toList_some, List.foldl_append, List.foldl_cons, List.foldl_nil]
  cases s <;> rfl

theorem wordsAt_succ (keys : Nat → Nat → W32) {t : Nat} {s : Step} (e : p[t]? = some s) (d : Nat) :
    wordsAt keys p d (t + 1) = match s with
      | .rekey i x => if d = i then x else wordsAt keys p d t
      | _ => wordsAt keys p d t := by
  simp only [wordsAt, List.take_add_one, e, Option.toList_some, List.foldl_append, List.foldl_cons, List.foldl_nil]
  cases s <;> rfl

/-- Any step. -/
theorem Inv.step (h : Inv start keys p pre o w) {s : Step} {rest : List Step} (hp : p = pre ++ s :: rest) {R : Nat → Prop}
    (hR : ∀ j, Uses p pre.length j ↔ R j) {o' : List Obj} {w' : World}
    (hn : o'.length = (objects (pre ++ [s])).length) (hw : ∀ d, w'.cells d = contents start p d (pre.length + 1))
    (hk : ∀ d, w'.words d = wordsAt keys p d (pre.length + 1)) (hc : w'.caches = (loaded p R w).caches)
    (hb : ∀ i how t, (objects (pre ++ [s]))[i]? = some (how, t) → Built start keys p o' i how t) :
    Inv start keys p (pre ++ [s]) o' w' := by
  have hlen : (pre ++ [s]).length = pre.length + 1 := by simp
  refine ⟨⟨rest, by rw [hp]; simp⟩, hn, by rw [hlen]; exact hw, by rw [hlen]; exact hk, hb, fun j c t e => ?_⟩
  obtain ⟨h1, h2, h3⟩ := h.caches j c t e
  rw [hlen, usedBefore_succ, hR, hc]
  by_cases hl : (w.caches j).cached = true
  · rw [loaded_same e (by simp [hl])]
    refine ⟨h1, ⟨fun _ => .inl (h2.1 hl), fun _ => hl⟩, fun _ => ?_⟩
    obtain ⟨u, h4, h5⟩ := h3 hl
    exact ⟨u, by omega, h5⟩
  · have hf : (w.caches j).cached = false := by simpa using hl
    have hub : ¬ UsedBefore p j pre.length := fun hu => hl (h2.2 hu)
    by_cases hr : R j
    · rw [loaded_at e hr hf]
      refine ⟨by simp, by simp [hr], fun _ => ⟨pre.length, by omega, ⟨(hR j).2 hr, fun s hs hu => hub ⟨s, hs, hu⟩⟩, ?_⟩⟩
      rw [h.words c]
    · rw [loaded_same e (by simp [hr])]
      exact ⟨h1, by simp [hl, hub, hr], fun hx => absurd hx hl⟩

theorem Inv.object (h : Inv start keys p pre o w) {a : Nat} {how : How} {t : Nat} (e : (objects pre)[a]? = some (how, t)) :
    a < o.length := by
  rw [h.count]
  exact (List.getElem?_eq_some_iff.1 e).1

theorem Inv.block (h : Inv start keys p pre o w) {a : Nat} (ha : isBlock ((objects pre).map (·.1)) a = true) :
    a < o.length ∧ ∃ b, o[a]? = some (.block b) := by
  rw [isBlock, List.getElem?_map] at ha
  cases e : (objects pre)[a]? with
  | none => rw [e] at ha; cases ha
  | some x =>
    obtain ⟨how, t⟩ := x
    have hb := h.built _ _ _ e
    refine ⟨h.object e, ?_⟩
    rw [e] at ha
    cases how with
    | own d => exact ⟨_, hb⟩
    | fixed v => exact ⟨_, hb⟩
    | copy d => obtain ⟨v, hb, -⟩ := hb; exact ⟨_, hb⟩
    | swapped d => obtain ⟨-, b, -, hb⟩ := hb; exact ⟨_, hb⟩
    | xored d e => obtain ⟨-, -, x, y, -, -, hb⟩ := hb; exact ⟨_, hb⟩
    | encrypted d e => obtain ⟨-, -, x, y, -, -, hb⟩ := hb; exact ⟨_, hb⟩
    | decrypted d e => obtain ⟨-, -, x, y, -, -, hb⟩ := hb; exact ⟨_, hb⟩
    | key d => cases ha
    | cachedKey d => cases ha
    | nativeKey d => cases ha

theorem Inv.key (h : Inv start keys p pre o w) {a : Nat} (ha : isKey ((objects pre).map (·.1)) a = true) :
    a < o.length ∧ ∃ K, o[a]? = some (.key K) := by
  rw [isKey, List.getElem?_map] at ha
  cases e : (objects pre)[a]? with
  | none => rw [e] at ha; cases ha
  | some x =>
    obtain ⟨how, t⟩ := x
    have hb := h.built _ _ _ e
    refine ⟨h.object e, ?_⟩
    rw [e] at ha
    cases how with
    | key d => exact ⟨_, hb⟩
    | cachedKey d => exact ⟨_, hb⟩
    | nativeKey d => exact ⟨_, hb⟩
    | _ => cases ha

theorem blockAt_eq {o : List Obj} {a : Nat} {b : Blk} (h : o[a]? = some (.block b)) : blockAt o a = .ok b := by
  rw [blockAt, h]

theorem keyAt_eq {o : List Obj} {a : Nat} {k : Live.Key World} (h : o[a]? = some (.key k)) : keyAt o a = .ok k := by
  rw [keyAt, h]

theorem lift_bind {S α β : Type} {x : Exec α} {a : α} (h : x = .ok a) (f : α → Io S β) (s : S) : (Io.lift x >>= f) s = f a s :=
  KuzToken.bind_ok (by rw [h]; rfl)

/-- The objects after one more has been made. -/
theorem Inv.built_make (h : Inv start keys p pre o w) (how : How) (x : Obj)
    (hx : Built start keys p (o ++ [x]) o.length how pre.length) :
    (o ++ [x]).length = (objects (pre ++ [.make how])).length ∧
    ∀ i how' t, (objects (pre ++ [.make how]))[i]? = some (how', t) → Built start keys p (o ++ [x]) i how' t := by
  rw [objects_make]
  refine ⟨by simp [h.count], fun i how' t e => ?_⟩
  rcases Nat.lt_or_ge i (objects pre).length with hl | hl
  · rw [List.getElem?_append_left hl] at e
    exact (h.built _ _ _ e).append [x]
  · rw [List.getElem?_append_right hl] at e
    have hi : i - (objects pre).length = 0 := by
      by_contra hne
      rw [List.getElem?_eq_none (by simp; omega)] at e
      cases e
    rw [hi] at e
    cases e
    have : i = o.length := by rw [h.count]; omega
    rw [this]
    exact hx

/-- Constructors other than the copying one do nothing but make the object. -/
theorem Inv.build_quiet (h : Inv start keys p pre o w) (how : How) (hc : ∀ a, how ≠ .copy a)
    (hb : how.blocks.all (isBlock ((objects pre).map (·.1))) = true)
    (hk : how.keys.all (isKey ((objects pre).map (·.1))) = true) :
    ∃ x, build o how w = (.ok x, w) ∧ Built start keys p (o ++ [x]) o.length how pre.length := by
  have last : ∀ x : Obj, (o ++ [x])[o.length]? = some x := fun x => by simp
  cases how with
  | copy a => exact absurd rfl (hc a)
  | own d => exact ⟨_, rfl, last _⟩
  | fixed v => exact ⟨_, rfl, last _⟩
  | key d => exact ⟨_, rfl, last _⟩
  | cachedKey d => exact ⟨_, rfl, last _⟩
  | nativeKey d => exact ⟨_, rfl, by rw [h.words d]; exact last _⟩
  | swapped a =>
    simp only [How.blocks, List.all_cons, List.all_nil, Bool.and_true] at hb
    obtain ⟨hl, b, e⟩ := h.block hb
    exact ⟨_, by simp only [build]; rw [lift_bind (blockAt_eq e)]; rfl, hl, b, getElem?_prefix e, last _⟩
  | xored a d =>
    simp only [How.blocks, List.all_cons, List.all_nil, Bool.and_true, Bool.and_eq_true] at hb
    obtain ⟨hl, b, e⟩ := h.block hb.1
    obtain ⟨hl', b', e'⟩ := h.block hb.2
    exact ⟨_, by simp only [build]; rw [lift_bind (blockAt_eq e), lift_bind (blockAt_eq e')]; rfl, hl, hl', b, b',
      getElem?_prefix e, getElem?_prefix e', last _⟩
  | encrypted a k =>
    simp only [How.blocks, How.keys, List.all_cons, List.all_nil, Bool.and_true] at hb hk
    obtain ⟨hl, b, e⟩ := h.block hb
    obtain ⟨hl', K, e'⟩ := h.key hk
    exact ⟨_, by simp only [build]; rw [lift_bind (blockAt_eq e), lift_bind (keyAt_eq e')]; rfl, hl, hl', b, K,
      getElem?_prefix e, getElem?_prefix e', last _⟩
  | decrypted a k =>
    simp only [How.blocks, How.keys, List.all_cons, List.all_nil, Bool.and_true] at hb hk
    obtain ⟨hl, b, e⟩ := h.block hb
    obtain ⟨hl', K, e'⟩ := h.key hk
    exact ⟨_, by simp only [build]; rw [lift_bind (blockAt_eq e), lift_bind (keyAt_eq e')]; rfl, hl, hl', b, K,
      getElem?_prefix e, getElem?_prefix e', last _⟩

theorem map_objects_make (pre : List Step) (how : How) :
    (objects (pre ++ [.make how])).map (·.1) = (objects pre).map (·.1) ++ [how] := by
  rw [objects_make]; simp

theorem uses_iff {t j : Nat} {s : Step} (e : p[t]? = some s) :
    Uses p t j ↔ (∃ i, (s = .ask i ∨ s = .make (.copy i)) ∧ RestsOn p i j) ∨ ∃ x, s = .transform j x := by
  simp [Uses, e]

/-- A step that uses nothing. -/
theorem Inv.quiet (h : Inv start keys p pre o w) {s : Step} {rest : List Step} (hp : p = pre ++ s :: rest)
    (h1 : ∀ i, s ≠ .ask i) (h2 : ∀ i, s ≠ .make (.copy i)) (h3 : ∀ k x, s ≠ .transform k x) {o' : List Obj} {w' : World}
    (hn : o'.length = (objects (pre ++ [s])).length) (hw : ∀ d, w'.cells d = contents start p d (pre.length + 1))
    (hk : ∀ d, w'.words d = wordsAt keys p d (pre.length + 1)) (hc : w'.caches = w.caches)
    (hb : ∀ i how t, (objects (pre ++ [s]))[i]? = some (how, t) → Built start keys p o' i how t) :
    Inv start keys p (pre ++ [s]) o' w' := by
  have hs : p[pre.length]? = some s := by rw [hp]; simp
  refine h.step hp (R := fun _ => False) (fun j => ?_) hn hw hk (by rw [loaded_none]; exact hc) hb
  rw [uses_iff hs]
  simp [h1, h2, h3]

/-- All answers from any moment on. -/
theorem Inv.run (rest : List Step) (pre : List Step) (o : List Obj) (w : World)
    (h : Inv start keys p pre o w) (hp : p = pre ++ rest) (hs : sound ((objects pre).map (·.1)) rest = true) :
    List.Forall₂ (fun x q => ∃ a, x = .ok a ∧ Right start keys p q.2 q.1 a) (run rest o w) (askedFrom pre.length rest) := by
  induction rest generalizing pre o w with
  | nil => exact .nil
  | cons s r ih =>
    have hp' : p = (pre ++ [s]) ++ r := by rw [hp]; simp
    have hps : p[pre.length]? = some s := by rw [hp]; simp
    have hlen : (pre ++ [s]).length = pre.length + 1 := by simp
    cases s with
    | change d v =>
      have ho := objects_other pre (s := .change d v) (by simp)
      have hq := h.quiet (o' := o) (w' := { w with cells := fun i => if i = d then v else w.cells i }) hp (by simp) (by simp)
        (by simp) (by rw [ho]; exact h.count)
        (fun i => by rw [contents_succ start hps, ← h.cells i]) (fun i => by rw [wordsAt_succ keys hps, ← h.words i]) rfl
        (by rw [ho]; exact h.built)
      have := ih _ _ _ hq hp' (by rw [ho]; exact hs)
      rw [hlen] at this
      exact this
    | rekey d v =>
      have ho := objects_other pre (s := .rekey d v) (by simp)
      have hq := h.quiet (o' := o) (w' := { w with words := fun i => if i = d then v else w.words i }) hp (by simp) (by simp)
        (by simp) (by rw [ho]; exact h.count)
        (fun i => by rw [contents_succ start hps, ← h.cells i]) (fun i => by rw [wordsAt_succ keys hps, ← h.words i]) rfl
        (by rw [ho]; exact h.built)
      have := ih _ _ _ hq hp' (by rw [ho]; exact hs)
      rw [hlen] at this
      exact this
    | ask i =>
      simp only [sound, Bool.and_eq_true] at hs
      have ho := objects_other pre (s := .ask i) (by simp)
      obtain ⟨-, b, hb⟩ := h.block hs.1
      obtain ⟨v, e1, e2⟩ := h.shows i b hb
      have e3 := e2 (fun _ => False)
      rw [loaded_none] at e3
      simp only [false_or] at e3
      have hq := h.step (o' := o) (w' := loaded p (RestsOn p i) w) hp (R := RestsOn p i)
        (fun j => by rw [uses_iff hps]; simp) (by rw [ho]; exact h.count)
        (fun i => by rw [contents_succ start hps, ← h.cells i]; rfl) (fun i => by rw [wordsAt_succ keys hps, ← h.words i]; rfl) rfl
        (by rw [ho]; exact h.built)
      have := ih _ _ _ hq hp' (by rw [ho]; exact hs.2)
      rw [hlen] at this
      have ea : ask o i w = (.ok (.pair v), loaded p (RestsOn p i) w) := by
        unfold ask
        rw [lift_bind (blockAt_eq hb)]
        exact (KuzToken.bind_ok e3).trans rfl
      simp only [MagmaViews.run, ea]
      exact .cons ⟨_, rfl, e1⟩ this
    | transform k x =>
      simp only [sound, Bool.and_eq_true] at hs
      have ho := objects_other pre (s := .transform k x) (by simp)
      obtain ⟨-, K, hK⟩ := h.key hs.1
      obtain ⟨hr, ws, e1, e2⟩ := h.transforms k K hK
      have e3 := e2 (fun _ => False)
      rw [loaded_none] at e3
      simp only [false_or] at e3
      have e4 := e2 (RestsOn p k)
      simp only [or_self] at e4
      have hq := h.step (o' := o) (w' := loaded p (RestsOn p k) w) hp (R := RestsOn p k)
        (fun j => by rw [uses_iff hps, hr]; simp [eq_comm]) (by rw [ho]; exact h.count)
        (fun i => by rw [contents_succ start hps, ← h.cells i]; rfl) (fun i => by rw [wordsAt_succ keys hps, ← h.words i]; rfl) rfl
        (by rw [ho]; exact h.built)
      have := ih _ _ _ hq hp' (by rw [ho]; exact hs.2)
      rw [hlen] at this
      have ea : transform o k x w = (.ok (.word (Spec.Magma.encF (round ws) x)), loaded p (RestsOn p k) w) := by
        unfold transform
        rw [lift_bind (keyAt_eq hK)]
        exact (KuzToken.bind_ok (transform_eq e3 e4 x)).trans rfl
      simp only [MagmaViews.run, ea]
      exact .cons ⟨_, rfl, ws, e1, rfl⟩ this
    | make how =>
      simp only [sound, Bool.and_eq_true] at hs
      obtain ⟨⟨hb, hk⟩, hs⟩ := hs
      by_cases hc : ∃ a, how = .copy a
      · obtain ⟨a, rfl⟩ := hc
        simp only [How.blocks, List.all_cons, List.all_nil, Bool.and_true] at hb
        obtain ⟨-, b, hb⟩ := h.block hb
        obtain ⟨v, e1, e2⟩ := h.shows a b hb
        have e3 := e2 (fun _ => False)
        rw [loaded_none] at e3
        simp only [false_or] at e3
        have hbm := h.built_make (.copy a) (.block (.raw v.1 v.2)) ⟨v, by simp, e1⟩
        have hq := h.step (w' := loaded p (RestsOn p a) w) hp (R := RestsOn p a)
          (fun j => by rw [uses_iff hps]; simp) hbm.1
          (fun i => by rw [contents_succ start hps, ← h.cells i]; rfl) (fun i => by rw [wordsAt_succ keys hps, ← h.words i]; rfl)
          rfl hbm.2
        have := ih _ _ _ hq hp' (by rw [map_objects_make]; exact hs)
        rw [hlen] at this
        have ea : build o (.copy a) w = (.ok (.block (.raw v.1 v.2)), loaded p (RestsOn p a) w) := by
          simp only [build]
          rw [lift_bind (blockAt_eq hb)]
          exact (KuzToken.bind_ok e3).trans rfl
        simp only [MagmaViews.run, ea]
        exact this
      · have hc' : ∀ a, how ≠ .copy a := fun a e => hc ⟨a, e⟩
        obtain ⟨x, ea, hx⟩ := h.build_quiet how hc' hb hk
        have hbm := h.built_make how x hx
        have hq := h.quiet (o' := o ++ [x]) (w' := w) hp (by simp)
          (fun i e => by cases e; exact hc' i rfl) (by simp) hbm.1
          (fun i => by rw [contents_succ start hps, h.cells i]) (fun i => by rw [wordsAt_succ keys hps, h.words i]) rfl hbm.2
        have := ih _ _ _ hq hp' (by rw [map_objects_make]; exact hs)
        rw [hlen] at this
        simp only [MagmaViews.run, ea]
        exact this

/-- At the beginning. -/
theorem Inv.init (start : Nat → V) (keys : Nat → Nat → W32) (p : List Step) : Inv start keys p [] [] ⟨start, keys, fun _ => {}⟩ where
  begins := ⟨p, rfl⟩
  count := rfl
  cells d := rfl
  words d := rfl
  built i how t e := by cases e
  caches j c t e := by
    refine ⟨rfl, ⟨fun h => absurd h (by simp), ?_⟩, fun h => absurd h (by simp)⟩
    rintro ⟨s, hs, -⟩
    exact absurd hs (Nat.not_lt_zero s)

end Goost.MagmaViews
