import Verif.Spec.Memory
/-
Lemmas for C99: the reference counts are the numbers of pointers.
-/
namespace Goost.Mem
open Spec.Mem

def Obj.isIterator : Obj → Bool
  | .itMemory _ _ _ | .itCtr _ _ _ => true
  | _ => false

/-- The number of pointers to `q` in objects that exist. -/
def own : Heap → Ptr → Nat
  | [], _ => 0
  | c :: h, q => (if c.count = 0 then 0 else c.obj.members.count q) + own h q

/-- Counts are right: `refs` are the pointers outside of objects. -/
def Inv (h : Heap) (refs : List Ptr) : Prop := ∀ q, h.count q = refs.count q + own h q

/-- What the objects of a heap satisfy, whatever their counts. -/
def Fits (os : List Obj) (i : Nat) (o : Obj) : Prop :=
  (∀ q ∈ o.members, q < i) ∧
  match o with
  | .stCtr s _ => ∃ x, os[s]? = some x ∧ x.isStream
  | .itMemory s _ _ => s < i ∧ ∃ d, os[s]? = some (.stMemory d)
  | .itCtr (some j) _ _ => ∃ x, os[j]? = some x ∧ x.isIterator
  | _ => True

def Static (os : List Obj) : Prop := ∀ i o, os[i]? = some o → Fits os i o

def objs (h : Heap) : List Obj := h.map Cell.obj

theorem own_append (h : Heap) (c : Cell) (q : Ptr) :
    own (h ++ [c]) q = own h q + (if c.count = 0 then 0 else c.obj.members.count q) := by
  induction h with
  | nil => simp [own]
  | cons a h ih => simp only [List.cons_append, own, ih]; omega

theorem count_eq {h : Heap} {p : Ptr} {c : Cell} (e : h[p]? = some c) : h.count p = c.count := by
  simp [Heap.count, e]

theorem count_ge {h : Heap} {p : Ptr} (e : h.length ≤ p) : h.count p = 0 := by
  simp [Heap.count, List.getElem?_eq_none e]

theorem exists_of_count {h : Heap} {p : Ptr} (e : h.count p ≠ 0) : ∃ c, h[p]? = some c ∧ c.count ≠ 0 := by
  cases e1 : h[p]? with
  | none => simp [Heap.count, e1] at e
  | some c => exact ⟨c, rfl, by rwa [count_eq e1] at e⟩

theorem count_modify (h : Heap) (p q : Ptr) (f : Cell → Cell) :
    Heap.count (h.modify p f) q =
      if p = q then ((h[p]?.map f).map Cell.count).getD 0 else h.count q := by
  unfold Heap.count
  rw [List.getElem?_modify]
  split
  · subst q; rfl
  · simp

theorem own_modify_same (h : Heap) : ∀ (p q : Ptr) (f : Cell → Cell) (c : Cell), h[p]? = some c →
    (f c).obj = c.obj → ((f c).count = 0 ↔ c.count = 0) → own (h.modify p f) q = own h q := by
  induction h with
  | nil => intro p q f c e; simp at e
  | cons a h ih =>
    intro p q f c e ho hc
    cases p with
    | zero =>
      simp at e; subst e
      simp only [List.modify_zero_cons, own, ho, hc]
    | succ p =>
      simp at e
      simp only [List.modify_succ_cons, own, ih p q f c e ho hc]

theorem own_modify_dead (h : Heap) : ∀ (p q : Ptr) (f : Cell → Cell) (c : Cell), h[p]? = some c →
    (f c).count = 0 → c.count ≠ 0 → own h q = own (h.modify p f) q + c.obj.members.count q := by
  induction h with
  | nil => intro p q f c e; simp at e
  | cons a h ih =>
    intro p q f c e hf hc
    cases p with
    | zero =>
      simp at e; subst e
      simp only [List.modify_zero_cons, own, hf, hc, if_true, if_false]; omega
    | succ p =>
      simp at e
      simp only [List.modify_succ_cons, own, ih p q f c e hf hc]; omega

theorem objs_modify (h : Heap) (p : Ptr) (f : Cell → Cell) (hf : ∀ c, (f c).obj = c.obj) :
    objs (h.modify p f) = objs h := by
  unfold objs
  apply List.ext_getElem?
  intro i
  simp only [List.getElem?_map, List.getElem?_modify]
  cases h[i]? with
  | none => simp
  | some c => by_cases e : p = i <;> simp [e, hf]

theorem objs_incr (h : Heap) (p : Ptr) : objs (h.incr p) = objs h := objs_modify h p _ fun _ => rfl

theorem objs_incrs (ms : List Ptr) : ∀ h : Heap, objs (ms.foldl Heap.incr h) = objs h := by
  induction ms with
  | nil => intro h; rfl
  | cons m ms ih => intro h; rw [List.foldl_cons, ih, objs_incr]

theorem objs_release (n : Nat) : ∀ (h : Heap) (p : Ptr), objs (h.release n p) = objs h := by
  induction n with
  | zero => intro h p; rfl
  | succ n ih =>
    intro h p
    have hf : ∀ (ms : List Ptr) (h : Heap), objs (ms.foldl (Heap.release n) h) = objs h := by
      intro ms
      induction ms with
      | nil => intro h; rfl
      | cons m ms ih2 => intro h; rw [List.foldl_cons, ih2, ih]
    unfold Heap.release
    cases h[p]? with
    | none => rfl
    | some c =>
      dsimp only
      split
      · rw [hf]; exact objs_modify _ _ _ fun _ => rfl
      · exact objs_modify _ _ _ fun _ => rfl

theorem Inv.incr {h : Heap} {refs : List Ptr} (hi : Inv h refs) {p : Ptr} (hp : h.count p ≠ 0) :
    Inv (h.incr p) (p :: refs) := by
  obtain ⟨c, e, hc⟩ := exists_of_count hp
  intro q
  have h1 := hi q
  rw [Heap.incr, count_modify, own_modify_same h p q _ c e rfl (by simp; exact hc)]
  by_cases h2 : p = q
  · subst q
    rw [count_eq e] at h1
    simp [e]; omega
  · simp [h2]; omega

theorem count_incr_ne {h : Heap} {p q : Ptr} (hq : h.count q ≠ 0) : (h.incr p).count q ≠ 0 := by
  rw [Heap.incr, count_modify]
  split
  · subst q
    obtain ⟨c, e, _⟩ := exists_of_count hq
    simp [e]
  · exact hq

theorem Inv.incrs (ms : List Ptr) : ∀ {h : Heap} {refs : List Ptr}, Inv h refs →
    (∀ p ∈ ms, h.count p ≠ 0) → Inv (ms.foldl Heap.incr h) (ms ++ refs) := by
  induction ms with
  | nil => intro h refs hi _; exact hi
  | cons m ms ih =>
    intro h refs hi hm
    have h1 := hi.incr (hm m (by simp))
    have h2 := ih h1 fun p hp => count_incr_ne (hm p (by simp [hp]))
    intro q
    have := h2 q
    simp only [List.foldl_cons, List.cons_append, List.count_append, List.count_cons] at this ⊢
    omega

theorem length_incrs (ms : List Ptr) (h : Heap) : (ms.foldl Heap.incr h).length = h.length := by
  have := congrArg List.length (objs_incrs ms h)
  simpa [objs] using this

theorem Inv.alloc {h : Heap} {refs : List Ptr} (hi : Inv h refs) {o : Obj}
    (hm : ∀ p ∈ o.members, h.count p ≠ 0) : Inv (h.alloc o).1 (h.length :: refs) := by
  have h1 := Inv.incrs o.members hi hm
  intro q
  have h2 := h1 q
  have h3 := length_incrs o.members h
  simp only [Heap.alloc]
  rw [own_append]
  simp only [List.count_append, List.count_cons] at h2 ⊢
  have h4 : Heap.count (o.members.foldl Heap.incr h ++ [⟨o, 1⟩]) q =
      (o.members.foldl Heap.incr h).count q + if h.length = q then 1 else 0 := by
    unfold Heap.count
    rw [List.getElem?_append]
    split
    · rename_i hlt; rw [if_neg (by omega)]; rfl
    · rename_i hlt
      rw [List.getElem?_eq_none (l := o.members.foldl Heap.incr h) (by omega)]
      by_cases e : h.length = q
      · simp [h3, e]
      · rw [if_neg e, List.getElem?_eq_none (l := [(⟨o, 1⟩ : Cell)])
          (by simp only [List.length_singleton]; omega)]
        rfl
  rw [h4]
  simp
  omega

theorem objs_alloc (h : Heap) (o : Obj) : objs (h.alloc o).1 = objs h ++ [o] := by
  simp only [Heap.alloc]
  rw [objs, List.map_append, ← objs, objs_incrs]; rfl

theorem Inv.perm {h : Heap} {r r' : List Ptr} (hi : Inv h r) (e : ∀ q, r.count q = r'.count q) :
    Inv h r' := fun q => by rw [hi q, e]

theorem Inv.release (n : Nat) : ∀ {h : Heap} {refs : List Ptr} {p : Ptr}, Static (objs h) →
    Inv h (p :: refs) → p < n → Inv (h.release n p) refs := by
  induction n with
  | zero => intro h refs p _ _ hp; omega
  | succ n ih =>
    intro h refs p hs hi hp
    have hf : ∀ (ms : List Ptr) (h : Heap), (∀ q ∈ ms, q < n) → Static (objs h) → Inv h (ms ++ refs) →
        Inv (ms.foldl (Heap.release n) h) refs := by
      intro ms
      induction ms with
      | nil => intro h _ _ hi; exact hi
      | cons m ms ih2 =>
        intro h hm hs hi
        refine ih2 _ (fun q hq => hm q (by simp [hq])) (by rw [objs_release]; exact hs) ?_
        exact ih hs (by simpa using hi) (hm m (by simp))
    have hpos : h.count p ≠ 0 := by have := hi p; simp at this; omega
    obtain ⟨c, e, hc⟩ := exists_of_count hpos
    unfold Heap.release
    rw [e]
    dsimp only
    split
    · rename_i h0
      refine hf _ _ ?_ (by rw [objs_modify h p (fun c => { c with count := c.count - 1 }) fun _ => rfl]; exact hs) ?_
      · intro q hq
        have := (hs p c.obj (by simp [objs, e])).1 q hq
        omega
      · intro q
        have h1 := hi q
        have h2 := own_modify_dead h p q (fun c => { c with count := c.count - 1 }) c e h0 hc
        rw [count_modify]
        simp only [List.count_append, List.count_cons] at h1 ⊢
        by_cases h3 : p = q
        · subst q
          rw [count_eq e] at h1
          simp [e] at h1 ⊢; omega
        · simp [h3] at h1 ⊢; omega
    · rename_i h0
      intro q
      have h1 := hi q
      rw [count_modify, own_modify_same h p q _ c e rfl (by simp; omega)]
      simp only [List.count_cons] at h1
      by_cases h3 : p = q
      · subst q
        rw [count_eq e] at h1
        simp [e] at h1 ⊢; omega
      · simp [h3] at h1 ⊢; omega

/-- Reached from `refs` by members. -/
inductive R (os : List Obj) (refs : List Ptr) : Ptr → Prop
  | ref {p : Ptr} (h : p ∈ refs) : R os refs p
  | member {p q : Ptr} {o : Obj} (hp : R os refs p) (ho : os[p]? = some o) (hq : q ∈ o.members) :
      R os refs q

structure Good (h : Heap) (refs : List Ptr) : Prop where
  static : Static (objs h)
  inv : Inv h refs

theorem own_ge (h : Heap) : ∀ (p q : Ptr) (c : Cell), h[p]? = some c → c.count ≠ 0 →
    c.obj.members.count q ≤ own h q := by
  induction h with
  | nil => intro p q c e; simp at e
  | cons a h ih =>
    intro p q c e hc
    cases p with
    | zero => simp at e; subst e; simp only [own, hc, if_false]; omega
    | succ p => simp at e; have := ih p q c e hc; simp only [own]; omega

theorem own_pos (h : Heap) (q : Ptr) (e : own h q ≠ 0) :
    ∃ (p : Ptr) (c : Cell), h[p]? = some c ∧ c.count ≠ 0 ∧ q ∈ c.obj.members := by
  induction h with
  | nil => simp [own] at e
  | cons a h ih =>
    by_cases h1 : own h q = 0
    · simp only [own, h1] at e
      by_cases h2 : a.count = 0
      · simp [h2] at e
      · simp [h2] at e
        exact ⟨0, a, rfl, h2, List.count_pos_iff.1 (Nat.pos_of_ne_zero e)⟩
    · obtain ⟨p, c, h3, h4⟩ := ih h1
      exact ⟨p + 1, c, by simpa using h3, h4⟩

theorem Good.alive_iff {h : Heap} {refs : List Ptr} (g : Good h refs) (p : Ptr) :
    h.count p ≠ 0 ↔ R (objs h) refs p := by
  constructor
  · have key : ∀ (n : Nat) (p : Ptr), h.length - p ≤ n → h.count p ≠ 0 → R (objs h) refs p := by
      intro n
      induction n with
      | zero => intro p hn hp; exact absurd (count_ge (by omega)) hp
      | succ n ih =>
        intro p hn hp
        by_cases h1 : p ∈ refs
        · exact .ref h1
        · have h2 := g.inv p
          rw [List.count_eq_zero.2 h1] at h2
          obtain ⟨r, c, e1, e2, e3⟩ := own_pos h p (by omega)
          have e4 : (objs h)[r]? = some c.obj := by simp [objs, e1]
          have h3 := (g.static r c.obj e4).1 p e3
          exact .member (ih r (by omega) (by rw [count_eq e1]; exact e2)) e4 e3
    exact key _ p (Nat.le_refl _)
  · intro hr
    induction hr with
    | ref hp => have := g.inv; rename_i q; have h1 := this q; have := List.count_pos_iff.2 hp; omega
    | member _ ho hq ih =>
      rename_i p q o _
      obtain ⟨c, e1, e2⟩ := exists_of_count ih
      simp [objs, e1] at ho
      have h1 := own_ge h p q c e1 e2
      rw [ho] at h1
      have := List.count_pos_iff.2 hq
      have := g.inv q
      omega

theorem R.mono {os os' : List Obj} {refs refs' : List Ptr} (ho : os <+: os')
    (hr : ∀ p ∈ refs, p ∈ refs') {p : Ptr} (h : R os refs p) : R os' refs' p := by
  induction h with
  | ref hp => exact .ref (hr _ hp)
  | member _ e hq ih =>
    obtain ⟨t, rfl⟩ := ho
    refine .member ih ?_ hq
    rw [List.getElem?_append_left (by
      have := List.getElem?_eq_some_iff.1 e; exact this.1)]
    exact e

theorem prefix_getElem? {os os' : List Obj} (ho : os <+: os') {i : Nat} {o : Obj}
    (e : os[i]? = some o) : os'[i]? = some o := by
  obtain ⟨t, rfl⟩ := ho
  rw [List.getElem?_append_left (List.getElem?_eq_some_iff.1 e).1]
  exact e

theorem Fits.mono {os os' : List Obj} (ho : os <+: os') {i : Nat} {o : Obj} (h : Fits os i o) :
    Fits os' i o := by
  refine ⟨h.1, ?_⟩
  have h2 := h.2
  cases o with
  | stMemory d => trivial
  | stCtr s k => obtain ⟨x, e, hx⟩ := h2; exact ⟨x, prefix_getElem? ho e, hx⟩
  | itMemory s off d => obtain ⟨e1, x, e⟩ := h2; exact ⟨e1, x, prefix_getElem? ho e⟩
  | itCtr j k c =>
    cases j with
    | none => trivial
    | some j => obtain ⟨x, e, hx⟩ := h2; exact ⟨x, prefix_getElem? ho e, hx⟩
  | other ms => trivial

theorem Static.append {os : List Obj} (h : Static os) {o : Obj} (ho : Fits os os.length o) :
    Static (os ++ [o]) := by
  intro i x e
  have hp : os <+: os ++ [o] := List.prefix_append _ _
  rw [List.getElem?_append] at e
  split at e
  · exact (h i x e).mono hp
  · rename_i hl
    have h1 : i - os.length = 0 := by
      have := (List.getElem?_eq_some_iff.1 e).1
      simp at this; omega
    rw [h1] at e
    simp at e
    subst e
    have : i = os.length := by omega
    subst this
    exact ho.mono hp

theorem objs_length (h : Heap) : (objs h).length = h.length := by simp [objs]

theorem Good.alloc {h : Heap} {refs : List Ptr} (g : Good h refs) {o : Obj}
    (ho : Fits (objs h) h.length o) (hm : ∀ p ∈ o.members, R (objs h) refs p) :
    Good (h.alloc o).1 (h.length :: refs) where
  static := by rw [objs_alloc]; exact g.static.append (by rw [objs_length]; exact ho)
  inv := g.inv.alloc fun p hp => (g.alive_iff p).2 (hm p hp)

theorem Good.release {h : Heap} {refs : List Ptr} {p : Ptr} (g : Good h (p :: refs)) :
    Good (h.release (p + 1) p) refs where
  static := by rw [objs_release]; exact g.static
  inv := g.inv.release _ g.static (Nat.lt_succ_self p)

theorem Good.perm {h : Heap} {r r' : List Ptr} (g : Good h r) (e : ∀ q, r.count q = r'.count q) :
    Good h r' := ⟨g.static, g.inv.perm e⟩

theorem Good.lt {h : Heap} {refs : List Ptr} (g : Good h refs) {p : Ptr} (hp : R (objs h) refs p) :
    p < h.length := by
  obtain ⟨c, e, _⟩ := exists_of_count ((g.alive_iff p).2 hp)
  exact (List.getElem?_eq_some_iff.1 e).1

theorem Good.load {h : Heap} {refs : List Ptr} (g : Good h refs) {p : Ptr} (hp : R (objs h) refs p) :
    ∃ o, h.load p = .ok o ∧ (objs h)[p]? = some o := by
  obtain ⟨c, e, hc⟩ := exists_of_count ((g.alive_iff p).2 hp)
  exact ⟨c.obj, by simp [Heap.load, e, hc], by simp [objs, e]⟩

theorem R.member' {os : List Obj} {refs : List Ptr} {p q : Ptr} {o : Obj} (ho : os[p]? = some o)
    (hp : R os refs p) (hq : q ∈ o.members) : R os refs q := .member hp ho hq

/-- What a call that returns an iterator leaves behind. -/
structure Returns (h : Heap) (refs : List Ptr) (n : Option Ptr) (h' : Heap) : Prop where
  good : Good h' (n.toList ++ refs)
  ext : objs h <+: objs h'
  iter : ∀ i, n = some i → ∃ x, (objs h')[i]? = some x ∧ x.isIterator

theorem nextIter_cases (data : List W64) (offset : Nat) :
    (∃ r, Kuz.StMemory.nextIter data offset = .ok r) ∨
      Kuz.StMemory.nextIter data offset = .ub .oobRead := by
  unfold Kuz.StMemory.nextIter vget
  split
  · exact .inl ⟨_, rfl⟩
  · cases h1 : data[offset / 8]? <;> cases h2 : data[offset / 8 + 1]? <;> simp

theorem length_alloc (h : Heap) (o : Obj) : (h.alloc o).1.length = h.length + 1 := by
  have := congrArg List.length (objs_alloc h o)
  simpa [objs_length] using this

/-- A block and an object that has it as a member are made, and the pointer to the block is
destroyed. -/
def make2 (h : Heap) (ms : List Ptr) (o : Obj) : Heap :=
  Heap.release (h.length + 1) ((h.alloc (.other ms)).1.alloc o).1 h.length

theorem objs_make2 (h : Heap) (ms : List Ptr) (o : Obj) :
    objs (make2 h ms o) = objs h ++ [.other ms, o] := by
  rw [make2, objs_release, objs_alloc, objs_alloc]; simp

theorem Good.make2 {h : Heap} {refs : List Ptr} (g : Good h refs) {ms : List Ptr} {o : Obj}
    (hm : ∀ p ∈ ms, R (objs h) refs p) (ho : Fits (objs h ++ [.other ms]) (h.length + 1) o)
    (hr : ∀ p ∈ o.members, p = h.length ∨ R (objs h) refs p) :
    Good (make2 h ms o) ((h.length + 1) :: refs) := by
  have g1 := g.alloc (o := .other ms) ⟨fun p hp => g.lt (hm p hp), trivial⟩ hm
  have g2 := g1.alloc (o := o) (by rw [objs_alloc, length_alloc]; exact ho) (by
    intro p hp
    rcases hr p hp with rfl | h1
    · exact .ref (by simp)
    · exact h1.mono (by rw [objs_alloc]; exact List.prefix_append _ _) (by simp; intros; right; assumption))
  rw [length_alloc] at g2
  have g3 : Good _ (h.length :: (h.length + 1) :: refs) := g2.perm (by
    intro q; simp only [List.count_cons]; omega)
  exact g3.release

theorem nextIter_spec {h : Heap} {refs : List Ptr} (g : Good h refs) {s : Ptr} {data : List W64}
    (hs : (objs h)[s]? = some (.stMemory data)) (offset : Nat) :
    (∃ n h', nextIter h s data offset = .ok (n, h') ∧ Returns h refs n h') ∨
      nextIter h s data offset = .ub .oobRead := by
  unfold nextIter
  rcases nextIter_cases data offset with ⟨r, e⟩ | e
  · rw [e]
    left
    cases r with
    | none => exact ⟨none, h, rfl, g, List.prefix_refl _, by simp⟩
    | some x =>
      refine ⟨some (h.alloc (.other [])).1.length, make2 h [] (.itMemory s offset h.length), rfl, ?_⟩
      rw [length_alloc]
      have hslt : s < h.length := by
        rw [← objs_length]; exact (List.getElem?_eq_some_iff.1 hs).1
      refine ⟨?_, ?_, ?_⟩
      · exact g.make2 (by simp) ⟨by simp [Obj.members], by omega, data,
          prefix_getElem? (List.prefix_append _ _) hs⟩ (by simp [Obj.members])
      · rw [objs_make2]; exact List.prefix_append _ _
      · rintro i hi
        simp only [Option.some.injEq] at hi
        subst hi
        refine ⟨.itMemory s offset h.length, ?_, rfl⟩
        rw [objs_make2, List.getElem?_append_right (by simp [objs_length])]
        simp [objs_length]
  · rw [e]; right; rfl

/-- A layer of counter mode is put around an iterator, or none, that a call has returned. -/
theorem Returns.wrap {h h' : Heap} {refs : List Ptr} {n : Option Ptr} (r : Returns h refs n h')
    {k : Ptr} {ms : List Ptr} (hk : R (objs h) refs k) (hm : ∀ p ∈ ms, R (objs h) refs p) :
    Returns h refs (some (h'.alloc (.other ms)).1.length)
      (n.toList.foldl (fun h i => h.release (i + 1) i) (make2 h' ms (.itCtr n k h'.length))) := by
  have sub : ∀ p ∈ refs, p ∈ n.toList ++ refs := by simp; intros; right; assumption
  have hk' := hk.mono r.ext sub
  have hm' := fun p hp => (hm p hp).mono r.ext sub
  have g := r.good.make2 (ms := ms) (o := .itCtr n k h'.length) hm'
    ⟨by
      simp only [Obj.members, List.mem_append, Option.mem_toList, List.mem_cons, List.not_mem_nil, or_false]
      rintro q (h1 | rfl | rfl)
      · have := r.good.lt (.ref (p := q) (by simp [h1])); omega
      · have := r.good.lt hk'; omega
      · omega,
     by
      cases n with
      | none => trivial
      | some i =>
        obtain ⟨x, h1, h2⟩ := r.iter i rfl
        exact ⟨x, prefix_getElem? (List.prefix_append _ _) h1, h2⟩⟩
    (by
      simp only [Obj.members, List.mem_append, Option.mem_toList, List.mem_cons, List.not_mem_nil, or_false]
      rintro q (h1 | rfl | rfl)
      · exact .inr (.ref (by simp [h1]))
      · exact .inr hk'
      · exact .inl rfl)
  have ho : objs (n.toList.foldl (fun h i => h.release (i + 1) i)
      (Mem.make2 h' ms (.itCtr n k h'.length))) = objs h' ++ [.other ms, .itCtr n k h'.length] := by
    rw [← objs_make2]
    cases n with
    | none => rfl
    | some i => exact objs_release _ _ _
  rw [length_alloc]
  refine ⟨?_, ?_, ?_⟩
  · cases n with
    | none => exact g
    | some i =>
      have g' : Good _ (i :: (h'.length + 1) :: refs) := g.perm (by
        intro q; simp only [Option.toList_some, List.count_cons, List.cons_append, List.nil_append]; omega)
      exact g'.release
  · rw [ho]; exact r.ext.trans (List.prefix_append _ _)
  · rintro i hi
    simp only [Option.some.injEq] at hi
    subst hi
    refine ⟨.itCtr n k h'.length, ?_, rfl⟩
    rw [ho, List.getElem?_append_right (by simp [objs_length])]
    simp [objs_length]

theorem iter_spec (fuel : Nat) : ∀ {h : Heap} {refs : List Ptr} {p : Ptr}, Good h refs →
    R (objs h) refs p → p < fuel →
    (∃ n h', iter fuel h p = .ok (n, h') ∧ Returns h refs n h') ∨ iter fuel h p = .ub .oobRead := by
  induction fuel with
  | zero => intro h refs p _ _ hp; omega
  | succ fuel ih =>
    intro h refs p g hr hp
    obtain ⟨o, e1, e2⟩ := g.load hr
    unfold iter
    rw [e1, Exec.ok_bind]
    have hf := (g.static p o e2)
    have same : ∃ n h', (Exec.ok (none, h) : Exec (Option Ptr × Heap)) = .ok (n, h') ∧ Returns h refs n h' :=
      ⟨none, h, rfl, g, List.prefix_refl _, by simp⟩
    cases o with
    | stMemory data => exact nextIter_spec g e2 0
    | stCtr s k =>
      dsimp only
      have hs : R (objs h) refs s := .member hr e2 (by simp [Obj.members])
      have hk : R (objs h) refs k := .member hr e2 (by simp [Obj.members])
      have hlt := hf.1 s (by simp [Obj.members])
      rcases ih g hs (by omega) with ⟨n, h', e3, r⟩ | e3
      · left
        rw [e3]
        exact ⟨_, _, rfl, r.wrap (ms := []) hk (by simp)⟩
      · right; rw [e3]; rfl
    | itMemory s off d => exact .inl same
    | itCtr i k c => exact .inl same
    | other ms => exact .inl same

theorem next_spec (fuel : Nat) : ∀ {h : Heap} {refs : List Ptr} {p : Ptr}, Good h refs →
    R (objs h) refs p → p < fuel →
    (∃ n h', next fuel h p = .ok (n, h') ∧ Returns h refs n h') ∨ next fuel h p = .ub .oobRead ∨
      next fuel h p = .ub .nullDeref := by
  induction fuel with
  | zero => intro h refs p _ _ hp; omega
  | succ fuel ih =>
    intro h refs p g hr hp
    obtain ⟨o, e1, e2⟩ := g.load hr
    unfold next
    rw [e1, Exec.ok_bind]
    have hf := (g.static p o e2)
    have same : ∃ n h', (Exec.ok (none, h) : Exec (Option Ptr × Heap)) = .ok (n, h') ∧ Returns h refs n h' :=
      ⟨none, h, rfl, g, List.prefix_refl _, by simp⟩
    cases o with
    | stMemory data => exact .inl same
    | stCtr s k => exact .inl same
    | itMemory s off d =>
      dsimp only
      obtain ⟨_, data, hd⟩ := hf.2
      by_cases h0 : h.count s = 0
      · rw [if_pos h0]; exact .inr (.inr rfl)
      · rw [if_neg h0]
        obtain ⟨o', e3, e4⟩ := g.load ((g.alive_iff s).1 h0)
        rw [hd] at e4
        cases e4
        rw [e3, Exec.ok_bind]
        rcases nextIter_spec g hd (off + 16) with h1 | h1
        · exact .inl h1
        · exact .inr (.inl h1)
    | itCtr i k c =>
      cases i with
      | none => exact .inr (.inr rfl)
      | some i =>
        dsimp only
        have hs : R (objs h) refs i := .member hr e2 (by simp [Obj.members])
        have hk : R (objs h) refs k := .member hr e2 (by simp [Obj.members])
        have hc : R (objs h) refs c := .member hr e2 (by simp [Obj.members])
        have hlt := hf.1 i (by simp [Obj.members])
        rcases ih g hs (by omega) with ⟨n, h', e3, r⟩ | e3 | e3
        · left
          rw [e3]
          exact ⟨_, _, rfl, r.wrap (ms := [c]) hk (by simpa using hc)⟩
        · right; left; rw [e3]; rfl
        · right; right; rw [e3]; rfl
    | other ms => exact .inl same

theorem last_spec (fuel : Nat) : ∀ {h : Heap} {refs : List Ptr} {p : Ptr}, Good h refs →
    R (objs h) refs p → p < fuel →
    (∃ b h', last fuel h p = .ok (b, h') ∧ Good h' refs ∧ objs h <+: objs h') ∨
      last fuel h p = .ub .oobRead ∨ last fuel h p = .ub .nullDeref := by
  induction fuel with
  | zero => intro h refs p _ _ hp; omega
  | succ fuel ih =>
    intro h refs p g hr hp
    obtain ⟨o, e1, e2⟩ := g.load hr
    unfold last
    rw [e1, Exec.ok_bind]
    have hf := (g.static p o e2)
    have same : ∃ b h', (Exec.ok (true, h) : Exec (Bool × Heap)) = .ok (b, h') ∧ Good h' refs ∧
        objs h <+: objs h' := ⟨true, h, rfl, g, List.prefix_refl _⟩
    cases o with
    | stMemory data => exact .inl same
    | stCtr s k => exact .inl same
    | itMemory s off d =>
      dsimp only
      rcases next_spec (fuel + 1) g hr hp with ⟨n, h', e3, r⟩ | e3 | e3
      · left
        rw [e3]
        refine ⟨_, _, rfl, ?_, ?_⟩
        · cases n with
          | none => exact r.good
          | some i => exact r.good.release
        · cases n with
          | none => exact r.ext
          | some i =>
            show objs h <+: objs (Heap.release (i + 1) h' i)
            rw [objs_release]; exact r.ext
      · right; left; rw [e3]; rfl
      · right; right; rw [e3]; rfl
    | itCtr i k c =>
      cases i with
      | none => exact .inr (.inr rfl)
      | some i =>
        have hlt := hf.1 i (by simp [Obj.members])
        exact ih g (.member hr e2 (by simp [Obj.members])) (by omega)
    | other ms => exact .inl same

theorem uses_members (o : Obj) : ∀ q ∈ o.uses, q ∈ o.members := by
  cases o with
  | itCtr i k c => cases i <;> simp [Obj.uses, Obj.members]
  | _ => simp [Obj.uses, Obj.members]

theorem value_spec (fuel : Nat) : ∀ {h : Heap} {refs : List Ptr} {p : Ptr}, Good h refs →
    R (objs h) refs p → p < fuel → value fuel h p = .ok () ∨ value fuel h p = .ub .nullDeref := by
  induction fuel with
  | zero => intro h refs p _ _ hp; omega
  | succ fuel ih =>
    intro h refs p g hr hp
    obtain ⟨o, e1, e2⟩ := g.load hr
    have hf := (g.static p o e2)
    have all : ∀ l : List Ptr, (∀ q ∈ l, q ∈ o.members) →
        l.foldlM (fun _ q => value fuel h q) () = (.ok () : Exec Unit) ∨
        l.foldlM (fun _ q => value fuel h q) () = (.ub .nullDeref : Exec Unit) := by
      intro l
      induction l with
      | nil => intro _; exact .inl rfl
      | cons q l ihl =>
        intro hl
        have hq := hl q (by simp)
        have := hf.1 q hq
        rw [List.foldlM_cons]
        rcases ih g (.member hr e2 hq) (by omega) with e | e
        · rw [e, Exec.ok_bind]; exact ihl fun x hx => hl x (by simp [hx])
        · rw [e]; exact .inr rfl
    have := all o.uses (uses_members o)
    unfold value
    rw [e1, Exec.ok_bind]
    cases o with
    | itCtr i k c =>
      cases i with
      | none => exact .inr rfl
      | some i => exact this
    | _ => exact this

theorem value_ok (fuel : Nat) : ∀ {h : Heap} {refs : List Ptr} {p : Ptr}, Good h refs →
    (∀ q k c, R (objs h) refs q → (objs h)[q]? ≠ some (.itCtr none k c)) →
    R (objs h) refs p → p < fuel → value fuel h p = .ok () := by
  induction fuel with
  | zero => intro h refs p _ _ _ hp; omega
  | succ fuel ih =>
    intro h refs p g hn hr hp
    obtain ⟨o, e1, e2⟩ := g.load hr
    have hf := (g.static p o e2)
    have all : ∀ l : List Ptr, (∀ q ∈ l, q ∈ o.members) →
        l.foldlM (fun _ q => value fuel h q) () = (.ok () : Exec Unit) := by
      intro l
      induction l with
      | nil => intro _; rfl
      | cons q l ihl =>
        intro hl
        have hq := hl q (by simp)
        have := hf.1 q hq
        rw [List.foldlM_cons, ih g hn (.member hr e2 hq) (by omega), Exec.ok_bind]
        exact ihl fun x hx => hl x (by simp [hx])
    have := all o.uses (uses_members o)
    unfold value
    rw [e1, Exec.ok_bind]
    cases o with
    | itCtr i k c =>
      cases i with
      | none => exact absurd e2 (hn p k c hr)
      | some i => exact this
    | _ => exact this

theorem count_eraseIdx (l : List Ptr) : ∀ (k : Nat) (p : Ptr), l[k]? = some p → ∀ q,
    l.count q = (p :: l.eraseIdx k).count q := by
  induction l with
  | nil => intro k p e; simp at e
  | cons a l ih =>
    intro k p e q
    cases k with
    | zero => simp at e; simp [e]
    | succ k =>
      have := ih k p (by simpa using e) q
      simp only [List.eraseIdx_cons_succ, List.count_cons] at this ⊢
      omega

theorem step_spec {s : State} (g : Good s.heap s.held) (op : Op) :
    (∃ s', s.step op = .ok s' ∧ Good s'.heap s'.held ∧ objs s.heap <+: objs s'.heap) ∨
      s.step op = .ub .oobRead ∨ s.step op = .ub .nullDeref := by
  have snoc : ∀ {h : Heap} {p : Ptr}, Good h (p :: s.held) → Good h (s.held ++ [p]) := fun g =>
    g.perm (by intro q; simp [List.count_cons, List.count_append])
  have same : ∃ s', (Exec.ok s : Exec State) = .ok s' ∧ Good s'.heap s'.held ∧ objs s.heap <+: objs s'.heap :=
    ⟨s, rfl, g, List.prefix_refl _⟩
  have mem : ∀ {k : Nat} {p : Ptr}, s.held[k]? = some p → R (objs s.heap) s.held p := fun e =>
    .ref (List.mem_of_getElem? e)
  have tail : ∀ {n : Option Ptr} {h : Heap}, Returns s.heap s.held n h → Good h (s.held ++ n.toList) :=
    fun r => r.good.perm (by intro q; simp [List.count_append]; omega)
  cases op with
  | stMemory data =>
    left
    refine ⟨_, rfl, snoc (g.alloc ⟨by simp [Obj.members], trivial⟩ (by simp [Obj.members])), ?_⟩
    show _ <+: objs (s.heap.alloc _).1
    rw [objs_alloc]; exact List.prefix_append _ _
  | stCtr a b =>
    left
    simp only [State.step]
    cases ea : s.held[a]? with
    | none => exact same
    | some p =>
      cases eb : s.held[b]? with
      | none => exact same
      | some q =>
        dsimp only
        split
        · rename_i hst
          refine ⟨_, rfl, snoc (g.alloc ⟨?_, ?_⟩ ?_), ?_⟩
          · simp only [Obj.members, List.mem_cons, List.not_mem_nil, or_false]
            rintro x (rfl | rfl)
            · exact g.lt (mem ea)
            · exact g.lt (mem eb)
          · obtain ⟨o, _, e2⟩ := g.load (mem ea)
            refine ⟨o, e2, ?_⟩
            simp only [objs, List.getElem?_map] at e2
            cases e3 : s.heap[p]? with
            | none => simp [e3] at e2
            | some c => simp [e3] at e2 hst; rw [← e2]; exact hst
          · simp only [Obj.members, List.mem_cons, List.not_mem_nil, or_false]
            rintro x (rfl | rfl)
            · exact mem ea
            · exact mem eb
          · show _ <+: objs (s.heap.alloc _).1
            rw [objs_alloc]; exact List.prefix_append _ _
        · exact same
  | other ks =>
    left
    have hall : ∀ p ∈ (Obj.other (ks.filterMap fun k => s.held[k]?)).members, R (objs s.heap) s.held p := by
      simp only [Obj.members, List.mem_filterMap]
      rintro p ⟨k, _, e⟩
      exact mem e
    refine ⟨_, rfl, snoc (g.alloc ⟨fun p hp => g.lt (hall p hp), trivial⟩ hall), ?_⟩
    show _ <+: objs (s.heap.alloc _).1
    rw [objs_alloc]; exact List.prefix_append _ _
  | copy k =>
    left
    simp only [State.step]
    cases e : s.held[k]? with
    | none => exact same
    | some p =>
      refine ⟨_, rfl, snoc ⟨?_, g.inv.incr ((g.alive_iff p).2 (mem e))⟩, ?_⟩
      · rw [objs_incr]; exact g.static
      · rw [objs_incr]; exact List.prefix_refl _
  | member k j =>
    left
    simp only [State.step]
    cases e : s.held[k]? with
    | none => exact same
    | some p =>
      dsimp only
      obtain ⟨o, e1, e2⟩ := g.load (mem e)
      rw [e1, Exec.ok_bind]
      cases e3 : o.members[j]? with
      | none => exact same
      | some q =>
        refine ⟨_, rfl, snoc ⟨?_, g.inv.incr ((g.alive_iff q).2
          (.member (mem e) e2 (List.mem_of_getElem? e3)))⟩, ?_⟩
        · rw [objs_incr]; exact g.static
        · rw [objs_incr]; exact List.prefix_refl _
  | drop k =>
    left
    simp only [State.step]
    cases e : s.held[k]? with
    | none => exact same
    | some p =>
      refine ⟨_, rfl, Good.release ?_, ?_⟩
      · refine g.perm fun q => ?_
        exact count_eraseIdx s.held k p e q
      · show _ <+: objs (Heap.release _ _ _)
        rw [objs_release]; exact List.prefix_refl _
  | iter k =>
    simp only [State.step]
    cases e : s.held[k]? with
    | none => exact .inl same
    | some p =>
      rcases iter_spec (p + 1) g (mem e) (Nat.lt_succ_self p) with ⟨n, h', e3, r⟩ | e3
      · left
        dsimp only
        rw [e3]
        exact ⟨_, rfl, tail r, r.ext⟩
      · right; left; dsimp only; rw [e3]; rfl
  | next k =>
    simp only [State.step]
    cases e : s.held[k]? with
    | none => exact .inl same
    | some p =>
      rcases next_spec (p + 1) g (mem e) (Nat.lt_succ_self p) with ⟨n, h', e3, r⟩ | e3 | e3
      · left
        dsimp only
        rw [e3]
        exact ⟨_, rfl, tail r, r.ext⟩
      · right; left; dsimp only; rw [e3]; rfl
      · right; right; dsimp only; rw [e3]; rfl
  | last k =>
    simp only [State.step]
    cases e : s.held[k]? with
    | none => exact .inl same
    | some p =>
      rcases last_spec (p + 1) g (mem e) (Nat.lt_succ_self p) with ⟨b, h', e3, g', x⟩ | e3 | e3
      · left
        dsimp only
        rw [e3]
        exact ⟨_, rfl, g', x⟩
      · right; left; dsimp only; rw [e3]; rfl
      · right; right; dsimp only; rw [e3]; rfl
  | value k =>
    simp only [State.step]
    cases e : s.held[k]? with
    | none => exact .inl same
    | some p =>
      rcases value_spec (p + 1) g (mem e) (Nat.lt_succ_self p) with e3 | e3
      · left
        dsimp only
        rw [e3]
        exact same
      · right; right; dsimp only; rw [e3]; rfl

theorem run_spec (ops : List Op) : ∀ {s : State}, Good s.heap s.held →
    (∃ s', s.run ops = .ok s' ∧ Good s'.heap s'.held ∧ objs s.heap <+: objs s'.heap) ∨
      s.run ops = .ub .oobRead ∨ s.run ops = .ub .nullDeref := by
  induction ops with
  | nil => intro s g; exact .inl ⟨s, rfl, g, List.prefix_refl _⟩
  | cons op ops ih =>
    intro s g
    unfold State.run
    rcases step_spec g op with ⟨s', e, g', x⟩ | e | e
    · rw [e, Exec.ok_bind]
      rcases ih g' with ⟨s2, e2, g2, x2⟩ | e2
      · exact .inl ⟨s2, e2, g2, x.trans x2⟩
      · exact .inr e2
    · right; left; rw [e]; rfl
    · right; right; rw [e]; rfl

theorem Good_empty : Good State.empty.heap State.empty.held :=
  ⟨fun i o e => by simp [State.empty, objs] at e, fun q => by simp [State.empty, Heap.count, own]⟩

theorem Good_run {ops : List Op} {s : State} (e : State.empty.run ops = .ok s) : Good s.heap s.held := by
  rcases run_spec ops Good_empty with ⟨s', e', g, _⟩ | e' | e'
  · rw [e] at e'; cases e'; exact g
  · rw [e] at e'; cases e'
  · rw [e] at e'; cases e'

theorem R_iff_Reach (s : State) (p : Ptr) : R (objs s.heap) s.held p ↔ Reach s p := by
  constructor
  · intro h
    induction h with
    | ref hp => exact .held hp
    | member _ e hq ih =>
      rename_i p q o _
      simp only [objs, List.getElem?_map] at e
      cases e1 : s.heap[p]? with
      | none => simp [e1] at e
      | some c => simp [e1] at e; exact .member ih e1 (by rw [e]; exact hq)
  · intro h
    induction h with
    | held hp => exact .ref hp
    | member _ e hq ih => exact .member ih (by simp [objs, e]) hq

theorem next_base {s : State} (g : Good s.heap s.held) {p b : Ptr} (hb : Base s p b) :
    R (objs s.heap) s.held p → ∀ fuel, p < fuel →
    (next fuel s.heap p = .ub .nullDeref ↔ s.heap.count b = 0) ∧
    (last fuel s.heap p = .ub .nullDeref ↔ s.heap.count b = 0) := by
  induction hb with
  | memory h =>
    rename_i p b d offset n
    intro hr fuel hf
    cases fuel with
    | zero => omega
    | succ fuel =>
      obtain ⟨o, e1, e2⟩ := g.load hr
      have e3 : (objs s.heap)[p]? = some (.itMemory b offset d) := by simp [objs, h]
      rw [e3] at e2
      cases e2
      have key : next (fuel + 1) s.heap p = .ub .nullDeref ↔ s.heap.count b = 0 := by
        unfold next
        rw [e1, Exec.ok_bind]
        dsimp only
        by_cases h0 : s.heap.count b = 0
        · simp [h0]
        · rw [if_neg h0]
          obtain ⟨_, data, hd⟩ := (g.static p _ e3).2
          obtain ⟨o', e5, e4⟩ := g.load ((g.alive_iff b).1 h0)
          rw [hd] at e4
          cases e4
          rw [e5, Exec.ok_bind]
          dsimp only
          rcases nextIter_spec g hd (offset + 16) with ⟨n, h', e6, _⟩ | e6 <;> rw [e6] <;> simp [h0]
      refine ⟨key, ?_⟩
      unfold last
      rw [e1, Exec.ok_bind]
      dsimp only
      rw [← key]
      rcases next_spec (fuel + 1) g hr hf with ⟨n, h', e6, _⟩ | e6 | e6 <;> rw [e6] <;> simp
  | ctr h hi ih =>
    rename_i p i k c b n
    intro hr fuel hf
    cases fuel with
    | zero => omega
    | succ fuel =>
      obtain ⟨o, e1, e2⟩ := g.load hr
      have e3 : (objs s.heap)[p]? = some (.itCtr (some i) k c) := by simp [objs, h]
      rw [e3] at e2
      cases e2
      have hri : R (objs s.heap) s.held i := .member hr e3 (by simp [Obj.members])
      have hlt := (g.static p _ e3).1 i (by simp [Obj.members])
      obtain ⟨ih1, ih2⟩ := ih hri fuel (by omega)
      constructor
      · unfold next
        rw [e1, Exec.ok_bind]
        dsimp only
        rw [← ih1]
        rcases next_spec fuel g hri (by omega) with ⟨n, h', e6, _⟩ | e6 | e6 <;> rw [e6] <;> simp
      · unfold last
        rw [e1, Exec.ok_bind]
        exact ih2

inductive AtO (os : List Obj) : Ptr → Ptr → Nat → List Ptr → Prop
  | memory {p b d : Ptr} {offset : Nat} (h : os[p]? = some (.itMemory b offset d)) :
      AtO os p b offset []
  | ctr {p i k c b : Ptr} {offset : Nat} {keys : List Ptr}
      (h : os[p]? = some (.itCtr (some i) k c)) (hi : AtO os i b offset keys) :
      AtO os p b offset (k :: keys)

theorem AtO.mono {os os' : List Obj} (ho : os <+: os') {p b offset : Nat} {keys : List Ptr}
    (h : AtO os p b offset keys) : AtO os' p b offset keys := by
  induction h with
  | memory h => exact .memory (prefix_getElem? ho h)
  | ctr h _ ih => exact .ctr (prefix_getElem? ho h) ih

theorem objs_get {h : Heap} {p : Ptr} {o : Obj} (e : (objs h)[p]? = some o) :
    ∃ n, h[p]? = some ⟨o, n⟩ := by
  simp only [objs, List.getElem?_map, Option.map_eq_some_iff] at e
  obtain ⟨c, e1, e2⟩ := e
  exact ⟨c.count, by rw [e1, ← e2]⟩

theorem AtO_iff (s : State) (p b offset : Nat) (keys : List Ptr) :
    AtO (objs s.heap) p b offset keys ↔ At s p b offset keys := by
  constructor
  · intro h
    induction h with
    | memory h => obtain ⟨n, e⟩ := objs_get h; exact .memory e
    | ctr h _ ih => obtain ⟨n, e⟩ := objs_get h; exact .ctr e ih
  · intro h
    induction h with
    | memory h => exact .memory (by simp [objs, h]; rfl)
    | ctr h _ ih => exact .ctr (by simp [objs, h]; rfl) ih

theorem nextIter_at {h h' : Heap} {s offset : Nat} {data : List W64} {n : Option Ptr}
    (e : nextIter h s data offset = .ok (n, h')) :
    (offset / 8 < data.length → ∃ q, n = some q ∧ AtO (objs h') q s offset []) ∧
    (data.length ≤ offset / 8 → n = none) := by
  unfold nextIter at e
  constructor
  · intro hl
    rcases nextIter_cases data offset with ⟨r, e1⟩ | e1
    · cases r with
      | none =>
        exfalso
        unfold Kuz.StMemory.nextIter vget at e1
        rw [if_neg (by omega)] at e1
        revert e1
        cases h1 : data[offset / 8]? <;> cases h2 : data[offset / 8 + 1]? <;> simp
      | some x =>
        rw [e1] at e
        have e2 : Exec.ok (some (h.alloc (.other [])).1.length, make2 h [] (.itMemory s offset h.length)) =
            Exec.ok (n, h') := e
        injection e2 with e2
        injection e2 with e3 e4
        refine ⟨_, e3.symm, ?_⟩
        rw [← e4, length_alloc]
        refine .memory (d := h.length) ?_
        rw [objs_make2, List.getElem?_append_right (by simp [objs_length])]
        simp [objs_length]
    · rw [e1] at e; cases e
  · intro hl
    unfold Kuz.StMemory.nextIter at e
    rw [if_pos hl] at e
    simp at e
    exact e.1.symm

theorem wrap_at {h : Heap} {n : Option Ptr} {k i b offset : Nat} {ms keys : List Ptr}
    (hn : n = some i) (ha : AtO (objs h) i b offset keys) :
    AtO (objs (n.toList.foldl (fun h i => h.release (i + 1) i) (make2 h ms (.itCtr n k h.length))))
      (h.alloc (.other ms)).1.length b offset (k :: keys) := by
  subst hn
  have ho : objs ((some i).toList.foldl (fun h i => h.release (i + 1) i)
      (make2 h ms (.itCtr (some i) k h.length))) = objs h ++ [.other ms, .itCtr (some i) k h.length] := by
    rw [← objs_make2]; exact objs_release _ _ _
  rw [ho, length_alloc]
  refine .ctr (c := h.length) (i := i) ?_ (ha.mono (List.prefix_append _ _))
  rw [List.getElem?_append_right (by simp [objs_length])]
  simp [objs_length]

theorem next_at {h : Heap} {refs : List Ptr} (g : Good h refs) {p b offset : Nat} {keys : List Ptr}
    (ha : AtO (objs h) p b offset keys) {data : List W64} (hd : (objs h)[b]? = some (.stMemory data))
    (hl : (offset + 16) / 8 < data.length) : R (objs h) refs p → ∀ fuel, p < fuel → ∀ n h',
    next fuel h p = .ok (n, h') → ∃ q, n = some q ∧ AtO (objs h') q b (offset + 16) keys := by
  induction ha with
  | memory h1 =>
    rename_i p b d offset
    intro hr fuel hf n h' e
    cases fuel with
    | zero => omega
    | succ fuel =>
      obtain ⟨o, e1, e2⟩ := g.load hr
      rw [h1] at e2; cases e2
      unfold next at e
      rw [e1, Exec.ok_bind] at e
      dsimp only at e
      by_cases h0 : h.count b = 0
      · rw [if_pos h0] at e; cases e
      · rw [if_neg h0] at e
        obtain ⟨o', e5, e4⟩ := g.load ((g.alive_iff b).1 h0)
        rw [hd] at e4; cases e4
        rw [e5, Exec.ok_bind] at e
        exact (nextIter_at e).1 hl
  | ctr h1 hi ih =>
    rename_i p i k c b offset keys
    intro hr fuel hf n h' e
    cases fuel with
    | zero => omega
    | succ fuel =>
      obtain ⟨o, e1, e2⟩ := g.load hr
      rw [h1] at e2; cases e2
      have hri : R (objs h) refs i := .member hr h1 (by simp [Obj.members])
      have hlt := (g.static p _ h1).1 i (by simp [Obj.members])
      unfold next at e
      rw [e1, Exec.ok_bind] at e
      dsimp only at e
      rcases next_spec fuel g hri (by omega) with ⟨n1, h1', e6, r⟩ | e6 | e6
      · rw [e6, Exec.ok_bind] at e
        obtain ⟨q, hq, ha⟩ := ih hd hl hri fuel (by omega) n1 h1' e6
        have e2 : Exec.ok (some (h1'.alloc (.other [c])).1.length,
            n1.toList.foldl (fun h i => h.release (i + 1) i)
              (make2 h1' [c] (.itCtr n1 k h1'.length))) = Exec.ok (n, h') := e
        injection e2 with e2
        injection e2 with e3 e4
        exact ⟨_, e3.symm, by rw [← e4]; exact wrap_at hq ha⟩
      · rw [e6] at e; cases e
      · rw [e6] at e; cases e

theorem next_end {h : Heap} {refs : List Ptr} (g : Good h refs) {p b offset d : Nat}
    (h1 : (objs h)[p]? = some (.itMemory b offset d)) {data : List W64}
    (hd : (objs h)[b]? = some (.stMemory data)) (hl : data.length ≤ (offset + 16) / 8)
    (hr : R (objs h) refs p) (fuel : Nat) (hf : p < fuel) (n : Option Ptr) (h' : Heap)
    (e : next fuel h p = .ok (n, h')) : n = none := by
  cases fuel with
  | zero => omega
  | succ fuel =>
    obtain ⟨o, e1, e2⟩ := g.load hr
    rw [h1] at e2; cases e2
    unfold next at e
    rw [e1, Exec.ok_bind] at e
    dsimp only at e
    by_cases h0 : h.count b = 0
    · rw [if_pos h0] at e; cases e
    · rw [if_neg h0] at e
      obtain ⟨o', e5, e4⟩ := g.load ((g.alive_iff b).1 h0)
      rw [hd] at e4; cases e4
      rw [e5, Exec.ok_bind] at e
      exact (nextIter_at e).2 hl

theorem iter_at {s : State} (g : Good s.heap s.held) {p b : Nat} {keys : List Ptr}
    (ha : Over s p b keys) {data : List W64} (hd : (objs s.heap)[b]? = some (.stMemory data))
    (hl : data ≠ []) : R (objs s.heap) s.held p → ∀ fuel, p < fuel → ∀ n h',
    iter fuel s.heap p = .ok (n, h') → ∃ q, n = some q ∧ AtO (objs h') q b 0 keys := by
  induction ha with
  | memory h1 =>
    rename_i p data' m
    intro hr fuel hf n h' e
    have h2 : (objs s.heap)[p]? = some (.stMemory data') := by simp [objs, h1]
    rw [h2] at hd; cases hd
    cases fuel with
    | zero => omega
    | succ fuel =>
      obtain ⟨o, e1, e2⟩ := g.load hr
      rw [h2] at e2; cases e2
      unfold iter at e
      rw [e1, Exec.ok_bind] at e
      exact (nextIter_at e).1 (List.length_pos_iff.2 hl)
  | ctr h1 hi ih =>
    rename_i p i k b m keys
    intro hr fuel hf n h' e
    have h2 : (objs s.heap)[p]? = some (.stCtr i k) := by simp [objs, h1]
    cases fuel with
    | zero => omega
    | succ fuel =>
      obtain ⟨o, e1, e2⟩ := g.load hr
      rw [h2] at e2; cases e2
      have hri : R (objs s.heap) s.held i := .member hr h2 (by simp [Obj.members])
      have hlt := (g.static p _ h2).1 i (by simp [Obj.members])
      unfold iter at e
      rw [e1, Exec.ok_bind] at e
      dsimp only at e
      rcases iter_spec fuel g hri (by omega) with ⟨n1, h1', e6, r⟩ | e6
      · rw [e6, Exec.ok_bind] at e
        obtain ⟨q, hq, ha⟩ := ih hd hri fuel (by omega) n1 h1' e6
        have e2 : Exec.ok (some (h1'.alloc (.other [])).1.length,
            n1.toList.foldl (fun h i => h.release (i + 1) i)
              (make2 h1' [] (.itCtr n1 k h1'.length))) = Exec.ok (n, h') := e
        injection e2 with e2
        injection e2 with e3 e4
        exact ⟨_, e3.symm, by rw [← e4]; exact wrap_at hq ha⟩
      · rw [e6] at e; cases e

end Goost.Mem
