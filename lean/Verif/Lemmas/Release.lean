import Verif.Model.Release
import Verif.Spec.Release
import Verif.Spec.Memory
import Verif.Lemmas.Memory
/-
Helper lemmas: the nesting of destructors.
-/
namespace Goost.Mem
open Spec.Mem

variable {order : List Nat → List Nat}

abbrev dec (c : Cell) : Cell := { c with count := c.count - 1 }

theorem releaseIn_succ (fuel depth : Nat) (x : Heap × Nat) (p : Nat) :
    Heap.releaseIn order (fuel + 1) depth x p =
      match x.1[p]? with
      | none => x
      | some c =>
        if c.count - 1 = 0 then
          (order c.obj.members).foldl (Heap.releaseIn order fuel (depth + 1))
            (x.1.modify p dec, max x.2 (depth + 1))
        else (x.1.modify p dec, x.2) := rfl

theorem objs_dec (h : Heap) (p : Nat) : objs (h.modify p dec) = objs h := objs_modify h p _ fun _ => rfl

theorem objs_releaseIn (n : Nat) : ∀ (d : Nat) (x : Heap × Nat) (p : Nat),
    objs (Heap.releaseIn order n d x p).1 = objs x.1 := by
  induction n with
  | zero => intro d x p; rfl
  | succ n ih =>
    intro d x p
    rw [releaseIn_succ]
    cases e : x.1[p]? with
    | none => rfl
    | some c =>
      dsimp only
      split
      · generalize order c.obj.members = ms
        have : ∀ (ms : List Nat) (y : Heap × Nat),
            objs (ms.foldl (Heap.releaseIn order n (d + 1)) y).1 = objs y.1 := by
          intro ms
          induction ms with
          | nil => intro y; rfl
          | cons m ms ih2 => intro y; rw [List.foldl_cons, ih2, ih]
        rw [this, objs_dec]
      · exact objs_dec _ _

theorem Inv.releaseIn (ho : IsOrder order) (n : Nat) : ∀ {d : Nat} {x : Heap × Nat} {refs : List Nat} {p : Nat},
    Static (objs x.1) → Inv x.1 (p :: refs) → p < n → Inv (Heap.releaseIn order n d x p).1 refs := by
  induction n with
  | zero => intro d x refs p _ _ hp; omega
  | succ n ih =>
    intro d x refs p hs hi hp
    have hf : ∀ (ms : List Nat) (y : Heap × Nat), (∀ q ∈ ms, q < n) → Static (objs y.1) → Inv y.1 (ms ++ refs) →
        Inv (ms.foldl (Heap.releaseIn order n (d + 1)) y).1 refs := by
      intro ms
      induction ms with
      | nil => intro y _ _ hi; exact hi
      | cons m ms ih2 =>
        intro y hm hs hi
        refine ih2 _ (fun q hq => hm q (by simp [hq])) (by rw [objs_releaseIn]; exact hs) ?_
        exact ih hs (by simpa using hi) (hm m (by simp))
    have hpos : x.1.count p ≠ 0 := by have := hi p; simp at this; omega
    obtain ⟨c, e, hc⟩ := exists_of_count hpos
    rw [releaseIn_succ, e]
    dsimp only
    split
    · rename_i h0
      refine hf _ _ ?_ (by rw [objs_dec]; exact hs) ?_
      · intro q hq
        have := (hs p c.obj (by simp [objs, e])).1 q ((ho _).mem_iff.1 hq)
        omega
      · intro q
        have h1 := hi q
        have h2 := own_modify_dead x.1 p q dec c e h0 hc
        rw [count_modify]
        rw [List.count_append, (ho c.obj.members).count_eq]
        simp only [List.count_cons] at h1 ⊢
        by_cases h3 : p = q
        · subst q
          rw [count_eq e] at h1
          simp [e] at h1 ⊢; omega
        · simp [h3] at h1 ⊢; omega
    · rename_i h0
      intro q
      have h1 := hi q
      rw [count_modify, own_modify_same x.1 p q _ c e rfl (by simp; omega)]
      simp only [List.count_cons] at h1
      by_cases h3 : p = q
      · subst q
        rw [count_eq e] at h1
        simp [e] at h1 ⊢; omega
      · simp [h3] at h1 ⊢; omega

theorem Good.releaseIn (ho : IsOrder order) {n d : Nat} {x : Heap × Nat} {refs : List Nat} {p : Nat}
    (g : Good x.1 (p :: refs)) (hp : p < n) : Good (Heap.releaseIn order n d x p).1 refs where
  static := by rw [objs_releaseIn]; exact g.static
  inv := g.inv.releaseIn ho n g.static hp

theorem count_dec_le (h : Heap) (p q : Nat) : Heap.count (h.modify p dec) q ≤ h.count q := by
  rw [count_modify]
  split
  · subst q
    unfold Heap.count
    cases h[p]? <;> simp
  · exact Nat.le_refl _

theorem count_releaseIn_le (n : Nat) : ∀ (d : Nat) (x : Heap × Nat) (p q : Nat),
    (Heap.releaseIn order n d x p).1.count q ≤ x.1.count q := by
  induction n with
  | zero => intro d x p q; exact Nat.le_refl _
  | succ n ih =>
    intro d x p q
    rw [releaseIn_succ]
    cases e : x.1[p]? with
    | none => exact Nat.le_refl _
    | some c =>
      dsimp only
      split
      · generalize order c.obj.members = ms
        have : ∀ (ms : List Nat) (y : Heap × Nat),
            (ms.foldl (Heap.releaseIn order n (d + 1)) y).1.count q ≤ y.1.count q := by
          intro ms
          induction ms with
          | nil => intro y; exact Nat.le_refl _
          | cons m ms ih2 => intro y; rw [List.foldl_cons]; exact Nat.le_trans (ih2 _) (ih _ _ _ _)
        exact Nat.le_trans (this _ _) (count_dec_le _ _ _)
      · exact count_dec_le _ _ _

theorem releaseIn_deep (n : Nat) : ∀ (d : Nat) (x : Heap × Nat) (p : Nat),
    x.2 ≤ (Heap.releaseIn order n d x p).2 := by
  induction n with
  | zero => intro d x p; exact Nat.le_refl _
  | succ n ih =>
    intro d x p
    rw [releaseIn_succ]
    cases e : x.1[p]? with
    | none => exact Nat.le_refl _
    | some c =>
      dsimp only
      split
      · generalize order c.obj.members = ms
        have : ∀ (ms : List Nat) (y : Heap × Nat),
            y.2 ≤ (ms.foldl (Heap.releaseIn order n (d + 1)) y).2 := by
          intro ms
          induction ms with
          | nil => intro y; exact Nat.le_refl _
          | cons m ms ih2 => intro y; rw [List.foldl_cons]; exact Nat.le_trans (ih _ _ _) (ih2 _)
        exact Nat.le_trans (Nat.le_max_left x.2 (d + 1)) (this ms (x.1.modify p dec, max x.2 (d + 1)))
      · exact Nat.le_refl _

theorem releases_deep (n d : Nat) (ms : List Nat) (y : Heap × Nat) :
    y.2 ≤ (ms.foldl (Heap.releaseIn order n d) y).2 := by
  induction ms generalizing y with
  | nil => exact Nat.le_refl _
  | cons m ms ih2 => rw [List.foldl_cons]; exact Nat.le_trans (releaseIn_deep _ _ _ _) (ih2 _)

/-! ### Chains depend on the objects only -/

inductive ChainO (os : List Obj) : Nat → Nat → Prop
  | one {p : Nat} {o : Obj} (hp : os[p]? = some o) : ChainO os p 1
  | cons {p q n : Nat} {o : Obj} (hp : os[p]? = some o) (hq : q ∈ o.members) (hn : ChainO os q n) :
      ChainO os p (n + 1)

theorem Chain_iff (h : Heap) (p n : Nat) : Chain h p n ↔ ChainO (objs h) p n := by
  constructor
  · intro c
    induction c with
    | one hp => exact .one (o := _) (by rw [objs, List.getElem?_map, hp]; rfl)
    | cons hp hq _ ih => exact .cons (by rw [objs, List.getElem?_map, hp]; rfl) hq ih
  · intro c
    induction c with
    | one hp =>
      rw [objs, List.getElem?_map, Option.map_eq_some_iff] at hp
      obtain ⟨c, e, -⟩ := hp
      exact .one e
    | cons hp hq _ ih =>
      rw [objs, List.getElem?_map, Option.map_eq_some_iff] at hp
      obtain ⟨c, e, rfl⟩ := hp
      exact .cons e hq ih

theorem releaseIn_chain (ho : IsOrder order) (n : Nat) : ∀ (d : Nat) (x : Heap × Nat) (p : Nat),
    (Heap.releaseIn order n d x p).2 ≤ x.2 ∨
      ∃ k, ChainO (objs x.1) p k ∧ (Heap.releaseIn order n d x p).2 = d + k := by
  induction n with
  | zero => intro d x p; exact .inl (Nat.le_refl _)
  | succ n ih =>
    intro d x p
    rw [releaseIn_succ]
    cases e : x.1[p]? with
    | none => exact .inl (Nat.le_refl _)
    | some c =>
      have eo : (objs x.1)[p]? = some c.obj := by simp [objs, e]
      dsimp only
      split
      · have : ∀ (ms : List Nat) (y : Heap × Nat), (∀ q ∈ ms, q ∈ c.obj.members) → objs y.1 = objs x.1 →
            (ms.foldl (Heap.releaseIn order n (d + 1)) y).2 ≤ y.2 ∨
              ∃ k, ChainO (objs x.1) p k ∧ (ms.foldl (Heap.releaseIn order n (d + 1)) y).2 = d + k := by
          intro ms
          induction ms with
          | nil => intro y _ _; exact .inl (Nat.le_refl _)
          | cons m ms ih2 =>
            intro y hm hy
            rw [List.foldl_cons]
            rcases ih2 (Heap.releaseIn order n (d + 1) y m) (fun q hq => hm q (by simp [hq]))
              (by rw [objs_releaseIn, hy]) with h1 | h1
            · rcases ih (d + 1) y m with h2 | ⟨k, hk, h2⟩
              · exact .inl (Nat.le_trans h1 h2)
              · have h3 := releases_deep (order := order) n (d + 1) ms (Heap.releaseIn order n (d + 1) y m)
                refine .inr ⟨k + 1, .cons eo (hm m (by simp)) (hy ▸ hk), ?_⟩
                omega
            · exact .inr h1
        rcases this (order c.obj.members) (x.1.modify p dec, max x.2 (d + 1)) (fun q hq => (ho _).mem_iff.1 hq)
          (objs_dec _ _) with h | h
        · dsimp only at h
          by_cases hx : d + 1 ≤ x.2
          · exact .inl (by omega)
          · have h3 := releases_deep (order := order) n (d + 1) (order c.obj.members)
              (x.1.modify p dec, max x.2 (d + 1))
            dsimp only at h3
            exact .inr ⟨1, .one eo, by omega⟩
        · exact .inr h
      · exact .inl (Nat.le_refl _)

/-! ### A chain of objects with one owner each is destroyed from inside -/

theorem owned_keep {h h' : Heap} {p n : Nat} (hn : Owned h p n)
    (hk : ∀ q c, R (objs h) [p] q → h[q]? = some c → c.count = 1 → h'[q]? = some c) : Owned h' p n := by
  induction hn with
  | one hp hc => exact .one (hk _ _ (.ref (by simp)) hp hc) hc
  | @cons p q' _ _ hp hc hq _ ih =>
    refine .cons (hk _ _ (.ref (by simp)) hp hc) hc hq (ih fun q c hr => hk q c ?_)
    have : ∀ r, R (objs h) [q'] r → R (objs h) [p] r := by
      intro r hr
      induction hr with
      | ref h1 =>
        rw [List.mem_singleton] at h1
        subst h1
        exact .member (.ref (List.mem_singleton.2 rfl)) (by rw [objs, List.getElem?_map, hp]; rfl) hq
      | member _ ho hq ih => exact .member ih ho hq
    exact this q hr

theorem releaseIn_owned (ho : IsOrder order) (n : Nat) : ∀ {d : Nat} {x : Heap × Nat} {refs : List Nat} {p k : Nat},
    Good x.1 (p :: refs) → p < n → Owned x.1 p k → d + k ≤ (Heap.releaseIn order n d x p).2 := by
  induction n with
  | zero => intro d x refs p k _ hp; omega
  | succ n ih =>
    intro d x refs p k g hp hk
    have hc1 : ∃ c, x.1[p]? = some c ∧ c.count = 1 := by cases hk <;> exact ⟨_, ‹_›, ‹_›⟩
    obtain ⟨c, e, hc⟩ := hc1
    rw [releaseIn_succ, e]
    dsimp only
    rw [if_pos (by omega)]
    have hlt : ∀ q ∈ c.obj.members, q < n := by
      intro q hq
      have := (g.static p c.obj (by simp [objs, e])).1 q hq
      omega
    have g1 : Good (x.1.modify p dec) (order c.obj.members ++ refs) := by
      refine ⟨by rw [objs_dec]; exact g.static, fun q => ?_⟩
      have h1 := g.inv q
      have h2 := own_modify_dead x.1 p q dec c e (by simp [hc]) (by omega)
      rw [count_modify]
      rw [List.count_append, (ho c.obj.members).count_eq]
      simp only [List.count_cons] at h1 ⊢
      by_cases h3 : p = q
      · subst q
        rw [count_eq e] at h1
        simp [e] at h1 ⊢; omega
      · simp [h3] at h1 ⊢; omega
    cases hk with
    | one _ _ =>
      have := releases_deep (order := order) n (d + 1) (order c.obj.members) (x.1.modify p dec, max x.2 (d + 1))
      dsimp only at this
      omega
    | @cons _ q k _ hp' hc' hq hk =>
      rw [e] at hp'; cases hp'
      have key : ∀ (ms : List Nat) (y : Heap × Nat), (∀ r ∈ ms, r < n) → q ∈ ms → Good y.1 (ms ++ refs) →
          Owned y.1 q k → d + 1 + k ≤ (ms.foldl (Heap.releaseIn order n (d + 1)) y).2 := by
        intro ms
        induction ms with
        | nil => intro y _ hq; simp at hq
        | cons m ms ih2 =>
          intro y hm hq gy hky
          rw [List.foldl_cons]
          by_cases hqm : q ∈ ms
          · have g2 : Good (Heap.releaseIn order n (d + 1) y m).1 (ms ++ refs) := by
              apply Good.releaseIn ho (n := n) (d := d + 1) (x := y) (p := m) (refs := ms ++ refs)
              · simpa using gy
              · exact hm m (by simp)
            refine ih2 _ (fun r hr => hm r (by simp [hr])) hqm g2 (owned_keep hky ?_)
            intro r c' hr er hc'
            have h1 : R (objs (Heap.releaseIn order n (d + 1) y m).1) (ms ++ refs) r := by
              rw [objs_releaseIn]
              exact hr.mono (List.prefix_refl _) (by simp [hqm])
            have h2 := (g2.alive_iff r).2 h1
            have h3 := count_releaseIn_le (order := order) n (d + 1) y m r
            obtain ⟨c2, e2, -⟩ := exists_of_count h2
            rw [count_eq e2] at h2 h3
            rw [count_eq er, hc'] at h3
            have h4 : c2.obj = c'.obj := by
              have := congrArg (·[r]?) (objs_releaseIn (order := order) n (d + 1) y m)
              simp only [objs, List.getElem?_map, e2, er, Option.map_some, Option.some.injEq] at this
              exact this
            rw [e2]
            congr 1
            rcases c2 with ⟨o2, n2⟩; rcases c' with ⟨o', n'⟩
            simp only at h2 h3 h4 hc'
            subst h4
            congr 1
            omega
          · have hqe : q = m := by simpa [hqm] using hq
            subst hqe
            have := ih (d := d + 1) (x := y) (refs := ms ++ refs) (by simpa using gy) (hm q (by simp)) hky
            exact Nat.le_trans this (releases_deep _ _ _ _)
      have := key (order c.obj.members) (x.1.modify p dec, max x.2 (d + 1))
        (fun r hr => hlt r ((ho _).mem_iff.1 hr)) ((ho _).mem_iff.2 hq) g1 ?_
      · omega
      · refine owned_keep hk ?_
        intro r c' hr er hc'
        rw [List.getElem?_modify]
        split
        · rename_i hpr
          subst hpr
          -- the object itself is not below its member
          have : ∀ r, R (objs x.1) [q] r → r < p := by
            intro r hr
            induction hr with
            | ref h1 =>
              rw [List.mem_singleton] at h1; subst h1
              exact (g.static p c.obj (by simp [objs, e])).1 _ hq
            | member _ ho hq ih =>
              exact Nat.lt_trans ((g.static _ _ ho).1 _ hq) ih
          exact absurd (this p hr) (Nat.lt_irrefl p)
        · rw [er]; rfl

/-! ### The order does not matter for what is left -/

theorem own_congr : ∀ (h h' : Heap) (q : Nat), objs h = objs h' →
    (∀ r, h.count r = 0 ↔ h'.count r = 0) → own h q = own h' q
  | [], [], _, _, _ => rfl
  | [], _ :: _, _, e, _ => by simp [objs] at e
  | _ :: _, [], _, e, _ => by simp [objs] at e
  | c :: h, c' :: h', q, e, ha => by
    have e0 : c.obj = c'.obj ∧ objs h = objs h' := by simpa [objs] using e
    have h0 : c.count = 0 ↔ c'.count = 0 := by simpa [Heap.count] using ha 0
    have hs : ∀ r, Heap.count h r = 0 ↔ Heap.count h' r = 0 := by
      intro r; simpa [Heap.count] using ha (r + 1)
    simp only [own, e0.1, own_congr h h' q e0.2 hs, h0]

theorem Good.unique {h h' : Heap} {refs : List Nat} (g : Good h refs) (g' : Good h' refs)
    (e : objs h = objs h') : h = h' := by
  have ha : ∀ r, h.count r = 0 ↔ h'.count r = 0 := by
    intro r
    have h1 := g.alive_iff r
    have h2 := g'.alive_iff r
    rw [e] at h1
    have h3 := h1.trans h2.symm
    omega
  apply List.ext_getElem?
  intro i
  have hc : h.count i = h'.count i := by rw [g.inv i, g'.inv i, own_congr h h' i e ha]
  have ho : (objs h)[i]? = (objs h')[i]? := by rw [e]
  simp only [objs, List.getElem?_map] at ho
  unfold Heap.count at hc
  cases h1 : h[i]? with
  | none => cases h2 : h'[i]? with
    | none => rfl
    | some c' => rw [h1, h2] at ho; simp at ho
  | some c => cases h2 : h'[i]? with
    | none => rw [h1, h2] at ho; simp at ho
    | some c' =>
      rw [h1, h2] at ho hc
      simp at ho hc
      rcases c with ⟨o, n⟩; rcases c' with ⟨o', n'⟩
      simp_all

/-! ### Single steps on explicit heaps -/

theorem get_modify (h : Heap) (p q : Nat) (f : Cell → Cell) :
    (h.modify p f)[q]? = if p = q then h[q]?.map f else h[q]? := by
  rw [List.getElem?_modify]
  split
  · rfl
  · simp

theorem modify_append (h Y : Heap) {p : Nat} (f : Cell → Cell) (hp : p < h.length) :
    (h ++ Y).modify p f = h.modify p f ++ Y := by
  apply List.ext_getElem?
  intro i
  rw [get_modify]
  by_cases hi : i < h.length
  · rw [List.getElem?_append_left hi, List.getElem?_append_left (by simpa using hi), get_modify]
  · rw [List.getElem?_append_right (by omega), List.getElem?_append_right (by simp; omega), if_neg (by omega)]
    simp

theorem modify_append_right (h Y : Heap) (f : Cell → Cell) (j : Nat) :
    (h ++ Y).modify (h.length + j) f = h ++ Y.modify j f := by
  apply List.ext_getElem?
  intro i
  rw [get_modify]
  by_cases hi : i < h.length
  · rw [List.getElem?_append_left hi, List.getElem?_append_left hi, if_neg (by omega)]
  · rw [List.getElem?_append_right (by omega), List.getElem?_append_right (by omega), get_modify]
    by_cases h2 : h.length + j = i
    · rw [if_pos h2, if_pos (by omega)]
    · rw [if_neg h2, if_neg (by omega)]

theorem length_incr (h : Heap) (p : Nat) : (h.incr p).length = h.length := by simp [Heap.incr]

theorem get_incr (h : Heap) (p q : Nat) :
    (h.incr p)[q]? = if p = q then h[q]?.map (fun c => { c with count := c.count + 1 }) else h[q]? := by
  exact get_modify _ _ _ _

/-- A pointer that is not the last one is destroyed. -/
theorem release_some {h : Heap} {p : Nat} {c : Cell} (n : Nat) (e : h[p]? = some c) (hc : 2 ≤ c.count) :
    h.release (n + 1) p = h.modify p dec := by
  rw [Heap.release, e]
  dsimp only
  rw [if_neg (by omega)]

/-- The pointer that has just been copied is destroyed. -/
theorem dec_incr (h : Heap) (p : Nat) : (h.incr p).modify p dec = h := by
  apply List.ext_getElem?
  intro i
  rw [get_modify, get_incr]
  split
  · cases h[i]? <;> simp [dec]
  · rfl

theorem release_incr {h : Heap} {p : Nat} {c : Cell} (n : Nat) (e : h[p]? = some c) (hc : 1 ≤ c.count) :
    (h.incr p).release (n + 1) p = h := by
  rw [release_some n (c := { c with count := c.count + 1 }) (by rw [get_incr, if_pos rfl, e]; rfl) (by simp; omega),
    dec_incr]

end Goost.Mem
