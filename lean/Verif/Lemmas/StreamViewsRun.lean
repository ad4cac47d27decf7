import Verif.Lemmas.StreamViews
import Mathlib.Data.List.Forall2
/-
Helper lemmas for C130: the invariant of a program.
-/
namespace Goost.StreamViews
open Goost.KuzToken (Blk Key outside)
open Goost.Kuz (Caches)
open Goost.Views (V Cells)
open Spec Spec.Modes Spec.StreamViews

variable {m : Machine} {start : Cells} {p : List Step}

/-! ### What a program has made -/

def streamsFrom (t : Nat) (p : List Step) : List (How × Nat) :=
  (p.zipIdx t).filterMap fun
    | (.stream how, t) => some (how, t)
    | _ => none

/-- The calls from the moment `t` on. -/
def askedFrom (t : Nat) (p : List Step) : List (Query × Nat) :=
  (p.zipIdx t).filterMap fun
    | (.ask q, t) => some (q, t)
    | _ => none

def itersFrom (l : List (Nat × Nat)) (p : List Step) : List (Nat × Nat) :=
  p.foldl (fun l s => match s with
    | .iter i => l ++ [(i, 0)]
    | .next i => l ++ (l[i]?.map fun x => (x.1, x.2 + 1)).toList
    | _ => l) l

theorem keys_append (a b : List Step) : keys (a ++ b) = keys a ++ keys b := by
  simp only [keys, List.filterMap_append]

theorem streams_append (a b : List Step) : streams (a ++ b) = streams a ++ streamsFrom a.length b := by
  simp only [streams, streamsFrom, List.zipIdx_append, List.filterMap_append, Nat.zero_add]
  rfl

theorem iterators_append (a b : List Step) : iterators (a ++ b) = itersFrom (iterators a) b := by
  simp only [iterators, itersFrom, List.foldl_append]
  rfl

theorem itersFrom_prefix (l : List (Nat × Nat)) (b : List Step) : ∃ r, itersFrom l b = l ++ r := by
  induction b generalizing l with
  | nil => exact ⟨[], by simp [itersFrom]⟩
  | cons s b ih =>
    cases s with
    | iter i =>
      obtain ⟨r, hr⟩ := ih (l ++ [(i, 0)])
      exact ⟨[(i, 0)] ++ r, by rw [← List.append_assoc, ← hr]; rfl⟩
    | next i =>
      obtain ⟨r, hr⟩ := ih (l ++ (l[i]?.map fun x => (x.1, x.2 + 1)).toList)
      exact ⟨(l[i]?.map fun x => (x.1, x.2 + 1)).toList ++ r, by rw [← List.append_assoc, ← hr]; rfl⟩
    | _ => exact ih l

theorem getElem?_prefix {α : Type} {a b : List α} {i : Nat} {x : α} (h : a[i]? = some x) : (a ++ b)[i]? = some x := by
  obtain ⟨hl, -⟩ := List.getElem?_eq_some_iff.1 h
  rw [List.getElem?_append_left hl, h]

theorem iterators_here {a b : List Step} {i : Nat} {x : Nat × Nat} (h : (iterators a)[i]? = some x) :
    (iterators (a ++ b))[i]? = some x := by
  obtain ⟨r, hr⟩ := itersFrom_prefix (iterators a) b
  rw [iterators_append, hr]
  exact getElem?_prefix h

/-! ### Keys of streams -/

variable {ks : List (Nat × Nat)}

theorem getD_append_left {α : Type} (a b : List α) (i : Nat) (x : α) (h : i < a.length) : (a ++ b).getD i x = a.getD i x := by
  simp [List.getD, List.getElem?_append_left h]

theorem keyOf_append (x : List (Nat × Nat)) {n : Nat} (h : n < ks.length) : keyOf (ks ++ x) n = keyOf ks n := by
  rw [keyOf, keyOf, getD_append_left _ _ _ _ h]

theorem stream_append (x : List (Nat × Nat)) (d : Desc) (h : ∀ k ∈ d.keys, k < ks.length) :
    d.stream (ks ++ x) = d.stream ks := by
  induction d with
  | own cells size => rfl
  | memory vals => rfl
  | ctr d k iv ih =>
    simp only [Desc.keys, List.mem_append, List.mem_singleton] at h
    simp only [Desc.stream]
    rw [ih fun k hk => h k (.inl hk), keyOf_append x (h k (.inr rfl))]

theorem it_append (x : List (Nat × Nat)) (j : Nat) (d : Desc) (h : ∀ k ∈ d.keys, k < ks.length) :
    d.it (ks ++ x) j = d.it ks j := by
  induction d with
  | own cells size => rfl
  | memory vals => rfl
  | ctr d k iv ih =>
    simp only [Desc.keys, List.mem_append, List.mem_singleton] at h
    simp only [Desc.it]
    rw [ih fun k hk => h k (.inl hk), keyOf_append x (h k (.inr rfl))]

theorem len_le_budget (d : Desc) : d.len ≤ (d.stream ks).budget := by
  induction d with
  | own cells size => simp only [Desc.stream, St.budget, Desc.len]; omega
  | memory vals => simp only [Desc.stream, St.budget, Desc.len, words_length]; omega
  | ctr d k iv ih => exact ih

theorem State.append {c : Caches} {st : Used} (h : State ks c st) (ks' : List (Nat × Nat)) : State ks' c st :=
  ⟨h.loaded, h.holds⟩

/-! ### The invariant -/

/-- The stream `s` of the program rests on what `d` says. -/
structure Describes (start : Cells) (p : List Step) (s : Nat) (d : Desc) : Prop where
  data : ∀ (t : Nat) (w : Cells) (K : Nat → BitVec 256), (∀ c, join64 (w c) = contents start p c t) →
    (∀ k ∈ d.keys, KeyAt start p k t (K k)) → Data start p s t (d.blocks w K)
  size : LastSize p s d.size
  under : ∀ k, Under p s k ↔ k ∈ d.keys

theorem Describes.own {s t n : Nat} {cells : List Nat} (h : (streams p)[s]? = some (.own cells n, t)) :
    Describes start p s (.own cells n) where
  data t w K hw _ := by
    simp only [Desc.blocks, hw]
    exact .own h
  size := .own h
  under k := by
    simp only [Desc.keys, List.not_mem_nil, iff_false]
    rintro (e | ⟨e, -⟩) <;> (rw [h] at e; cases e)

theorem Describes.memory {s t : Nat} {cells : List Nat} (h : (streams p)[s]? = some (.memory cells, t)) {w : Cells}
    (hw : ∀ c, join64 (w c) = contents start p c t) : Describes start p s (.memory (cells.map w)) where
  data t w K _ _ := by
    simp only [Desc.blocks, List.map_map, Function.comp_def, hw]
    exact .memory h
  size := .memory h
  under k := by
    simp only [Desc.keys, List.not_mem_nil, iff_false]
    rintro (e | ⟨e, -⟩) <;> (rw [h] at e; cases e)

theorem Describes.ctr {s t a k : Nat} {iv : BitVec 64} (h : (streams p)[s]? = some (.ctr a k iv, t)) {d : Desc}
    (hd : Describes start p a d) : Describes start p s (.ctr d k iv) where
  data t w K hw hK := by
    simp only [Desc.keys, List.mem_append, List.mem_singleton] at hK
    exact .ctr h (hd.data t w K hw fun k hk => hK k (.inl hk)) (hK k (.inr rfl))
  size := .ctr h hd.size
  under k' := by
    simp only [Desc.keys, List.mem_append, List.mem_singleton, ← hd.under]
    constructor
    · rintro (e | ⟨e, hu⟩)
      · rw [h] at e; cases e; exact .inr rfl
      · rw [h] at e; cases e; exact .inl hu
    · rintro (hu | rfl)
      · exact .inside h hu
      · exact .here h

/-- The invariant: `pre` has been run. -/
structure Inv (start : Cells) (p pre : List Step) (o : Objects) (c : Caches) (w : Cells) (ds : List Desc) (st : Used) :
    Prop where
  begins : ∃ rest, p = pre ++ rest
  cells : ∀ d, join64 (w d) = contents start p d pre.length
  state : State (keys pre) c st
  okeys : o.keys = (List.range (keys pre).length).map (keyOf (keys pre))
  ostreams : o.streams = ds.map (Desc.stream (keys pre))
  oiters : o.iters = (iterators pre).map fun x => some ((ds.getD x.1 default).it (keys pre) x.2)
  its : ∀ x ∈ iterators pre, ∃ d, ds[x.1]? = some d ∧ x.2 < d.len
  descs : ∀ s d, ds[s]? = some d → Describes start p s d ∧ (∀ k ∈ d.keys, k < (keys pre).length) ∧ 0 < d.len
  count : ds.length = (streams pre).length
  used : ∀ n, (st n).isSome ↔ ∃ t, t < pre.length ∧ Uses p t n
  first : ∀ n K, st n = some K → ∃ h l u, u < pre.length ∧ (keys p)[n]? = some (h, l) ∧ Uses p u n ∧
    (∀ s, s < u → ¬ Uses p s n) ∧ K = contents start p h u ++ contents start p l u

variable {pre : List Step} {o : Objects} {c : Caches} {w : Cells} {ds : List Desc} {st : Used}

theorem Inv.keyHere (h : Inv start p pre o c w ds st) {n : Nat} (hn : n < (keys pre).length) :
    (keys p)[n]? = some ((keys pre).getD n (0, 0)) := by
  obtain ⟨rest, rfl⟩ := h.begins
  rw [keys_append]
  refine getElem?_prefix ?_
  simp [hn]

/-- What a key is now. -/
theorem Inv.keyAt (h : Inv start p pre o c w ds st) {n : Nat} (hn : n < (keys pre).length) :
    KeyAt start p n pre.length (keyNow (keys pre) w st n) := by
  cases e : st n with
  | some K =>
    obtain ⟨x, l, u, h1, h2, h3, h4, h5⟩ := h.first n K e
    refine ⟨x, l, u, h2, ⟨Nat.le_of_lt h1, h4, .inr h3⟩, ?_⟩
    rw [keyNow, e]; exact h5
  | none =>
    refine ⟨_, _, pre.length, h.keyHere hn, ⟨Nat.le_refl _, fun s hs hu => ?_, .inl rfl⟩, ?_⟩
    · have := (h.used n).2 ⟨s, hs, hu⟩
      rw [e] at this; cases this
    · rw [keyNow, e, ← h.cells, ← h.cells]; rfl

theorem contents_succ (start : Cells) {t : Nat} {s : Step} (e : p[t]? = some s) (d : Nat) :
    contents start p d (t + 1) = match s with
      | .change i x => if d = i then join64 x else contents start p d t
      | _ => contents start p d t := by
  simp only [contents, List.take_add_one, e, Option.toList_some, List.foldl_append, List.foldl_cons, List.foldl_nil]
  cases s with
  | change i x => simp only; split <;> rfl
  | _ => rfl

/-- A step that is not a call. -/
theorem Inv.quiet (h : Inv start p pre o c w ds st) {s : Step} (hps : p[pre.length]? = some s) (hq : ∀ q, s ≠ .ask q) :
    (∀ n, (st n).isSome ↔ ∃ t, t < (pre ++ [s]).length ∧ Uses p t n) ∧
    (∀ n K, st n = some K → ∃ h l u, u < (pre ++ [s]).length ∧ (keys p)[n]? = some (h, l) ∧ Uses p u n ∧
      (∀ s, s < u → ¬ Uses p s n) ∧ K = contents start p h u ++ contents start p l u) := by
  have hlen : (pre ++ [s]).length = pre.length + 1 := by simp
  have hno : ∀ n, ¬ Uses p pre.length n := by
    rintro n (⟨i, _, _, e, -⟩ | ⟨a, k, e, -⟩) <;> (rw [hps] at e; cases e; exact hq _ rfl)
  refine ⟨fun n => ?_, fun n K e => ?_⟩
  · rw [h.used, hlen]
    constructor
    · rintro ⟨t, ht, hu⟩
      exact ⟨t, by omega, hu⟩
    · rintro ⟨t, ht, hu⟩
      rcases Nat.lt_succ_iff_lt_or_eq.1 ht with ht | rfl
      · exact ⟨t, ht, hu⟩
      · exact absurd hu (hno n)
  · obtain ⟨x, l, u, h1, h2⟩ := h.first n K e
    exact ⟨x, l, u, by omega, h2⟩

/-- A call. -/
theorem Inv.asked (h : Inv start p pre o c w ds st) {q : Query} {rest : List Step} (hp : p = pre ++ .ask q :: rest)
    {U : List Nat} (hU : ∀ n, Uses p pre.length n ↔ n ∈ U) (hlt : ∀ n ∈ U, n < (keys pre).length) {c' : Caches}
    (hs : State (keys pre) c' (load (keys pre) w st U)) :
    Inv start p (pre ++ [.ask q]) o c' w ds (load (keys pre) w st U) := by
  have hps : p[pre.length]? = some (.ask q) := by rw [hp]; simp
  have hlen : (pre ++ [Step.ask q]).length = pre.length + 1 := by simp
  have hk : keys (pre ++ [.ask q]) = keys pre := by rw [keys_append]; simp [keys]
  have hi : iterators (pre ++ [.ask q]) = iterators pre := by rw [iterators_append]; rfl
  have hst : streams (pre ++ [.ask q]) = streams pre := by rw [streams_append]; simp [streamsFrom]
  refine ⟨⟨rest, by rw [hp]; simp⟩, fun d => ?_, by rw [hk]; exact hs, by rw [hk]; exact h.okeys, by rw [hk]; exact h.ostreams,
    by rw [hk, hi]; exact h.oiters, by rw [hi]; exact h.its, by rw [hk]; exact h.descs, by rw [hst]; exact h.count,
    fun n => ?_, fun n K e => ?_⟩
  · rw [hlen, contents_succ start hps, h.cells d]
  · rw [hlen]
    constructor
    · intro hn
      by_cases hu : n ∈ U
      · exact ⟨pre.length, by omega, (hU n).2 hu⟩
      · rw [load, if_neg hu, h.used] at hn
        obtain ⟨t, ht, hu⟩ := hn
        exact ⟨t, by omega, hu⟩
    · rintro ⟨t, ht, hu⟩
      rcases Nat.lt_succ_iff_lt_or_eq.1 ht with ht | rfl
      · have := (h.used n).2 ⟨t, ht, hu⟩
        rw [load]
        split
        · rfl
        · exact this
      · rw [load, if_pos ((hU n).1 hu)]; rfl
  · cases e' : st n with
    | some K' =>
      have : K = K' := by
        rw [load] at e
        split at e
        · rw [keyNow, e'] at e; exact (Option.some.inj e).symm
        · rw [e'] at e; exact (Option.some.inj e).symm
      subst this
      obtain ⟨x, l, u, h1, h2⟩ := h.first n K e'
      exact ⟨x, l, u, by omega, h2⟩
    | none =>
      rw [load] at e
      split at e
      · rename_i hu
        refine ⟨_, _, pre.length, by omega, h.keyHere (hlt n hu), (hU n).2 hu, fun s hs hus => ?_, ?_⟩
        · have := (h.used n).2 ⟨s, hs, hus⟩
          rw [e'] at this; cases this
        · rw [← Option.some.inj e, keyNow, e', ← h.cells, ← h.cells]; rfl
      · rw [e'] at e; cases e

/-- A stream is made. -/
theorem Inv.stream (h : Inv start p pre o c w ds st) {how : How} {rest : List Step} (hp : p = pre ++ .stream how :: rest)
    (d : Desc) (hd : (streams p)[ds.length]? = some (how, pre.length) → Describes start p ds.length d)
    (hk : ∀ k ∈ d.keys, k < (keys pre).length) (hl : 0 < d.len) :
    Inv start p (pre ++ [.stream how]) { o with streams := o.streams ++ [d.stream (keys pre)] } c w (ds ++ [d]) st := by
  have hps : p[pre.length]? = some (.stream how) := by rw [hp]; simp
  have hlen : (pre ++ [Step.stream how]).length = pre.length + 1 := by simp
  have hke : keys (pre ++ [.stream how]) = keys pre := by rw [keys_append]; simp [keys]
  have hi : iterators (pre ++ [.stream how]) = iterators pre := by rw [iterators_append]; rfl
  have hst : streams (pre ++ [.stream how]) = streams pre ++ [(how, pre.length)] := by
    rw [streams_append]; simp [streamsFrom]
  obtain ⟨q1, q2⟩ := h.quiet hps (by simp)
  refine ⟨⟨rest, by rw [hp]; simp⟩, fun d => ?_, by rw [hke]; exact h.state, by rw [hke]; exact h.okeys, ?_, ?_, ?_, ?_, ?_, q1, q2⟩
  · rw [hlen, contents_succ start hps, h.cells d]
  · simp only [hke, h.ostreams, List.map_append, List.map_cons, List.map_nil]
  · simp only [hke, hi, h.oiters]
    refine List.map_congr_left fun x hx => ?_
    obtain ⟨d', hd', -⟩ := h.its x hx
    obtain ⟨hlt, -⟩ := List.getElem?_eq_some_iff.1 hd'
    rw [getD_append_left _ _ _ _ hlt]
  · rw [hi]
    intro x hx
    obtain ⟨d', hd', hj⟩ := h.its x hx
    exact ⟨d', getElem?_prefix hd', hj⟩
  · rw [hke]
    intro s d' e
    rcases Nat.lt_or_ge s ds.length with hs | hs
    · rw [List.getElem?_append_left hs] at e
      exact h.descs s d' e
    · rw [List.getElem?_append_right hs] at e
      have : s - ds.length = 0 := by
        by_contra hne
        rw [List.getElem?_eq_none (by simp; omega)] at e
        cases e
      rw [this] at e
      cases e
      have : s = ds.length := by omega
      subst this
      refine ⟨hd ?_, hk, hl⟩
      have : p = (pre ++ [.stream how]) ++ rest := by rw [hp]; simp
      rw [this, streams_append, hst]
      refine getElem?_prefix ?_
      rw [h.count]; simp
  · rw [hst]; simp [h.count]

/-- An iterator is got. -/
theorem Inv.iterator (h : Inv start p pre o c w ds st) {s : Step} {rest : List Step} (hp : p = pre ++ s :: rest)
    (hs : (∃ i, s = .iter i) ∨ ∃ i, s = .next i) {x : Nat × Nat} {d : Desc} (hd : ds[x.1]? = some d) (hj : x.2 < d.len)
    (hi : iterators (pre ++ [s]) = iterators pre ++ [x]) :
    Inv start p (pre ++ [s]) { o with iters := o.iters ++ [some (d.it (keys pre) x.2)] } c w ds st := by
  have hps : p[pre.length]? = some s := by rw [hp]; simp
  have hlen : (pre ++ [s]).length = pre.length + 1 := by simp
  have hke : keys (pre ++ [s]) = keys pre := by
    rw [keys_append]
    rcases hs with ⟨i, rfl⟩ | ⟨i, rfl⟩ <;> simp [keys]
  have hst : streams (pre ++ [s]) = streams pre := by
    rw [streams_append]
    rcases hs with ⟨i, rfl⟩ | ⟨i, rfl⟩ <;> simp [streamsFrom]
  obtain ⟨q1, q2⟩ := h.quiet hps (by rcases hs with ⟨i, rfl⟩ | ⟨i, rfl⟩ <;> simp)
  refine ⟨⟨rest, by rw [hp]; simp⟩, fun d => ?_, by rw [hke]; exact h.state, by rw [hke]; exact h.okeys,
    by rw [hke]; exact h.ostreams, ?_, ?_, by rw [hke]; exact h.descs, by rw [hst]; exact h.count, q1, q2⟩
  · rw [hlen, contents_succ start hps, h.cells d]
    rcases hs with ⟨i, rfl⟩ | ⟨i, rfl⟩ <;> rfl
  · have : ds.getD x.1 default = d := by rw [List.getD, hd]; rfl
    simp only [hke, hi, h.oiters, List.map_append, List.map_cons, List.map_nil, this]
  · rw [hi]
    intro y hy
    rcases List.mem_append.1 hy with hy | hy
    · exact h.its y hy
    · rw [List.mem_singleton.1 hy]
      exact ⟨d, hd, hj⟩

theorem Inv.key (h : Inv start p pre o c w ds st) {hi lo : Nat} {rest : List Step} (hp : p = pre ++ .key hi lo :: rest) :
    Inv start p (pre ++ [.key hi lo]) { o with keys := o.keys ++ [makeKey o.keys.length hi lo] } c w ds st := by
  have hps : p[pre.length]? = some (.key hi lo) := by rw [hp]; simp
  have hlen : (pre ++ [Step.key hi lo]).length = pre.length + 1 := by simp
  have hke : keys (pre ++ [.key hi lo]) = keys pre ++ [(hi, lo)] := by rw [keys_append]; simp [keys]
  have hit : iterators (pre ++ [.key hi lo]) = iterators pre := by rw [iterators_append]; rfl
  have hst : streams (pre ++ [.key hi lo]) = streams pre := by rw [streams_append]; simp [streamsFrom]
  obtain ⟨q1, q2⟩ := h.quiet hps (by simp)
  refine ⟨⟨rest, by rw [hp]; simp⟩, fun d => ?_, h.state.append _, ?_, ?_, ?_, by rw [hit]; exact h.its, ?_,
    by rw [hst]; exact h.count, q1, q2⟩
  · rw [hlen, contents_succ start hps, h.cells d]
  · have hl : o.keys.length = (keys pre).length := by rw [h.okeys]; simp
    simp only [hke, List.length_append, List.length_cons, List.length_nil, Nat.zero_add, List.range_succ, List.map_append,
      List.map_cons, List.map_nil, hl]
    congr 1
    · rw [h.okeys]
      refine List.map_congr_left fun n hn => ?_
      exact (keyOf_append _ (List.mem_range.1 hn)).symm
    · simp [keyOf]
  · simp only [hke, h.ostreams]
    refine List.map_congr_left fun d hd => ?_
    obtain ⟨s, hs⟩ := List.mem_iff_getElem?.1 hd
    exact (stream_append _ d (h.descs s d hs).2.1).symm
  · simp only [hke, hit, h.oiters]
    refine List.map_congr_left fun x hx => ?_
    obtain ⟨d, hd, -⟩ := h.its x hx
    have : ds.getD x.1 default = d := by rw [List.getD, hd]; rfl
    rw [this, it_append _ _ d (h.descs _ d hd).2.1]
  · intro s d e
    obtain ⟨h1, h2, h3⟩ := h.descs s d e
    refine ⟨h1, fun k hk => ?_, h3⟩
    rw [hke, List.length_append]
    have := h2 k hk
    omega

theorem Inv.change (h : Inv start p pre o c w ds st) {d : Nat} {v : V} {rest : List Step} (hp : p = pre ++ .change d v :: rest) :
    Inv start p (pre ++ [.change d v]) o c (fun i => if i = d then v else w i) ds st := by
  have hps : p[pre.length]? = some (.change d v) := by rw [hp]; simp
  have hlen : (pre ++ [Step.change d v]).length = pre.length + 1 := by simp
  have hke : keys (pre ++ [.change d v]) = keys pre := by rw [keys_append]; simp [keys]
  have hit : iterators (pre ++ [.change d v]) = iterators pre := by rw [iterators_append]; rfl
  have hst : streams (pre ++ [.change d v]) = streams pre := by rw [streams_append]; simp [streamsFrom]
  obtain ⟨q1, q2⟩ := h.quiet hps (by simp)
  refine ⟨⟨rest, by rw [hp]; simp⟩, fun i => ?_, by rw [hke]; exact h.state, by rw [hke]; exact h.okeys,
    by rw [hke]; exact h.ostreams, by rw [hke, hit]; exact h.oiters, by rw [hit]; exact h.its, by rw [hke]; exact h.descs,
    by rw [hst]; exact h.count, q1, q2⟩
  rw [hlen, contents_succ start hps]
  simp only
  split
  · rfl
  · exact h.cells i

/-! ### All answers -/

theorem pointer_eq {α : Type} {l : List α} {i : Nat} {x : α} (h : l[i]? = some x) : pointer l i = .ok x := by
  rw [pointer, h]

theorem lift_bind {S α β : Type} {x : Exec α} {a : α} (h : x = .ok a) (f : α → Io S β) (s : S) : (Io.lift x >>= f) s = f a s :=
  KuzToken.bind_ok (by rw [h]; rfl)

theorem Inv.streamAt (h : Inv start p pre o c w ds st) {s : Nat} {d : Desc} (hd : ds[s]? = some d) :
    pointer o.streams s = .ok (d.stream (keys pre)) := by
  refine pointer_eq ?_
  rw [h.ostreams, List.getElem?_map, hd]; rfl

theorem Inv.keyPointer (h : Inv start p pre o c w ds st) {k : Nat} (hk : k < (keys pre).length) :
    pointer o.keys k = .ok (keyOf (keys pre) k) := by
  refine pointer_eq ?_
  rw [h.okeys, List.getElem?_map, List.getElem?_range hk]; rfl

theorem Inv.iterAt (h : Inv start p pre o c w ds st) {i : Nat} (hi : i < (iterators pre).length) :
    ∃ s j d, (iterators pre)[i]? = some (s, j) ∧ (iterators p)[i]? = some (s, j) ∧ ds[s]? = some d ∧ j < d.len ∧
      pointer o.iters i = .ok (some (d.it (keys pre) j)) := by
  obtain ⟨d, hd, hj⟩ := h.its (iterators pre)[i] (List.getElem_mem hi)
  have e : (iterators pre)[i]? = some (iterators pre)[i] := List.getElem?_eq_getElem hi
  refine ⟨_, _, d, e, ?_, hd, hj, pointer_eq ?_⟩
  · obtain ⟨rest, rfl⟩ := h.begins
    exact iterators_here e
  · have : ds.getD (iterators pre)[i].1 default = d := by rw [List.getD, hd]; rfl
    rw [h.oiters, List.getElem?_map, e, Option.map_some, this]
    rfl

/-- What a stream shows now. -/
theorem Inv.data (h : Inv start p pre o c w ds st) {s : Nat} {d : Desc} (hd : ds[s]? = some d) :
    Data start p s pre.length (d.blocks w (keyNow (keys pre) w st)) :=
  (h.descs s d hd).1.data _ _ _ h.cells fun k hk => h.keyAt ((h.descs s d hd).2.1 k hk)

/-- One call. -/
theorem Inv.answer (hm : m.unalignedLoad = true) (h : Inv start p pre o c w ds st) {q : Query} {rest : List Step}
    (hp : p = pre ++ .ask q :: rest) (hs : sound (keys pre).length (ds.map Desc.len) (iterators pre) (.ask q :: rest) = true) :
    sound (keys pre).length (ds.map Desc.len) (iterators pre) rest = true ∧
    ∃ a c' st', answer m o q (c, w) = (.ok a, (c', w)) ∧ Answers start p q pre.length a ∧
      Inv start p (pre ++ [.ask q]) o c' w ds st' := by
  have hps : p[pre.length]? = some (.ask q) := by rw [hp]; simp
  cases q with
  | value i =>
    simp only [sound, Bool.and_eq_true, decide_eq_true_eq] at hs
    obtain ⟨s, j, d, e1, e2, e3, e4, e5⟩ := h.iterAt hs.1
    obtain ⟨v, c', f1, f2, f3⟩ := h.state.value hm (w := w) d j e4
    refine ⟨hs.2, .block v, c', _, ?_, .value e2 (h.data e3) f2, h.asked hp (fun n => ?_) (h.descs s d e3).2.1 f3⟩
    · simp only [StreamViews.answer]
      rw [lift_bind e5]
      simp only [deref]
      rw [KuzToken.bind_ok f1]; rfl
    · rw [← (h.descs s d e3).1.under n]
      constructor
      · rintro (⟨i', s', j', e, e', hu⟩ | ⟨s', k', e, -⟩)
        · rw [hps] at e; cases e
          rw [e2] at e'; cases e'
          exact hu
        · rw [hps] at e; cases e
      · exact fun hu => .inl ⟨i, s, j, hps, e2, hu⟩
  | last i =>
    simp only [sound, Bool.and_eq_true, decide_eq_true_eq] at hs
    obtain ⟨s, j, d, e1, e2, e3, e4, e5⟩ := h.iterAt hs.1
    have ha := Answers.last e2 (h.data e3)
    rw [Desc.blocks_length] at ha
    refine ⟨hs.2, _, c, _, ?_, ha, h.asked hp (U := []) (fun n => ?_) (by simp) (by rw [load_nil]; exact h.state)⟩
    · simp only [StreamViews.answer]
      rw [lift_bind e5]
      simp only [deref]
      rw [KuzToken.bind_ok (it_last d j e4 (c, w))]; rfl
    · simp only [List.not_mem_nil, iff_false]
      rintro (⟨i', s', j', e, e', hu⟩ | ⟨s', k', e, -⟩) <;> (rw [hps] at e; cases e)
  | size i =>
    simp only [sound, Bool.and_eq_true, decide_eq_true_eq] at hs
    obtain ⟨s, j, d, e1, e2, e3, e4, e5⟩ := h.iterAt hs.1
    have ha := Answers.size e2 (h.data e3) (h.descs s d e3).1.size
    rw [Desc.blocks_length] at ha
    refine ⟨hs.2, _, c, _, ?_, ha, h.asked hp (U := []) (fun n => ?_) (by simp) (by rw [load_nil]; exact h.state)⟩
    · simp only [StreamViews.answer]
      rw [lift_bind e5]
      simp only [deref]
      rw [KuzToken.bind_ok (it_size d j e4 (c, w))]; rfl
    · simp only [List.not_mem_nil, iff_false]
      rintro (⟨i', s', j', e, e', hu⟩ | ⟨s', k', e, -⟩) <;> (rw [hps] at e; cases e)
  | mac s k =>
    simp only [sound, Bool.and_eq_true, decide_eq_true_eq, List.length_map] at hs
    obtain ⟨⟨hl, hk⟩, hs⟩ := hs
    have e3 : ds[s]? = some ds[s] := List.getElem?_eq_getElem hl
    obtain ⟨e6, e7, e8⟩ := h.descs s _ e3
    obtain ⟨v, c', xs, y, f1, f2, f3, f4⟩ := h.state.mac hm (w := w) ds[s] e8 k _ (len_le_budget (ks := keys pre) ds[s])
    have hd := h.data e3
    rw [f2] at hd
    refine ⟨hs, .block v, c', _, ?_, .mac hd e6.size (h.keyAt hk) f3, h.asked hp (fun n => ?_) (fun n hn => ?_) f4⟩
    · simp only [StreamViews.answer]
      rw [lift_bind (h.streamAt e3), lift_bind (h.keyPointer hk), KuzToken.bind_ok f1]; rfl
    · simp only [List.mem_append, List.mem_singleton, ← e6.under n]
      constructor
      · rintro (⟨i', s', j', e, e', hu⟩ | ⟨s', k', e, hu⟩)
        · rw [hps] at e; cases e
        · rw [hps] at e; cases e
          exact hu.symm
      · exact fun hu => .inr ⟨s, k, hps, hu.symm⟩
    · rcases List.mem_append.1 hn with hn | hn
      · exact e7 n hn
      · rw [List.mem_singleton.1 hn]; exact hk

/-- All answers from any moment on. -/
theorem Inv.run (hm : m.unalignedLoad = true) (rest : List Step) (pre : List Step) (o : Objects) (c : Caches) (w : Cells)
    (ds : List Desc) (st : Used) (h : Inv start p pre o c w ds st) (hp : p = pre ++ rest)
    (hs : sound (keys pre).length (ds.map Desc.len) (iterators pre) rest = true) :
    List.Forall₂ (fun x q => ∃ a, x = .ok a ∧ Answers start p q.1 q.2 a) (run m rest o (c, w)) (askedFrom pre.length rest) := by
  induction rest generalizing pre o c w ds st with
  | nil => exact .nil
  | cons s r ih =>
    have hp' : p = (pre ++ [s]) ++ r := by rw [hp]; simp
    have hlen : (pre ++ [s]).length = pre.length + 1 := by simp
    cases s with
    | change d v =>
      simp only [sound] at hs
      have := ih _ _ _ _ _ _ (h.change hp) hp' (by
        rw [keys_append, iterators_append]; simpa [keys, itersFrom] using hs)
      rw [hlen] at this
      exact this
    | key hi lo =>
      simp only [sound] at hs
      have := ih _ _ _ _ _ _ (h.key hp) hp' (by
        rw [keys_append, iterators_append]; simpa [keys, itersFrom] using hs)
      rw [hlen] at this
      exact this
    | stream how =>
      have e1 : keys (pre ++ [.stream how]) = keys pre := by rw [keys_append]; simp [keys]
      have e2 : iterators (pre ++ [.stream how]) = iterators pre := by rw [iterators_append]; rfl
      cases how with
      | own cells n =>
        simp only [sound, Bool.and_eq_true, decide_eq_true_eq] at hs
        have := ih _ _ _ _ _ _ (h.stream hp (.own cells n) Describes.own (by simp [Desc.keys])
          (List.length_pos_iff.2 hs.1)) hp' (by
            rw [e1, e2, List.map_append]; exact hs.2)
        rw [hlen] at this
        exact this
      | memory cells =>
        simp only [sound, Bool.and_eq_true, decide_eq_true_eq] at hs
        have := ih _ _ _ _ _ _ (h.stream hp (.memory (cells.map w)) (fun e => Describes.memory e h.cells) (by simp [Desc.keys])
          (by simpa [Desc.len] using List.length_pos_iff.2 hs.1)) hp' (by
            rw [e1, e2, List.map_append]; simpa [Desc.len] using hs.2)
        rw [hlen] at this
        simp only [Desc.stream, words, List.flatMap_map] at this
        exact this
      | ctr a k iv =>
        simp only [sound, List.getElem?_map] at hs
        cases e : ds[a]? with
        | none => rw [e] at hs; cases hs
        | some d =>
          rw [e] at hs
          simp only [Option.map_some, Bool.and_eq_true, decide_eq_true_eq] at hs
          obtain ⟨d1, d2, d3⟩ := h.descs a d e
          have := ih _ _ _ _ _ _ (h.stream hp (.ctr d k iv) (fun e => Describes.ctr e d1) (by
            intro k' hk'
            simp only [Desc.keys, List.mem_append, List.mem_singleton] at hk'
            rcases hk' with hk' | rfl
            · exact d2 k' hk'
            · exact hs.1) d3) hp' (by rw [e1, e2, List.map_append]; exact hs.2)
          rw [hlen] at this
          have ea : extend o (.stream (.ctr a k iv)) (c, w) =
              (.ok { o with streams := o.streams ++ [Desc.stream (keys pre) (.ctr d k iv)] }, (c, w)) := by
            have e0 : makeStream o (.ctr a k iv) (c, w) = (.ok (Desc.stream (keys pre) (.ctr d k iv)), (c, w)) := by
              simp only [makeStream]
              rw [lift_bind (h.streamAt e), lift_bind (h.keyPointer hs.1)]; rfl
            simp only [extend]
            rw [KuzToken.bind_ok e0]; rfl
          simp only [StreamViews.run, ea]
          exact this
    | iter i =>
      simp only [sound, Bool.and_eq_true, decide_eq_true_eq, List.length_map] at hs
      have e : ds[i]? = some ds[i] := List.getElem?_eq_getElem hs.1
      have hi : iterators (pre ++ [.iter i]) = iterators pre ++ [(i, 0)] := by rw [iterators_append]; rfl
      have := ih _ _ _ _ _ _ (h.iterator hp (.inl ⟨i, rfl⟩) (x := (i, 0)) e (h.descs i _ e).2.2 hi) hp' (by
        rw [hi, keys_append]; simpa [keys] using hs.2)
      rw [hlen] at this
      have ea : extend o (.iter i) (c, w) = (.ok { o with iters := o.iters ++ [some (ds[i].it (keys pre) 0)] }, (c, w)) := by
        simp only [extend]
        rw [lift_bind (h.streamAt e), KuzToken.bind_ok (st_iter _ (h.descs i _ e).2.2 (c, w))]; rfl
      simp only [StreamViews.run, ea]
      exact this
    | next i =>
      simp only [sound] at hs
      cases e : (iterators pre)[i]? with
      | none => rw [e] at hs; cases hs
      | some x =>
        rw [e] at hs
        simp only [Bool.and_eq_true, decide_eq_true_eq] at hs
        obtain ⟨s, j, d, e1, e2, e3, e4, e5⟩ := h.iterAt (List.getElem?_eq_some_iff.1 e).1
        rw [e] at e1; cases e1
        have hl : (ds.map Desc.len).getD s 0 = d.len := by simp [List.getD, e3]
        rw [hl] at hs
        have hi : iterators (pre ++ [.next i]) = iterators pre ++ [(s, j + 1)] := by
          rw [iterators_append]; simp [itersFrom, e]
        have := ih _ _ _ _ _ _ (h.iterator hp (.inr ⟨i, rfl⟩) (x := (s, j + 1)) e3 hs.1 hi) hp' (by
          rw [hi, keys_append]; simpa [keys] using hs.2)
        rw [hlen] at this
        have ea : extend o (.next i) (c, w) = (.ok { o with iters := o.iters ++ [some (d.it (keys pre) (j + 1))] }, (c, w)) := by
          simp only [extend]
          rw [lift_bind e5]
          simp only [deref]
          rw [KuzToken.bind_ok (it_next d j hs.1 (c, w))]; rfl
        simp only [StreamViews.run, ea]
        exact this
    | ask q =>
      obtain ⟨hs', a, c', st', e1, e2, e3⟩ := h.answer hm hp hs
      have := ih _ _ _ _ _ _ e3 hp' (by
        rw [keys_append, iterators_append]; simpa [keys, itersFrom] using hs')
      rw [hlen] at this
      simp only [StreamViews.run, e1]
      exact .cons ⟨a, rfl, e2⟩ this

/-- At the beginning. -/
theorem Inv.init (start : Cells) (p : List Step) : Inv start p [] {} (fun _ => none) start [] (fun _ => none) where
  begins := ⟨p, rfl⟩
  cells _ := rfl
  state := ⟨fun _ => by simp, fun _ _ h => by cases h⟩
  okeys := rfl
  ostreams := rfl
  oiters := rfl
  its _ h := by cases h
  descs _ _ h := by cases h
  count := rfl
  used n := by
    refine ⟨fun h => absurd h (by simp), ?_⟩
    rintro ⟨t, ht, -⟩
    exact absurd ht (Nat.not_lt_zero t)
  first _ _ h := by cases h

/-! ### The specification is functional -/

theorem firstUse_unique {k t u u' : Nat} (h : FirstUse p k t u) (h' : FirstUse p k t u') : u = u' := by
  rcases Nat.lt_trichotomy u u' with hl | hl | hl
  · rcases h.2.2 with e | e
    · exact absurd h'.1 (by omega)
    · exact absurd e (h'.2.1 u hl)
  · exact hl
  · rcases h'.2.2 with e | e
    · exact absurd h.1 (by omega)
    · exact absurd e (h.2.1 u' hl)

theorem keyAt_unique {k t : Nat} {K K' : BitVec 256} (h : KeyAt start p k t K) (h' : KeyAt start p k t K') : K = K' := by
  obtain ⟨a, b, u, h1, h2, rfl⟩ := h
  obtain ⟨a', b', u', h3, h4, rfl⟩ := h'
  rw [h1] at h3; cases h3
  cases firstUse_unique h2 h4
  rfl

theorem data_unique {s t : Nat} {xs ys : List (BitVec 128)} (h : Data start p s t xs) (h' : Data start p s t ys) : xs = ys := by
  induction h generalizing ys with
  | own e => cases h' with | own e' => simp_all | _ => simp_all
  | memory e => cases h' with | memory e' => simp_all | _ => simp_all
  | ctr e _ hK ih =>
    cases h' with
    | ctr e' hd hK' =>
      rw [e] at e'; cases e'
      cases keyAt_unique hK hK'
      rw [ih hd]
    | _ => simp_all

theorem lastSize_unique {s n n' : Nat} (h : LastSize p s n) (h' : LastSize p s n') : n = n' := by
  induction h generalizing n' with
  | own e => cases h' with | own e' => simp_all | _ => simp_all
  | memory e => cases h' with | memory e' => rfl | _ => simp_all
  | ctr e _ ih =>
    cases h' with
    | ctr e' hd => rw [e] at e'; cases e'; exact ih hd
    | _ => simp_all

/-- A key that has been used is what it was. -/
theorem keyAt_later {k t t' : Nat} {K : BitVec 256} (h : KeyAt start p k t K) (hu : Uses p t k) (ht : t ≤ t') :
    KeyAt start p k t' K := by
  obtain ⟨a, b, u, h1, ⟨h2, h3, h4⟩, h5⟩ := h
  refine ⟨a, b, u, h1, ⟨Nat.le_trans h2 ht, h3, .inr ?_⟩, h5⟩
  rcases h4 with rfl | h4
  · exact hu
  · exact h4

/-! ### Calls that neither read nor change anything -/

/-- Neither reads nor changes anything. -/
def Still {S α : Type} (x : Io S α) : Prop := ∃ r, ∀ s, x s = (r, s)

theorem Still.pure {S α : Type} (a : α) : Still (Pure.pure a : Io S α) := ⟨.ok a, fun _ => rfl⟩

theorem Still.lift {S α : Type} (a : Exec α) : Still (Io.lift a : Io S α) := ⟨a, fun _ => rfl⟩

theorem Still.bind {S α β : Type} {x : Io S α} {f : α → Io S β} (h : Still x) (hf : ∀ a, Still (f a)) : Still (x >>= f) := by
  obtain ⟨r, hr⟩ := h
  cases r with
  | ok a =>
    obtain ⟨r, hr'⟩ := hf a
    exact ⟨r, fun s => by rw [KuzToken.bind_ok (hr s), hr']⟩
  | throw e => exact ⟨.throw e, fun s => by rw [bind_run_throw (hr s)]⟩
  | ub u => exact ⟨.ub u, fun s => by rw [bind_run_ub (hr s)]⟩
  | diverge => exact ⟨.diverge, fun s => by rw [KuzToken.bind_diverge (hr s)]⟩

theorem still_last (i : It) : Still i.last := by
  induction i with
  | own cells size => exact .pure _
  | memory data i => exact .lift _
  | ctr i key counter ih => exact ih
  | ctrNull key counter => exact .lift _

theorem still_size (i : It) : Still i.size := by
  induction i with
  | own cells size => exact .pure _
  | memory data i => exact .lift _
  | ctr i key counter ih => exact ih
  | ctrNull key counter => exact .lift _

theorem still_next (i : It) : Still i.next := by
  induction i with
  | own cells size => exact .pure _
  | memory data i => exact (Still.lift _).bind fun _ => .pure _
  | ctr i key counter ih => exact ih.bind fun _ => .pure _
  | ctrNull key counter => exact .lift _

theorem still_iter (s : St) : Still s.iter := by
  induction s with
  | own cells size => exact .pure _
  | memory data => exact (Still.lift _).bind fun _ => .pure _
  | ctr s key iv ih => exact ih.bind fun _ => .pure _

theorem still_deref {α : Type} {f : It → Io (Caches × Cells) α} (h : ∀ i, Still (f i)) (p : Option It) : Still (deref p f) := by
  cases p with
  | none => exact .lift _
  | some i => exact h i

end Goost.StreamViews
