import Verif.Spec.Copies
import Verif.Lemmas.ViewsRun
/-
Helper lemmas for C137: a program with copies and the one without.
-/
namespace Goost.Copies
open Goost.KuzToken (Blk Key)
open Goost.Kuz (Caches)
open Goost.Views (How Obj V Cells)
open Spec.Copies

theorem duplicateBlock_eq (b : Blk Cells) : duplicateBlock b = b := by cases b <;> rfl

theorem duplicate_eq {o : List (Option Obj)} {a : Nat} {x : Obj} (h : o[a]? = some (some x)) : duplicate o a = .ok x := by
  cases x with
  | block b => simp only [duplicate, h, duplicateBlock_eq]
  | key k => simp only [duplicate, h, duplicateKey]

/-- What the variables have, and the objects that have been made. -/
structure Rel (vars : List (Option Bool)) (names : List Nat) (o : List (Option Obj)) (o' : List Obj) : Prop where
  vars_length : vars.length = o.length
  names_length : names.length = o.length
  has : ∀ a k, vars[a]? = some (some k) → ∃ x, o[a]? = some (some x) ∧ o'[names.getD a 0]? = some x

theorem Rel.block {vars names o o'} (h : Rel vars names o o') {a : Nat} {k : Bool} (ha : vars[a]? = some (some k)) :
    blockAt o a = Views.blockAt o' (names.getD a 0) := by
  obtain ⟨x, e1, e2⟩ := h.has a k ha
  rw [blockAt, Views.blockAt, e1, e2]
  cases x <;> rfl

theorem Rel.key {vars names o o'} (h : Rel vars names o o') {a : Nat} {k : Bool} (ha : vars[a]? = some (some k)) :
    keyAt o a = Views.keyAt o' (names.getD a 0) := by
  obtain ⟨x, e1, e2⟩ := h.has a k ha
  rw [keyAt, Views.keyAt, e1, e2]
  cases x <;> rfl

theorem getD_append {names : List Nat} {a : Nat} (h : a < names.length) (n : Nat) :
    (names ++ [n]).getD a 0 = names.getD a 0 := by
  simp only [List.getD_eq_getElem?_getD, List.getElem?_append_left h]

theorem getD_last (names : List Nat) (n : Nat) : (names ++ [n]).getD names.length 0 = n := by
  simp [List.getD_eq_getElem?_getD]

theorem Rel.made {vars names o o'} (h : Rel vars names o o') (k : Bool) (x : Obj) :
    Rel (vars ++ [some k]) (names ++ [o'.length]) (o ++ [some x]) (o' ++ [x]) := by
  have e1 := h.vars_length
  have e2 := h.names_length
  refine ⟨by simp [e1], by simp [e2], fun a j ha => ?_⟩
  by_cases hl : a < vars.length
  · rw [List.getElem?_append_left hl] at ha
    obtain ⟨y, f1, f2⟩ := h.has a j ha
    refine ⟨y, by rw [List.getElem?_append_left (by omega)]; exact f1, ?_⟩
    rw [getD_append (by omega)]
    have : names.getD a 0 < o'.length := (List.getElem?_eq_some_iff.1 f2).1
    rw [List.getElem?_append_left this]; exact f2
  · have hl' : a < (vars ++ [some k]).length := (List.getElem?_eq_some_iff.1 ha).1
    have : a = vars.length := by simp at hl'; omega
    subst this
    refine ⟨x, by rw [e1]; simp, ?_⟩
    rw [show vars.length = names.length by omega, getD_last]; simp

theorem Rel.copied {vars names o o'} (h : Rel vars names o o') {a : Nat} {k : Bool} {x : Obj}
    (ha : vars[a]? = some (some k)) (hx : o[a]? = some (some x)) :
    Rel (vars ++ [some k]) (names ++ [names.getD a 0]) (o ++ [some x]) o' := by
  have e1 := h.vars_length
  have e2 := h.names_length
  refine ⟨by simp [e1], by simp [e2], fun b j hb => ?_⟩
  by_cases hl : b < vars.length
  · rw [List.getElem?_append_left hl] at hb
    obtain ⟨y, f1, f2⟩ := h.has b j hb
    exact ⟨y, by rw [List.getElem?_append_left (by omega)]; exact f1, by rw [getD_append (by omega)]; exact f2⟩
  · have hl' : b < (vars ++ [some k]).length := (List.getElem?_eq_some_iff.1 hb).1
    have : b = vars.length := by simp at hl'; omega
    subst this
    obtain ⟨y, f1, f2⟩ := h.has a k ha
    rw [hx] at f1; cases f1
    refine ⟨x, by rw [e1]; simp, ?_⟩
    rw [show vars.length = names.length by omega, getD_last]; exact f2

theorem Rel.dropped {vars names o o'} (h : Rel vars names o o') (a : Nat) :
    Rel (vars.set a none) names (o.set a none) o' := by
  refine ⟨by simp [h.vars_length], by simp [h.names_length], fun b k hb => ?_⟩
  by_cases e : a = b
  · subst e
    rw [List.getElem?_set_self'] at hb
    cases hv : vars[a]? with
    | none => rw [hv] at hb; cases hb
    | some v => rw [hv] at hb; cases hb
  · rw [List.getElem?_set_ne e] at hb ⊢
    exact h.has b k hb

theorem build_eq {m : Machine} {vars names o o'} (h : Rel vars names o o') (how : How)
    (hb : ∀ a ∈ how.blocks, vars[a]? = some (some false)) (hk : ∀ a ∈ how.keys, vars[a]? = some (some true)) :
    build m o o'.length how = Views.build m o' (with' (fun a => names.getD a 0) how) := by
  cases how <;> simp only [build, Views.build, with']
  all_goals simp only [How.blocks, How.keys, List.mem_cons, List.not_mem_nil, or_false, forall_eq_or_imp, forall_eq] at hb hk
  case copy => rw [h.block hb]
  case cached => rw [h.block hb]
  case xored => rw [h.block hb.1, h.block hb.2]
  case substituted => rw [h.block hb]
  case mixed => rw [h.block hb]
  case rotated => rw [h.block hb]
  case shifted => rw [h.block hb]
  case next => rw [h.block hb]
  case key => rw [h.block hb.1, h.block hb.2]
  case encrypted => rw [h.block hb, h.key hk]

theorem run_eq {m : Machine} (p : List Act) {vars names o o'} (h : Rel vars names o o') (hp : sound vars p = true)
    (s : Caches × Cells) : run m p o o'.length s = Views.run m (plain names o'.length p) o' s := by
  induction p generalizing vars names o o' s with
  | nil => rfl
  | cons a r ih =>
    cases a with
    | change c v => exact ih h hp _
    | make how =>
      simp only [sound, Bool.and_eq_true, List.all_eq_true, beq_iff_eq] at hp
      obtain ⟨⟨⟨hb, hk⟩, -⟩, hr⟩ := hp
      simp only [run, plain, Views.run, build_eq h how hb hk]
      rcases Views.build m o' (with' (fun a => names.getD a 0) how) s with ⟨x, s'⟩
      cases x with
      | ok x =>
        have := ih (h.made (makesKey how) x) hr s'
        simpa using this
      | throw e => rfl
      | ub u => rfl
      | diverge => rfl
    | ask a =>
      simp only [sound, Bool.and_eq_true, beq_iff_eq] at hp
      simp only [run, plain, Views.run, Views.ask, h.block hp.1]
      rw [ih h hp.2]
    | duplicate a =>
      simp only [sound] at hp
      split at hp
      · next k hk =>
        obtain ⟨x, e1, -⟩ := h.has a k hk
        simp only [run, plain, duplicate_eq e1]
        exact ih (h.copied hk e1) hp s
      · cases hp
    | drop a => exact ih (h.dropped a) hp s

/-- What the variables have, and how it has been made. -/
structure Kinds (vars : List (Option Bool)) (names : List Nat) (made : List How) : Prop where
  length : vars.length = names.length
  has : ∀ a k, vars[a]? = some (some k) → ∃ how, made[names.getD a 0]? = some how ∧ makesKey how = k

theorem Kinds.block {vars names made} (h : Kinds vars names made) {a : Nat} (ha : vars[a]? = some (some false)) :
    Spec.Views.isBlock made (names.getD a 0) = true := by
  obtain ⟨how, e1, e2⟩ := h.has a _ ha
  rw [Spec.Views.isBlock, e1]
  cases how <;> first | rfl | cases e2

theorem Kinds.key {vars names made} (h : Kinds vars names made) {a : Nat} (ha : vars[a]? = some (some true)) :
    Spec.Views.isKey made (names.getD a 0) = true := by
  obtain ⟨how, e1, e2⟩ := h.has a _ ha
  rw [Spec.Views.isKey, e1]
  cases how <;> first | rfl | cases e2

theorem Kinds.made {vars names made} (h : Kinds vars names made) (how : How) (k : Bool) (hk : makesKey how = k) :
    Kinds (vars ++ [some k]) (names ++ [made.length]) (made ++ [how]) := by
  have e1 := h.length
  refine ⟨by simp [e1], fun a j ha => ?_⟩
  by_cases hl : a < vars.length
  · rw [List.getElem?_append_left hl] at ha
    obtain ⟨y, f1, f2⟩ := h.has a j ha
    refine ⟨y, ?_, f2⟩
    rw [getD_append (by omega)]
    have : names.getD a 0 < made.length := (List.getElem?_eq_some_iff.1 f1).1
    rw [List.getElem?_append_left this]; exact f1
  · have hl' : a < (vars ++ [some k]).length := (List.getElem?_eq_some_iff.1 ha).1
    have : a = vars.length := by simp at hl'; omega
    subst this
    rw [List.getElem?_concat_length] at ha; cases ha
    exact ⟨how, by rw [e1, getD_last]; simp, hk⟩

theorem Kinds.copied {vars names made} (h : Kinds vars names made) {a : Nat} {k : Bool} (ha : vars[a]? = some (some k)) :
    Kinds (vars ++ [some k]) (names ++ [names.getD a 0]) made := by
  have e1 := h.length
  refine ⟨by simp [e1], fun b j hb => ?_⟩
  by_cases hl : b < vars.length
  · rw [List.getElem?_append_left hl] at hb
    rw [getD_append (by omega)]
    exact h.has b j hb
  · have hl' : b < (vars ++ [some k]).length := (List.getElem?_eq_some_iff.1 hb).1
    have : b = vars.length := by simp at hl'; omega
    subst this
    rw [List.getElem?_concat_length] at hb; cases hb
    rw [e1, getD_last]
    exact h.has a _ ha

theorem Kinds.dropped {vars names made} (h : Kinds vars names made) (a : Nat) : Kinds (vars.set a none) names made := by
  refine ⟨by simp [h.length], fun b k hb => ?_⟩
  by_cases e : a = b
  · subst e
    rw [List.getElem?_set_self'] at hb
    cases hv : vars[a]? with
    | none => rw [hv] at hb; cases hb
    | some v => rw [hv] at hb; cases hb
  · rw [List.getElem?_set_ne e] at hb
    exact h.has b k hb

theorem makesKey_with (f : Nat → Nat) (how : How) : makesKey (with' f how) = makesKey how := by cases how <;> rfl

theorem blocks_with (f : Nat → Nat) (how : How) : (with' f how).blocks = how.blocks.map f := by cases how <;> rfl

theorem keys_with (f : Nat → Nat) (how : How) : (with' f how).keys = how.keys.map f := by cases how <;> rfl

theorem possible_with (f : Nat → Nat) (how : How) : (with' f how).possible = how.possible := by cases how <;> rfl

theorem sound_plain (p : List Act) {vars names made} (h : Kinds vars names made) (hp : sound vars p = true) :
    Spec.Views.sound made (plain names made.length p) = true := by
  induction p generalizing vars names made with
  | nil => rfl
  | cons a r ih =>
    cases a with
    | change c v => exact ih h hp
    | make how =>
      simp only [sound, Bool.and_eq_true, List.all_eq_true, beq_iff_eq] at hp
      obtain ⟨⟨⟨hb, hk⟩, hs⟩, hr⟩ := hp
      simp only [plain, Spec.Views.sound, blocks_with, keys_with, possible_with, Bool.and_eq_true, List.all_map, List.all_eq_true,
        Function.comp]
      refine ⟨⟨⟨fun a ha => h.block (hb a ha), fun a ha => h.key (hk a ha)⟩, hs⟩, ?_⟩
      have := ih (h.made _ _ (makesKey_with (fun a => names.getD a 0) how)) hr
      simpa using this
    | ask a =>
      simp only [sound, Bool.and_eq_true, beq_iff_eq] at hp
      simp only [plain, Spec.Views.sound, Bool.and_eq_true]
      exact ⟨h.block hp.1, ih h hp.2⟩
    | duplicate a =>
      simp only [sound] at hp
      split at hp
      · next k hk => exact ih (h.copied hk) hp
      · cases hp
    | drop a => exact ih (h.dropped a) hp

end Goost.Copies
