import Verif.Spec.Caches
import Verif.Spec.Keys
/-
Caches of Kuznyechik blocks.
-/
namespace Goost
open Spec

/-- Every loaded cache holds the value of its block. -/
def Consistent (m : Machine) (own : Nat → Kuz.Blk) (c : Kuz.Caches) : Prop :=
  ∀ id v, c id = some v → (own id).value m = .ok v

theorem Kuz.valueS_eq {m : Machine} {own : Nat → Kuz.Blk} (b : Kuz.Blk) {c : Kuz.Caches}
    (ho : Owned own b) (hc : Consistent m own c) :
    (b.valueS m c).1 = b.value m ∧ Consistent m own (b.valueS m c).2 := by
  induction b generalizing c with
  | raw l h => exact ⟨rfl, hc⟩
  | str s => exact ⟨rfl, hc⟩
  | user v => exact ⟨rfl, hc⟩
  | blkS b ih =>
    obtain ⟨e, hc'⟩ := ih ho hc
    simp only [Kuz.Blk.valueS, Kuz.Blk.value, ← e]
    exact ⟨trivial, hc'⟩
  | blkR b ih =>
    obtain ⟨e, hc'⟩ := ih ho hc
    simp only [Kuz.Blk.valueS, Kuz.Blk.value, ← e]
    exact ⟨trivial, hc'⟩
  | incremented b ih =>
    obtain ⟨e, hc'⟩ := ih ho hc
    simp only [Kuz.Blk.valueS, Kuz.Blk.value, ← e]
    exact ⟨rfl, hc'⟩
  | shifted b n ih =>
    obtain ⟨e, hc'⟩ := ih ho hc
    simp only [Kuz.Blk.valueS, Kuz.Blk.value, ← e]
    exact ⟨trivial, hc'⟩
  | xored a b iha ihb =>
    obtain ⟨e, hc'⟩ := iha ho.1 hc
    simp only [Kuz.Blk.valueS, Kuz.Blk.value, ← e]
    generalize a.valueS m c = ra at *
    obtain ⟨xa, ca⟩ := ra
    cases xa with
    | ok va =>
      obtain ⟨eb, hcb⟩ := ihb ho.2 hc'
      simp only [← eb, Exec.ok_bind]
      generalize b.valueS m ca = rb at *
      obtain ⟨xb, cb⟩ := rb
      cases xb <;> exact ⟨rfl, hcb⟩
    | throw _ => exact ⟨rfl, hc'⟩
    | ub _ => exact ⟨rfl, hc'⟩
    | diverge => exact ⟨rfl, hc'⟩
  | xoredIfHighBit a b iha ihb =>
    obtain ⟨e, hc'⟩ := iha ho.1 hc
    simp only [Kuz.Blk.valueS, Kuz.Blk.value, ← e]
    generalize a.valueS m c = ra at *
    obtain ⟨xa, ca⟩ := ra
    cases xa with
    | ok va =>
      obtain ⟨e2, hc2⟩ := iha ho.1 hc'
      simp only at e
      rw [← e] at e2
      simp only [Exec.ok_bind]
      generalize a.valueS m ca = ra2 at *
      obtain ⟨xa2, ca2⟩ := ra2
      simp only at e2
      subst e2
      simp only
      by_cases hb : va.2 &&& 0x8000000000000000 = 0
      · rw [if_pos hb, if_pos hb]
        exact ⟨rfl, hc2⟩
      · rw [if_neg hb, if_neg hb]
        cases Kuz.shiftValue va 1 with
        | ok s =>
          obtain ⟨eb, hcb⟩ := ihb ho.2 hc2
          simp only [← eb, Exec.ok_bind]
          generalize b.valueS m ca2 = rb at *
          obtain ⟨xb, cb⟩ := rb
          cases xb <;> exact ⟨rfl, hcb⟩
        | throw _ => exact ⟨rfl, hc2⟩
        | ub _ => exact ⟨rfl, hc2⟩
        | diverge => exact ⟨rfl, hc2⟩
    | throw _ => exact ⟨rfl, hc'⟩
    | ub _ => exact ⟨rfl, hc'⟩
    | diverge => exact ⟨rfl, hc'⟩
  | cached id b ih =>
    simp only [Kuz.Blk.valueS, Kuz.Blk.value]
    cases hl : c id with
    | some v =>
      have := hc id v hl
      rw [ho.1] at this
      exact ⟨this.symm, hc⟩
    | none =>
      obtain ⟨e, hc'⟩ := ih ho.2 hc
      simp only [← e]
      generalize b.valueS m c = r at *
      obtain ⟨x, cx⟩ := r
      cases x with
      | ok v =>
        refine ⟨rfl, ?_⟩
        intro i w hw
        simp only at hw
        split at hw
        · rename_i hi
          subst hi
          rw [ho.1, ← Option.some.inj hw, ← e]
        · exact hc' i w hw
      | throw _ => exact ⟨rfl, hc'⟩
      | ub _ => exact ⟨rfl, hc'⟩
      | diverge => exact ⟨rfl, hc'⟩

theorem runCalls_map {γ δ S α : Type} (call : γ → S → Exec α × S) (g : δ → γ) (hist : List δ) (s : S) :
    runCalls (fun d s => call (g d) s) hist s = runCalls call (hist.map g) s := by
  induction hist generalizing s with
  | nil => rfl
  | cons d ds ih => simp only [runCalls, List.map_cons, ih]

theorem Kuz.history_eq {m : Machine} {own : Nat → Kuz.Blk} (hist : List Kuz.Blk)
    (ho : ∀ b ∈ hist, Owned own b) {c : Kuz.Caches} (hc : Consistent m own c) :
    (runCalls (fun (b : Kuz.Blk) c => b.valueS m c) hist c).1 = hist.map (Kuz.Blk.value m) := by
  induction hist generalizing c with
  | nil => rfl
  | cons b bs ih =>
    obtain ⟨e, hc'⟩ := Kuz.valueS_eq b (ho b (by simp)) hc
    simp only [runCalls, List.map_cons, e, ih (fun b hb => ho b (by simp [hb])) hc']

theorem consistent_none (m : Machine) (own : Nat → Kuz.Blk) : Consistent m own noneLoaded := by
  intro i v h; simp [noneLoaded] at h

theorem _root_.Spec.Plain.owned {own : Nat → Kuz.Blk} {b : Kuz.Blk} (h : Plain b) : Owned own b := by
  induction b with
  | xored a b iha ihb => exact ⟨iha h.1, ihb h.2⟩
  | xoredIfHighBit a b iha ihb => exact ⟨iha h.1, ihb h.2⟩
  | cached id b ih => exact absurd h (by simp [Plain])
  | raw _ _ => trivial
  | str _ => trivial
  | user _ => trivial
  | blkS b ih => exact ih h
  | blkR b ih => exact ih h
  | incremented b ih => exact ih h
  | shifted b n ih => exact ih h

theorem _root_.Spec.Owned.transform {own : Nat → Kuz.Blk} {b : Kuz.Blk} (h : Owned own b) (n : Nat) :
    Owned own (Kuz.BlkL.transform b n) := by
  induction n generalizing b with
  | zero => exact h
  | succ n ih => exact ih (b := .blkR b) h

theorem _root_.Spec.Owned.step {own : Nat → Kuz.Blk} {a k : Kuz.Blk} (ha : Owned own a) (hk : Owned own k) :
    Owned own (Kuz.Key.encryptStep a k) :=
  Owned.transform (b := .blkS (.xored a k)) ⟨ha, hk⟩ 16

theorem _root_.Spec.Owned.generate {own : Nat → Kuz.Blk} (n : Nat) {c2 i : Int} (hn : (c2 + 1 - i).toNat = n)
    {a b : Kuz.Blk} (ha : Owned own a) (hb : Owned own b) :
    Owned own (Kuz.BlkIterKey.generate c2 a b i) := by
  induction n generalizing a b i with
  | zero =>
    rw [Kuz.BlkIterKey.generate, if_pos (by omega)]
    exact hb
  | succ n ih =>
    rw [Kuz.BlkIterKey.generate, if_neg (by omega)]
    refine ih (by omega) hb ⟨ha, ?_⟩
    refine Owned.transform (b := .blkS (.xored b (Kuz.BlkL (Kuz.BlkRaw.ofU64 _))))
      ⟨hb, Owned.transform (b := .raw _ _) trivial 16⟩ 16

theorem _root_.Spec.Owned.iterKey {own : Nat → Kuz.Blk} {a b : Kuz.Blk} (ha : Owned own a) (hb : Owned own b)
    (c1 c2 : Int) : Owned own (Kuz.BlkIterKey a b c1 c2) := Owned.generate _ rfl hb ha

/-- The system of the ten caches of a key. -/
def keyOwn (key : Kuz.Key) (base : Nat) (own : Nat → Kuz.Blk) : Nat → Kuz.Blk := fun i =>
  let inner : Kuz.Blk → Kuz.Blk := fun b => match b with | .cached _ b => b | b => b
  if i = base + 1 then inner key.k1 else if i = base + 2 then inner key.k2
  else if i = base + 3 then inner key.k3 else if i = base + 4 then inner key.k4
  else if i = base + 5 then inner key.k5 else if i = base + 6 then inner key.k6
  else if i = base + 7 then inner key.k7 else if i = base + 8 then inner key.k8
  else if i = base + 9 then inner key.k9 else if i = base + 10 then inner key.k10
  else own i

/-- The caches of an encryption belong to the system of the key. -/
theorem _root_.Spec.Owned.encrypted {own : Nat → Kuz.Blk} {high low b : Kuz.Blk} (base : Nat)
    (hh : Owned (keyOwn (Kuz.Key.ofBlocks high low base) base own) high)
    (hl : Owned (keyOwn (Kuz.Key.ofBlocks high low base) base own) low)
    (hb : Owned (keyOwn (Kuz.Key.ofBlocks high low base) base own) b) :
    Owned (keyOwn (Kuz.Key.ofBlocks high low base) base own)
      (Kuz.BlkEncrypted b (Kuz.Key.ofBlocks high low base)) := by
  have h1 : Owned (keyOwn (Kuz.Key.ofBlocks high low base) base own)
      (Kuz.Key.ofBlocks high low base).k1 := ⟨by simp [keyOwn, Kuz.Key.ofBlocks], hh⟩
  have h2 : Owned (keyOwn (Kuz.Key.ofBlocks high low base) base own)
      (Kuz.Key.ofBlocks high low base).k2 := ⟨by simp [keyOwn, Kuz.Key.ofBlocks], hl⟩
  have h3 : Owned (keyOwn (Kuz.Key.ofBlocks high low base) base own)
      (Kuz.Key.ofBlocks high low base).k3 :=
    ⟨by simp [keyOwn, Kuz.Key.ofBlocks], Owned.iterKey h1 h2 1 8⟩
  have h4 : Owned (keyOwn (Kuz.Key.ofBlocks high low base) base own)
      (Kuz.Key.ofBlocks high low base).k4 :=
    ⟨by simp [keyOwn, Kuz.Key.ofBlocks], Owned.iterKey h1 h2 1 7⟩
  have h5 : Owned (keyOwn (Kuz.Key.ofBlocks high low base) base own)
      (Kuz.Key.ofBlocks high low base).k5 :=
    ⟨by simp [keyOwn, Kuz.Key.ofBlocks], Owned.iterKey h3 h4 9 16⟩
  have h6 : Owned (keyOwn (Kuz.Key.ofBlocks high low base) base own)
      (Kuz.Key.ofBlocks high low base).k6 :=
    ⟨by simp [keyOwn, Kuz.Key.ofBlocks], Owned.iterKey h3 h4 9 15⟩
  have h7 : Owned (keyOwn (Kuz.Key.ofBlocks high low base) base own)
      (Kuz.Key.ofBlocks high low base).k7 :=
    ⟨by simp [keyOwn, Kuz.Key.ofBlocks], Owned.iterKey h5 h6 17 24⟩
  have h8 : Owned (keyOwn (Kuz.Key.ofBlocks high low base) base own)
      (Kuz.Key.ofBlocks high low base).k8 :=
    ⟨by simp [keyOwn, Kuz.Key.ofBlocks], Owned.iterKey h5 h6 17 23⟩
  have h9 : Owned (keyOwn (Kuz.Key.ofBlocks high low base) base own)
      (Kuz.Key.ofBlocks high low base).k9 :=
    ⟨by simp [keyOwn, Kuz.Key.ofBlocks], Owned.iterKey h7 h8 25 32⟩
  have h10 : Owned (keyOwn (Kuz.Key.ofBlocks high low base) base own)
      (Kuz.Key.ofBlocks high low base).k10 :=
    ⟨by simp [keyOwn, Kuz.Key.ofBlocks], Owned.iterKey h7 h8 25 31⟩
  exact ⟨((((((((hb.step h1).step h2).step h3).step h4).step h5).step h6).step h7).step h8).step h9,
    h10⟩

/-- A `BlkCached` answers as the ideal memo. -/
theorem BlkCached_history {Ω γ : Type} (block : Ω → Exec (W64 × W64) × Ω) (hist : List γ)
    (s : Option (W64 × W64)) (c : Kuz.BlockCache) (o : Ω)
    (h : match s with | none => c.loaded = false | some v => c.loaded = true ∧ c.state = v) :
    let real := runCalls (fun _ s => Kuz.BlkCached.value block s.1 s.2) hist (c, o)
    let ideal := runCalls (fun _ s => memo block s) hist (s, o)
    real.1 = ideal.1 ∧ real.2.2 = ideal.2.2 := by
  induction hist generalizing s c o with
  | nil => exact ⟨rfl, rfl⟩
  | cons x xs ih =>
    cases s with
    | some v =>
      have := ih (some v) c o h
      simp only [runCalls, Kuz.BlkCached.value, memo, h.1, if_true] at this ⊢
      simp only [h.2]
      exact ⟨by rw [this.1], this.2⟩
    | none =>
      simp only [runCalls, Kuz.BlkCached.value, memo, h, Bool.false_eq_true, if_false]
      generalize block o = r
      obtain ⟨r, o'⟩ := r
      cases r with
      | ok v =>
        have := ih (some v) { loaded := true, state := v } o' ⟨rfl, rfl⟩
        simp only [Kuz.BlkCached.value, memo] at this ⊢
        exact ⟨by rw [this.1], this.2⟩
      | throw e =>
        have := ih none c o' h
        simp only [Kuz.BlkCached.value, memo] at this ⊢
        exact ⟨by rw [this.1], this.2⟩
      | ub u =>
        have := ih none c o' h
        simp only [Kuz.BlkCached.value, memo] at this ⊢
        exact ⟨by rw [this.1], this.2⟩
      | diverge =>
        have := ih none c o' h
        simp only [Kuz.BlkCached.value, memo] at this ⊢
        exact ⟨by rw [this.1], this.2⟩

end Goost
