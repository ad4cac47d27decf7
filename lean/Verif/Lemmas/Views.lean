import Verif.Spec.Views
import Verif.Lemmas.KuzToken
import Verif.Lemmas.Blocks
/-
Helper lemmas for C127: what a call of `value()` gives and which caches it loads.
-/
namespace Goost.Views
open Goost.KuzToken (Blk Key)
open Goost.Kuz (Caches)
open Spec

variable {m : Machine}

/-! ### Trees of blocks -/

/-- The caches in a tree of blocks. -/
def In : Blk Cells → Nat → Prop
  | .raw _ _, _ | .str _, _ | .user _, _ => False
  | .xored a b, j | .xoredIfHighBit a b, j => In a j ∨ In b j
  | .blkS b, j | .blkR b, j | .incremented b, j | .shifted b _, j => In b j
  | .cached id b, j => j = id ∨ In b j

/-- A tree whose caches are before the blocks that `own` says, and whose blocks of the user show variables. -/
def Good (own : Nat → Blk Cells) : Blk Cells → Prop
  | .raw _ _ => True
  | .str _ => False
  | .xoredIfHighBit a b => Good own a ∧ ∃ x y, b = .raw x y
  | .shifted b n => (∃ k : Nat, n = k ∧ 1 ≤ k ∧ k ≤ 63) ∧ Good own b
  | .user x => ∃ c, x = look c
  | .xored a b => Good own a ∧ Good own b
  | .blkS b | .blkR b | .incremented b => Good own b
  | .cached id b => own id = b ∧ Good own b

/-- The tree as it is with caches `c` and variables `w`. -/
def frozen (c : Caches) (w : Cells) : Blk Cells → Kuz.Blk
  | .raw a b => .raw a b
  | .str s => .str s
  | .user x => .user (x w).1
  | .xored a b => .xored (frozen c w a) (frozen c w b)
  | .xoredIfHighBit a b => .xoredIfHighBit (frozen c w a) (frozen c w b)
  | .blkS b => .blkS (frozen c w b)
  | .blkR b => .blkR (frozen c w b)
  | .incremented b => .incremented (frozen c w b)
  | .shifted b n => .shifted (frozen c w b) n
  | .cached id b =>
    match c id with
    | some v => .raw v.1 v.2
    | none => .cached id (frozen c w b)

/-- Caches that have been loaded since `c₀` hold what the blocks behind them showed with the caches `c₀`. -/
def Since (m : Machine) (own : Nat → Blk Cells) (w : Cells) (c₀ c : Caches) : Prop :=
  ∀ id, c id = c₀ id ∨ c₀ id = none ∧ ∃ v, c id = some v ∧ (frozen c₀ w (own id)).value m = .ok v

/-- What is below a loaded cache is loaded. -/
def Closed (own : Nat → Blk Cells) (c : Caches) : Prop :=
  ∀ id, (c id).isSome → ∀ j, In (own id) j → (c j).isSome

/-- What an evaluation does. -/
def Evaluates (m : Machine) (own : Nat → Blk Cells) (w : Cells) (c₀ : Caches) (b : Blk Cells) : Prop :=
  ∀ c, Since m own w c₀ c → Closed own c → ∃ v c', b.value m (c, w) = (.ok v, (c', w)) ∧
    (frozen c₀ w b).value m = .ok v ∧ Since m own w c₀ c' ∧ Closed own c' ∧ ∀ j, (c' j).isSome ↔ (c j).isSome ∨ In b j

theorem Evaluates.then {own : Nat → Blk Cells} {w : Cells} {c₀ : Caches} {a b : Blk Cells} {f : V → Exec V}
    (h : Evaluates m own w c₀ a) (hb : b.value m = a.value m >>= fun v => Io.lift (f v))
    (hg : (frozen c₀ w b).value m = (frozen c₀ w a).value m >>= f) (hf : ∀ v, ∃ r, f v = .ok r) (hi : In b = In a) :
    Evaluates m own w c₀ b := by
  intro c h1 h2
  obtain ⟨v, c', e1, e2, e3, e4, e5⟩ := h c h1 h2
  obtain ⟨r, hr⟩ := hf v
  refine ⟨r, c', ?_, ?_, e3, e4, by rw [hi]; exact e5⟩
  · rw [hb, KuzToken.bind_ok e1, hr]; rfl
  · rw [hg, e2]; exact hr

theorem evaluates (hm : m.unalignedLoad = true) (own : Nat → Blk Cells) (w : Cells) (c₀ : Caches) (b : Blk Cells)
    (hb : Good own b) : Evaluates m own w c₀ b := by
  induction b with
  | raw a b => exact fun c h1 h2 => ⟨_, c, rfl, rfl, h1, h2, fun j => by simp [In]⟩
  | str s => exact hb.elim
  | xoredIfHighBit a b iha ihb =>
    obtain ⟨ha, x, y, rfl⟩ := hb
    intro c h1 h2
    obtain ⟨v, c', e1, e2, e3, e4, e5⟩ := iha ha c h1 h2
    obtain ⟨v', c'', f1, f2, f3, f4, f5⟩ := iha ha c' e3 e4
    rw [e2] at f2; cases f2
    obtain ⟨s, hs, -⟩ := Kuz.shiftValue_eq v 1 (by omega) (by omega)
    have hs' : Kuz.shiftValue v 1 = .ok s := hs
    have hin : ∀ j, (c'' j).isSome ↔ (c j).isSome ∨ In (.xoredIfHighBit a (.raw x y)) j := fun j => by
      rw [f5, e5]; simp only [In, or_false, or_assoc, or_self]
    by_cases hz : v.2 &&& 0x8000000000000000 = 0
    · refine ⟨s, c'', ?_, ?_, f3, f4, hin⟩
      · simp only [Blk.value]
        rw [KuzToken.bind_ok e1, if_pos hz, KuzToken.bind_ok f1, hs']; rfl
      · simp only [frozen, Kuz.Blk.value, e2, Exec.ok_bind]
        rw [if_pos hz, hs']
    · refine ⟨(s.1 ^^^ x, s.2 ^^^ y), c'', ?_, ?_, f3, f4, hin⟩
      · simp only [Blk.value]
        rw [KuzToken.bind_ok e1, if_neg hz, KuzToken.bind_ok f1, hs']; rfl
      · simp only [frozen, Kuz.Blk.value, e2, Exec.ok_bind]
        rw [if_neg hz, hs']; rfl
  | shifted b n ih =>
    obtain ⟨⟨k, rfl, h1, h2⟩, hb⟩ := hb
    exact (ih hb).then (f := fun v => Kuz.shiftValue v k) rfl rfl
      (fun v => (Kuz.shiftValue_eq v k h1 h2).imp fun _ h => h.1) rfl
  | user x =>
    obtain ⟨i, rfl⟩ := hb
    exact fun c h1 h2 => ⟨_, c, rfl, rfl, h1, h2, fun j => by simp [In]⟩
  | xored a b iha ihb =>
    intro c h1 h2
    obtain ⟨v, c', e1, e2, e3, e4, e5⟩ := iha hb.1 c h1 h2
    obtain ⟨v', c'', f1, f2, f3, f4, f5⟩ := ihb hb.2 c' e3 e4
    refine ⟨(v.1 ^^^ v'.1, v.2 ^^^ v'.2), c'', ?_, ?_, f3, f4, fun j => ?_⟩
    · simp only [Blk.value]
      rw [KuzToken.bind_ok e1, KuzToken.bind_ok f1]; rfl
    · simp only [frozen, Kuz.Blk.value, e2, f2, Exec.ok_bind]; rfl
    · rw [f5, e5]; simp only [In, or_assoc]
  | blkS b ih =>
    exact (ih hb).then (f := Kuz.sValue) rfl rfl (fun v => (sValue_eq v).imp fun _ h => h.1) rfl
  | blkR b ih =>
    exact (ih hb).then (f := Kuz.rValue m) rfl rfl (fun v => (rValue_eq hm v).imp fun _ h => h.1) rfl
  | incremented b ih =>
    exact (ih hb).then (f := fun v => .ok (Kuz.incValue v)) rfl rfl (fun _ => ⟨_, rfl⟩) rfl
  | cached id b ih =>
    intro c h1 h2
    obtain ⟨ho, hg⟩ := hb
    cases hc : c id with
    | some v =>
      refine ⟨v, c, ?_, ?_, h1, h2, fun j => ⟨Or.inl, ?_⟩⟩
      · simp only [Blk.value, hc]
      · rcases h1 id with e | ⟨e, v', e1, e2⟩
        · simp only [frozen, ← e, hc, Kuz.Blk.value]
        · rw [hc] at e1; cases e1
          simp only [frozen, e, Kuz.Blk.value]
          rw [← e2, ho]
      · rintro (h | rfl | h)
        · exact h
        · simp [hc]
        · exact h2 id (by simp [hc]) j (by rw [ho]; exact h)
    | none =>
      obtain ⟨v, c', e1, e2, e3, e4, e5⟩ := ih hg c h1 h2
      have h0 : c₀ id = none := by
        rcases h1 id with e | ⟨e, -⟩
        · rw [← e, hc]
        · exact e
      refine ⟨v, fun i => if i = id then some v else c' i, ?_, ?_, ?_, ?_, ?_⟩
      · simp only [Blk.value, hc, e1]
      · simp only [frozen, h0, Kuz.Blk.value, e2]
      · intro i
        by_cases hi : i = id
        · subst hi
          exact .inr ⟨h0, v, by simp, by rw [ho]; exact e2⟩
        · simpa [hi] using e3 i
      · intro i hi j hj
        by_cases hji : j = id
        · simp [hji]
        · simp only [hji, if_false]
          by_cases hii : i = id
          · subst hii
            exact (e5 j).2 (.inr (by rw [← ho]; exact hj))
          · simp only [hii, if_false] at hi
            exact e4 i hi j hj
      · intro j
        by_cases hj : j = id
        · simp [hj, In]
        · simp [hj, In, e5 j]

/-! ### Blocks of the cipher -/

theorem in_transform (b : Blk Cells) (n : Nat) : In (KuzToken.BlkL.transform b n) = In b := by
  induction n generalizing b with
  | zero => rfl
  | succ n ih => exact ih (.blkR b)

theorem in_step (a k : Blk Cells) (j : Nat) : In (Key.encryptStep a k) j ↔ In a j ∨ In k j := by
  unfold Key.encryptStep KuzToken.BlkL
  rw [in_transform]; rfl

theorem good_transform {own : Nat → Blk Cells} {b : Blk Cells} (h : Good own b) (n : Nat) :
    Good own (KuzToken.BlkL.transform b n) := by
  induction n generalizing b with
  | zero => exact h
  | succ n ih => exact ih (b := .blkR b) h

theorem good_step {own : Nat → Blk Cells} {a k : Blk Cells} (ha : Good own a) (hk : Good own k) :
    Good own (Key.encryptStep a k) := good_transform (b := .blkS (.xored a k)) ⟨ha, hk⟩ 16

theorem frozen_transform (c : Caches) (w : Cells) (b : Blk Cells) (n : Nat) :
    frozen c w (KuzToken.BlkL.transform b n) = Kuz.BlkL.transform (frozen c w b) n := by
  induction n generalizing b with
  | zero => rfl
  | succ n ih => exact ih (.blkR b)

theorem frozen_step (c : Caches) (w : Cells) (a k : Blk Cells) :
    frozen c w (Key.encryptStep a k) = Kuz.Key.encryptStep (frozen c w a) (frozen c w k) := frozen_transform c w _ 16

theorem frozen_generate (c : Caches) (w : Cells) (n : Nat) {c2 i : Int} (hn : (c2 + 1 - i).toNat = n) (a b : Blk Cells) :
    frozen c w (KuzToken.BlkIterKey.generate c2 a b i) = Kuz.BlkIterKey.generate c2 (frozen c w a) (frozen c w b) i := by
  induction n generalizing i a b with
  | zero =>
    have h : i > c2 := by omega
    rw [KuzToken.BlkIterKey.generate, Kuz.BlkIterKey.generate, if_pos h, if_pos h]
  | succ n ih =>
    have h : ¬ i > c2 := by omega
    rw [KuzToken.BlkIterKey.generate, Kuz.BlkIterKey.generate, if_neg h, if_neg h]
    rw [ih (by omega)]
    have e : frozen c w (.xored a (KuzToken.BlkL (.blkS (.xored b (KuzToken.BlkL (KuzToken.BlkRaw.ofU64 (BitVec.ofInt 64 i))))))) =
        .xored (frozen c w a) (Kuz.BlkL (.blkS (.xored (frozen c w b) (Kuz.BlkL (Kuz.BlkRaw.ofU64 (BitVec.ofInt 64 i)))))) := rfl
    simp only [e]

theorem in_generate (n : Nat) {c2 i : Int} (hn : (c2 + 1 - i).toNat = n) (a b : Blk Cells) (j : Nat)
    (h : In (KuzToken.BlkIterKey.generate c2 a b i) j) : In a j ∨ In b j := by
  induction n generalizing i a b with
  | zero =>
    rw [KuzToken.BlkIterKey.generate, if_pos (by omega)] at h
    exact .inr h
  | succ n ih =>
    rw [KuzToken.BlkIterKey.generate, if_neg (by omega)] at h
    rcases ih (by omega) _ _ h with h | h
    · exact .inr h
    · rcases h with h | h
      · exact .inl h
      · simp only [KuzToken.BlkL] at h
        rw [in_transform] at h
        rcases h with h | h
        · exact .inr h
        · rw [in_transform] at h
          exact h.elim

theorem good_generate {own : Nat → Blk Cells} (n : Nat) {c2 i : Int} (hn : (c2 + 1 - i).toNat = n) {a b : Blk Cells}
    (ha : Good own a) (hb : Good own b) : Good own (KuzToken.BlkIterKey.generate c2 a b i) := by
  induction n generalizing i a b with
  | zero => rw [KuzToken.BlkIterKey.generate, if_pos (by omega)]; exact hb
  | succ n ih =>
    rw [KuzToken.BlkIterKey.generate, if_neg (by omega)]
    refine ih (by omega) hb ⟨ha, ?_⟩
    have hc : Good own (KuzToken.BlkL (KuzToken.BlkRaw.ofU64 (BitVec.ofInt 64 i))) :=
      good_transform (b := .raw _ _) trivial 16
    exact good_transform (b := .blkS (.xored b _)) ⟨hb, hc⟩ 16

/-! ### Keys -/

/-- The round key number `r`, from 1. -/
def member {W : Type} (k : Key W) : Nat → Blk W
  | 1 => k.k1 | 2 => k.k2 | 3 => k.k3 | 4 => k.k4 | 5 => k.k5 | 6 => k.k6 | 7 => k.k7 | 8 => k.k8 | 9 => k.k9
  | _ => k.k10

/-- The block behind a cache. -/
def inner {W : Type} : Blk W → Blk W
  | .cached _ b => b
  | b => b

theorem member_cached (h l : Blk Cells) (base r : Nat) (h1 : 1 ≤ r) (h10 : r ≤ 10) :
    member (Key.ofBlocks h l base) r = .cached (base + r) (inner (member (Key.ofBlocks h l base) r)) := by
  match r, h1, h10 with
  | 1, _, _ | 2, _, _ | 3, _, _ | 4, _, _ | 5, _, _ | 6, _, _ | 7, _, _ | 8, _, _ | 9, _, _ | 10, _, _ => rfl
  | n + 11, _, h => omega

theorem good_key {own : Nat → Blk Cells} {h l : Blk Cells} {base : Nat} (hh : Good own h) (hl : Good own l)
    (ho : ∀ r, 1 ≤ r → r ≤ 10 → own (base + r) = inner (member (Key.ofBlocks h l base) r)) (r : Nat) (h1 : 1 ≤ r)
    (h10 : r ≤ 10) : Good own (member (Key.ofBlocks h l base) r) := by
  have iter : ∀ {a b : Blk Cells} (c1 c2 : Int), Good own a → Good own b → Good own (KuzToken.BlkIterKey a b c1 c2) :=
    fun c1 c2 ha hb => good_generate _ rfl hb ha
  have g1 : Good own (member (Key.ofBlocks h l base) 1) := ⟨ho 1 (by omega) (by omega), hh⟩
  have g2 : Good own (member (Key.ofBlocks h l base) 2) := ⟨ho 2 (by omega) (by omega), hl⟩
  have g3 : Good own (member (Key.ofBlocks h l base) 3) := ⟨ho 3 (by omega) (by omega), iter 1 8 g1 g2⟩
  have g4 : Good own (member (Key.ofBlocks h l base) 4) := ⟨ho 4 (by omega) (by omega), iter 1 7 g1 g2⟩
  have g5 : Good own (member (Key.ofBlocks h l base) 5) := ⟨ho 5 (by omega) (by omega), iter 9 16 g3 g4⟩
  have g6 : Good own (member (Key.ofBlocks h l base) 6) := ⟨ho 6 (by omega) (by omega), iter 9 15 g3 g4⟩
  have g7 : Good own (member (Key.ofBlocks h l base) 7) := ⟨ho 7 (by omega) (by omega), iter 17 24 g5 g6⟩
  have g8 : Good own (member (Key.ofBlocks h l base) 8) := ⟨ho 8 (by omega) (by omega), iter 17 23 g5 g6⟩
  have g9 : Good own (member (Key.ofBlocks h l base) 9) := ⟨ho 9 (by omega) (by omega), iter 25 32 g7 g8⟩
  have g10 : Good own (member (Key.ofBlocks h l base) 10) := ⟨ho 10 (by omega) (by omega), iter 25 31 g7 g8⟩
  match r, h1, h10 with
  | 1, _, _ => exact g1
  | 2, _, _ => exact g2
  | 3, _, _ => exact g3
  | 4, _, _ => exact g4
  | 5, _, _ => exact g5
  | 6, _, _ => exact g6
  | 7, _, _ => exact g7
  | 8, _, _ => exact g8
  | 9, _, _ => exact g9
  | 10, _, _ => exact g10
  | n + 11, _, h => omega

theorem in_key (h l : Blk Cells) (base r j : Nat) (h1 : 1 ≤ r) (h10 : r ≤ 10)
    (hj : In (member (Key.ofBlocks h l base) r) j) : (∃ q, 1 ≤ q ∧ q ≤ 10 ∧ j = base + q) ∨ In h j ∨ In l j := by
  have iter : ∀ {a b : Blk Cells} {c1 c2 : Int}, In (KuzToken.BlkIterKey a b c1 c2) j → In b j ∨ In a j :=
    fun h => in_generate _ rfl _ _ j h
  have g1 : In (member (Key.ofBlocks h l base) 1) j → (∃ q, 1 ≤ q ∧ q ≤ 10 ∧ j = base + q) ∨ In h j ∨ In l j := by
    rintro (rfl | h)
    · exact .inl ⟨1, by omega, by omega, rfl⟩
    · exact .inr (.inl h)
  have g2 : In (member (Key.ofBlocks h l base) 2) j → (∃ q, 1 ≤ q ∧ q ≤ 10 ∧ j = base + q) ∨ In h j ∨ In l j := by
    rintro (rfl | h)
    · exact .inl ⟨2, by omega, by omega, rfl⟩
    · exact .inr (.inr h)
  have g3 : In (member (Key.ofBlocks h l base) 3) j → (∃ q, 1 ≤ q ∧ q ≤ 10 ∧ j = base + q) ∨ In h j ∨ In l j := by
    rintro (rfl | h)
    · exact .inl ⟨3, by omega, by omega, rfl⟩
    · exact (iter h).elim g2 g1
  have g4 : In (member (Key.ofBlocks h l base) 4) j → (∃ q, 1 ≤ q ∧ q ≤ 10 ∧ j = base + q) ∨ In h j ∨ In l j := by
    rintro (rfl | h)
    · exact .inl ⟨4, by omega, by omega, rfl⟩
    · exact (iter h).elim g2 g1
  have g5 : In (member (Key.ofBlocks h l base) 5) j → (∃ q, 1 ≤ q ∧ q ≤ 10 ∧ j = base + q) ∨ In h j ∨ In l j := by
    rintro (rfl | h)
    · exact .inl ⟨5, by omega, by omega, rfl⟩
    · exact (iter h).elim g4 g3
  have g6 : In (member (Key.ofBlocks h l base) 6) j → (∃ q, 1 ≤ q ∧ q ≤ 10 ∧ j = base + q) ∨ In h j ∨ In l j := by
    rintro (rfl | h)
    · exact .inl ⟨6, by omega, by omega, rfl⟩
    · exact (iter h).elim g4 g3
  have g7 : In (member (Key.ofBlocks h l base) 7) j → (∃ q, 1 ≤ q ∧ q ≤ 10 ∧ j = base + q) ∨ In h j ∨ In l j := by
    rintro (rfl | h)
    · exact .inl ⟨7, by omega, by omega, rfl⟩
    · exact (iter h).elim g6 g5
  have g8 : In (member (Key.ofBlocks h l base) 8) j → (∃ q, 1 ≤ q ∧ q ≤ 10 ∧ j = base + q) ∨ In h j ∨ In l j := by
    rintro (rfl | h)
    · exact .inl ⟨8, by omega, by omega, rfl⟩
    · exact (iter h).elim g6 g5
  have g9 : In (member (Key.ofBlocks h l base) 9) j → (∃ q, 1 ≤ q ∧ q ≤ 10 ∧ j = base + q) ∨ In h j ∨ In l j := by
    rintro (rfl | h)
    · exact .inl ⟨9, by omega, by omega, rfl⟩
    · exact (iter h).elim g8 g7
  have g10 : In (member (Key.ofBlocks h l base) 10) j → (∃ q, 1 ≤ q ∧ q ≤ 10 ∧ j = base + q) ∨ In h j ∨ In l j := by
    rintro (rfl | h)
    · exact .inl ⟨10, by omega, by omega, rfl⟩
    · exact (iter h).elim g8 g7
  match r, h1, h10 with
  | 1, _, _ => exact g1 hj
  | 2, _, _ => exact g2 hj
  | 3, _, _ => exact g3 hj
  | 4, _, _ => exact g4 hj
  | 5, _, _ => exact g5 hj
  | 6, _, _ => exact g6 hj
  | 7, _, _ => exact g7 hj
  | 8, _, _ => exact g8 hj
  | 9, _, _ => exact g9 hj
  | 10, _, _ => exact g10 hj
  | n + 11, _, h => omega

theorem in_encrypted (b : Blk Cells) (k : Key Cells) (j : Nat) :
    In (KuzToken.BlkEncrypted b k) j ↔ In b j ∨ ∃ r, 1 ≤ r ∧ r ≤ 10 ∧ In (member k r) j := by
  have e : In (KuzToken.BlkEncrypted b k) j ↔ In b j ∨ In k.k1 j ∨ In k.k2 j ∨ In k.k3 j ∨ In k.k4 j ∨ In k.k5 j ∨ In k.k6 j ∨
      In k.k7 j ∨ In k.k8 j ∨ In k.k9 j ∨ In k.k10 j := by
    simp only [KuzToken.BlkEncrypted, Key.encrypt, In, in_step, or_assoc]
  rw [e]
  constructor
  · rintro (h | h | h | h | h | h | h | h | h | h | h)
    · exact .inl h
    · exact .inr ⟨1, by omega, by omega, h⟩
    · exact .inr ⟨2, by omega, by omega, h⟩
    · exact .inr ⟨3, by omega, by omega, h⟩
    · exact .inr ⟨4, by omega, by omega, h⟩
    · exact .inr ⟨5, by omega, by omega, h⟩
    · exact .inr ⟨6, by omega, by omega, h⟩
    · exact .inr ⟨7, by omega, by omega, h⟩
    · exact .inr ⟨8, by omega, by omega, h⟩
    · exact .inr ⟨9, by omega, by omega, h⟩
    · exact .inr ⟨10, by omega, by omega, h⟩
  · rintro (h | ⟨r, h1, h10, h⟩)
    · exact .inl h
    · right
      match r, h1, h10 with
      | 1, _, _ => exact .inl h
      | 2, _, _ => exact .inr (.inl h)
      | 3, _, _ => exact .inr (.inr (.inl h))
      | 4, _, _ => exact .inr (.inr (.inr (.inl h)))
      | 5, _, _ => exact .inr (.inr (.inr (.inr (.inl h))))
      | 6, _, _ => exact .inr (.inr (.inr (.inr (.inr (.inl h)))))
      | 7, _, _ => exact .inr (.inr (.inr (.inr (.inr (.inr (.inl h))))))
      | 8, _, _ => exact .inr (.inr (.inr (.inr (.inr (.inr (.inr (.inl h)))))))
      | 9, _, _ => exact .inr (.inr (.inr (.inr (.inr (.inr (.inr (.inr (.inl h))))))))
      | 10, _, _ => exact .inr (.inr (.inr (.inr (.inr (.inr (.inr (.inr (.inr h))))))))
      | n + 11, _, h => omega

/-- The caches in an encryption. -/
theorem in_encryption (b h l : Blk Cells) (base j : Nat) : In (KuzToken.BlkEncrypted b (Key.ofBlocks h l base)) j ↔
    In b j ∨ (∃ q, 1 ≤ q ∧ q ≤ 10 ∧ j = base + q) ∨ In h j ∨ In l j := by
  rw [in_encrypted]
  constructor
  · rintro (h | ⟨r, h1, h10, h⟩)
    · exact .inl h
    · exact .inr (in_key _ _ base r j h1 h10 h)
  · rintro (hb | ⟨q, h1, h10, rfl⟩ | hh | hl)
    · exact .inl hb
    · refine .inr ⟨q, h1, h10, ?_⟩
      rw [member_cached h l base q h1 h10]
      exact .inl rfl
    · exact .inr ⟨1, by omega, by omega, .inr hh⟩
    · exact .inr ⟨2, by omega, by omega, .inr hl⟩

theorem good_encrypted {own : Nat → Blk Cells} {b : Blk Cells} {k : Key Cells} (hb : Good own b)
    (hk : ∀ r, 1 ≤ r → r ≤ 10 → Good own (member k r)) : Good own (KuzToken.BlkEncrypted b k) :=
  ⟨good_step (good_step (good_step (good_step (good_step (good_step (good_step (good_step (good_step hb
    (hk 1 (by omega) (by omega))) (hk 2 (by omega) (by omega))) (hk 3 (by omega) (by omega))) (hk 4 (by omega) (by omega)))
    (hk 5 (by omega) (by omega))) (hk 6 (by omega) (by omega))) (hk 7 (by omega) (by omega))) (hk 8 (by omega) (by omega)))
    (hk 9 (by omega) (by omega)), hk 10 (by omega) (by omega)⟩

/-- The key as it is with caches `c` and variables `w`. -/
def frozenKey (c : Caches) (w : Cells) (k : Key Cells) : Kuz.Key :=
  ⟨frozen c w k.k1, frozen c w k.k2, frozen c w k.k3, frozen c w k.k4, frozen c w k.k5, frozen c w k.k6, frozen c w k.k7,
    frozen c w k.k8, frozen c w k.k9, frozen c w k.k10⟩

theorem frozen_encrypted (c : Caches) (w : Cells) (b : Blk Cells) (k : Key Cells) :
    frozen c w (KuzToken.BlkEncrypted b k) = Kuz.BlkEncrypted (frozen c w b) (frozenKey c w k) := by
  simp only [KuzToken.BlkEncrypted, Key.encrypt, frozen, frozen_step, Kuz.BlkEncrypted, Kuz.Key.encrypt, frozenKey]

theorem frozen_iterKey (c : Caches) (w : Cells) (a b : Blk Cells) (c1 c2 : Int) :
    frozen c w (KuzToken.BlkIterKey a b c1 c2) = Kuz.BlkIterKey (frozen c w a) (frozen c w b) c1 c2 :=
  frozen_generate c w _ rfl b a

/-- A key that has not been used. -/
theorem frozenKey_fresh {c : Caches} {w : Cells} {h l : Blk Cells} {base : Nat}
    (hc : ∀ r, 1 ≤ r → r ≤ 10 → c (base + r) = none) :
    frozenKey c w (Key.ofBlocks h l base) = Kuz.Key.ofBlocks (frozen c w h) (frozen c w l) base := by
  simp only [frozenKey, Key.ofBlocks, frozen, Kuz.Key.ofBlocks, frozen_iterKey, hc 1 (by omega) (by omega),
    hc 2 (by omega) (by omega), hc 3 (by omega) (by omega), hc 4 (by omega) (by omega), hc 5 (by omega) (by omega),
    hc 6 (by omega) (by omega), hc 7 (by omega) (by omega), hc 8 (by omega) (by omega), hc 9 (by omega) (by omega),
    hc 10 (by omega) (by omega)]

/-- The caches of a key hold these round keys. -/
def Holds (c : Caches) (base : Nat) (k : Fin 10 → Spec.Kuz.Block) : Prop :=
  ∀ i : Fin 10, ∃ v, c (base + (i.val + 1)) = some v ∧ join64 v = k i

/-- A key that has been used. -/
theorem frozenKey_used {c : Caches} {w : Cells} {h l : Blk Cells} {base : Nat} {k : Fin 10 → Spec.Kuz.Block}
    (hc : Holds c base k) : KeyValues m (frozenKey c w (Key.ofBlocks h l base)) k := by
  have g : ∀ (i : Fin 10) (b : Blk Cells), HasValue m (frozen c w (.cached (base + (i.val + 1)) b)) (k i) := by
    intro i b
    obtain ⟨v, e1, e2⟩ := hc i
    exact ⟨v, by simp only [frozen, e1, Kuz.Blk.value], e2⟩
  exact ⟨g 0 _, g 1 _, g 2 _, g 3 _, g 4 _, g 5 _, g 6 _, g 7 _, g 8 _, g 9 _⟩

/-- The round keys by number. -/
theorem keyValues_member {c : Caches} {w : Cells} {key : Key Cells} {k : Fin 10 → Spec.Kuz.Block}
    (h : KeyValues m (frozenKey c w key) k) (i : Fin 10) : HasValue m (frozen c w (member key (i.val + 1))) (k i) := by
  match i with
  | 0 => exact h.h1
  | 1 => exact h.h2
  | 2 => exact h.h3
  | 3 => exact h.h4
  | 4 => exact h.h5
  | 5 => exact h.h6
  | 6 => exact h.h7
  | 7 => exact h.h8
  | 8 => exact h.h9
  | 9 => exact h.h10

end Goost.Views
