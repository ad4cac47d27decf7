import Verif.Lemmas.MagmaDifferences
/-
Helper lemmas: differences over several rounds with independent keys.
-/
namespace Goost.Differences
open Spec Spec.Magma Goost.Magma

abbrev Halves := BitVec 32 × BitVec 32

/-- The difference of two states. -/
def diff (v w : Halves) : Halves := (v.1 ^^^ w.1, v.2 ^^^ w.2)

theorem diff_zero {v w : Halves} : diff v w = 0 ↔ v = w := by
  constructor
  · intro h
    exact Prod.ext (BitVec.xor_eq_zero_iff.1 (congrArg Prod.fst h)) (BitVec.xor_eq_zero_iff.1 (congrArg Prod.snd h))
  · rintro rfl
    exact Prod.ext BitVec.xor_self BitVec.xor_self

theorem ncard_fibers {α β : Type} [Finite α] [Finite β] (S : Set (α × β)) (A : Set α) (b : Nat) (hA : ∀ p ∈ S, p.1 ∈ A)
    (hB : ∀ x ∈ A, {y | (x, y) ∈ S}.ncard ≤ b) : S.ncard ≤ A.ncard * b := by
  classical
  obtain ⟨F, mF, hF⟩ := exists_finset fun p : α × β => p ∈ S
  obtain ⟨E, mE, hE⟩ := exists_finset fun x : α => x ∈ A
  rw [show S.ncard = F.card from hF, show A.ncard = E.card from hE, Nat.mul_comm]
  refine Finset.card_le_mul_card_image_of_maps_to (f := Prod.fst) (fun p hp => (mE _).2 (hA p ((mF p).1 hp))) b fun x hx => ?_
  refine le_trans ?_ (hB x ((mE x).1 hx))
  obtain ⟨H, mH, hH⟩ := exists_finset fun y : β => (x, y) ∈ S
  rw [hH]
  refine Finset.card_le_card_of_injOn Prod.snd ?_ ?_
  · intro p hp
    have hp := Finset.mem_filter.1 (Finset.mem_coe.1 hp)
    refine Finset.mem_coe.2 ((mH _).2 ?_)
    have := (mF p).1 hp.1
    rw [← hp.2]
    exact this
  · intro p hp q hq e
    exact Prod.ext ((Finset.mem_filter.1 (Finset.mem_coe.1 hp)).2.trans (Finset.mem_filter.1 (Finset.mem_coe.1 hq)).2.symm) e

theorem ncard_words (S : Set (BitVec 32)) : S.ncard ≤ 2 ^ 32 := by
  have := Set.ncard_le_ncard (Set.subset_univ S) (Set.toFinite _)
  rwa [Set.ncard_univ, Nat.card_eq_fintype_card, card_bitVec] at this

section
variable (f : BitVec 32 → BitVec 32 → BitVec 32)

/-- A round with the key word `k`. -/
def rnd (k : BitVec 32) (v : Halves) : Halves := G (f k) v

/-- Different words have different images, and a given difference is that of at most a quarter of the keys. -/
structure Good : Prop where
  inj : ∀ k {x y}, x ≠ y → f k x ≠ f k y
  diff : ∀ x y d, x ≠ y → {k | f k x ^^^ f k y = d}.ncard ≤ 2 ^ 30

variable {f}

theorem rnd_ne (k : BitVec 32) {v w : Halves} (h : v ≠ w) : rnd f k v ≠ rnd f k w := by
  intro e
  have e1 : v.2 = w.2 := congrArg Prod.fst e
  have e2 : f k v.2 ^^^ v.1 = f k w.2 ^^^ w.1 := congrArg Prod.snd e
  rw [e1, BitVec.xor_right_inj] at e2
  exact h (Prod.ext e2 e1)

/-- Of three rounds in a row, at most one gets equal words. -/
theorem active (hf : Good f) (k l : BitVec 32) {v w : Halves} (h : v ≠ w) :
    ¬ (v.2 = w.2 ∧ (rnd f k v).2 = (rnd f k w).2) ∧
    ¬ ((rnd f k v).2 = (rnd f k w).2 ∧ (rnd f l (rnd f k v)).2 = (rnd f l (rnd f k w)).2) ∧
    ¬ (v.2 = w.2 ∧ (rnd f l (rnd f k v)).2 = (rnd f l (rnd f k w)).2) := by
  have two : ∀ (k : BitVec 32) {v w : Halves}, v ≠ w → ¬ (v.2 = w.2 ∧ (rnd f k v).2 = (rnd f k w).2) := by
    rintro k v w h ⟨e1, e2⟩
    exact rnd_ne k h (Prod.ext e1 e2)
  refine ⟨two k h, two l (rnd_ne k h), ?_⟩
  rintro ⟨e1, e2⟩
  have h2 : (rnd f k v).2 ≠ (rnd f k w).2 := fun e => two k h ⟨e1, e⟩
  have e3 : f l (rnd f k v).2 ^^^ v.2 = f l (rnd f k w).2 ^^^ w.2 := e2
  rw [e1, BitVec.xor_left_inj] at e3
  exact hf.inj l h2 e3

/-- All the differences after the rounds with the keys `ks`. -/
def Path (f : BitVec 32 → BitVec 32 → BitVec 32) : List (BitVec 32) → List Halves → Halves → Halves → Prop
  | [], [], _, _ => True
  | k :: ks, d :: ds, v, w => diff (rnd f k v) (rnd f k w) = d ∧ Path f ks ds (rnd f k v) (rnd f k w)
  | _, _, _, _ => False

def cost1 (d : Halves) : Nat := if d.2 = 0 then 2 ^ 32 else 2 ^ 30

def cost : Halves → List Halves → Nat
  | _, [] => 1
  | d, e :: ds => cost1 d * cost e ds

theorem round_cost (hf : Good f) (v w d : Halves) : {k | diff (rnd f k v) (rnd f k w) = d}.ncard ≤ cost1 (diff v w) := by
  unfold cost1
  split
  · exact ncard_words _
  · next h =>
    have hne : v.2 ≠ w.2 := fun e => h (BitVec.xor_eq_zero_iff.2 e)
    refine le_trans (Set.ncard_le_ncard ?_ (Set.toFinite _)) (hf.diff v.2 w.2 (d.2 ^^^ (v.1 ^^^ w.1)) hne)
    intro k hk
    have : (f k v.2 ^^^ v.1) ^^^ (f k w.2 ^^^ w.1) = d.2 := congrArg Prod.snd hk
    show f k v.2 ^^^ f k w.2 = d.2 ^^^ (v.1 ^^^ w.1)
    rw [← this]
    apply BitVec.eq_of_getLsbD_eq
    intro i _
    simp only [BitVec.getLsbD_xor]
    cases (f k v.2).getLsbD i <;> cases (f k w.2).getLsbD i <;> cases v.1.getLsbD i <;> cases w.1.getLsbD i <;> rfl

theorem path_cost (hf : Good f) (n : Nat) : ∀ (ds : List Halves) (v w : Halves),
    {ks : Fin n → BitVec 32 | Path f (List.ofFn ks) ds v w}.ncard ≤ cost (diff v w) ds := by
  induction n with
  | zero =>
    intro ds v w
    cases ds with
    | nil =>
      refine le_trans (Set.ncard_le_ncard (Set.subset_univ _) (Set.toFinite _)) ?_
      rw [Set.ncard_univ, Nat.card_eq_fintype_card]
      simp [cost]
    | cons d ds =>
      rw [show {ks : Fin 0 → BitVec 32 | Path f (List.ofFn ks) (d :: ds) v w} = ∅ from
        Set.eq_empty_of_forall_notMem fun ks h => by simp [Path] at h]
      simp
  | succ n ih =>
    intro ds v w
    cases ds with
    | nil =>
      rw [show {ks : Fin (n + 1) → BitVec 32 | Path f (List.ofFn ks) [] v w} = ∅ from
        Set.eq_empty_of_forall_notMem fun ks h => by simp [Path, List.ofFn_succ] at h]
      simp
    | cons d ds =>
      let S : Set (BitVec 32 × (Fin n → BitVec 32)) := {p | diff (rnd f p.1 v) (rnd f p.1 w) = d ∧
        Path f (List.ofFn p.2) ds (rnd f p.1 v) (rnd f p.1 w)}
      have h1 : S.ncard ≤ cost1 (diff v w) * cost d ds := by
        refine le_trans (ncard_fibers S {k | diff (rnd f k v) (rnd f k w) = d} (cost d ds) (fun p hp => hp.1) fun k hk => ?_)
          (Nat.mul_le_mul_right _ (round_cost hf v w d))
        refine le_trans (Set.ncard_le_ncard ?_ (Set.toFinite _)) (hk ▸ ih ds (rnd f k v) (rnd f k w))
        intro ks hks
        exact hks.2
      refine le_trans (Set.ncard_le_ncard_of_injOn (t := S) (fun ks => (ks 0, fun i => ks i.succ)) ?_ ?_ (Set.toFinite _)) h1
      · intro ks hks
        have : Path f (List.ofFn ks) (d :: ds) v w := hks
        rw [List.ofFn_succ] at this
        exact this
      · intro ks _ ls _ e
        funext i
        refine Fin.cases ?_ (fun i => ?_) i
        · exact congrArg Prod.fst e
        · exact congrFun (congrArg Prod.snd e) i

theorem path_diff {k : BitVec 32} {ks d ds} {v w : Halves} (h : Path f (k :: ks) (d :: ds) v w) :
    d = diff (rnd f k v) (rnd f k w) ∧ Path f ks ds (rnd f k v) (rnd f k w) := ⟨h.1.symm, h.2⟩

theorem diff_snd {v w : Halves} : (diff v w).2 = 0 ↔ v.2 = w.2 := BitVec.xor_eq_zero_iff

theorem cost_two (hf : Good f) (k : BitVec 32) {v w : Halves} (h : v ≠ w) :
    cost1 (diff v w) * cost1 (diff (rnd f k v) (rnd f k w)) ≤ 2 ^ 62 := by
  have a := (active hf k k h).1
  unfold cost1
  simp only [diff_snd]
  by_cases h1 : v.2 = w.2 <;> by_cases h2 : (rnd f k v).2 = (rnd f k w).2 <;> simp [h1, h2]
  exact a ⟨h1, h2⟩

theorem cost_three (hf : Good f) (k l : BitVec 32) {v w : Halves} (h : v ≠ w) :
    cost1 (diff v w) * (cost1 (diff (rnd f k v) (rnd f k w)) * cost1 (diff (rnd f l (rnd f k v)) (rnd f l (rnd f k w)))) ≤ 2 ^ 92 := by
  obtain ⟨a, b, c⟩ := active hf k l h
  unfold cost1
  simp only [diff_snd]
  by_cases h1 : v.2 = w.2 <;> by_cases h2 : (rnd f k v).2 = (rnd f k w).2 <;>
    by_cases h3 : (rnd f l (rnd f k v)).2 = (rnd f l (rnd f k w)).2 <;> simp [h1, h2, h3]
  all_goals first | exact a ⟨h1, h2⟩ | exact b ⟨h2, h3⟩ | exact c ⟨h1, h3⟩

theorem cost_eight (hf : Good f) (k0 k1 k2 k3 k4 k5 k6 k7 : BitVec 32) (ds : List Halves) {v w : Halves} (h : v ≠ w)
    (hks : Path f [k0, k1, k2, k3, k4, k5, k6, k7] ds v w) : cost (diff v w) ds ≤ 2 ^ 246 := by
  match ds, hks with
  | [d0, d1, d2, d3, d4, d5, d6, d7], hks =>
    obtain ⟨e0, hks⟩ := path_diff hks
    obtain ⟨e1, hks⟩ := path_diff hks
    obtain ⟨e2, hks⟩ := path_diff hks
    obtain ⟨e3, hks⟩ := path_diff hks
    obtain ⟨e4, hks⟩ := path_diff hks
    obtain ⟨e5, hks⟩ := path_diff hks
    obtain ⟨e6, hks⟩ := path_diff hks
    simp only [cost]
    have h3 := rnd_ne (f := f) k2 (rnd_ne (f := f) k1 (rnd_ne (f := f) k0 h))
    have h6 := rnd_ne (f := f) k5 (rnd_ne (f := f) k4 (rnd_ne (f := f) k3 h3))
    have c1 := cost_three hf k0 k1 h
    have c2 := cost_three hf k3 k4 h3
    have c3 := cost_two hf k6 h6
    rw [← e0, ← e1] at c1
    rw [← e2, ← e3, ← e4] at c2
    rw [← e5, ← e6] at c3
    refine le_trans (le_of_eq ?_) (le_trans (Nat.mul_le_mul c1 (Nat.mul_le_mul c2 c3)) (by norm_num))
    ring

/-- Given differences after each of eight rounds. -/
theorem eight_paths (hf : Good f) (ds : List Halves) {v w : Halves} (h : v ≠ w) :
    {ks : Fin 8 → BitVec 32 | Path f (List.ofFn ks) ds v w}.ncard ≤ 2 ^ 246 := by
  by_cases h0 : {ks : Fin 8 → BitVec 32 | Path f (List.ofFn ks) ds v w} = ∅
  · rw [h0, Set.ncard_empty]; exact Nat.zero_le _
  obtain ⟨ks, hks⟩ := Set.nonempty_iff_ne_empty.2 h0
  refine le_trans (path_cost hf 8 ds v w) ?_
  exact cost_eight hf (ks 0) (ks 1) (ks 2) (ks 3) (ks 4) (ks 5) (ks 6) (ks 7) ds h hks

/-- A given word in the right half after a round: a quarter of the keys, if the words that enter the round differ. -/
theorem right_half (hf : Good f) {v w : Halves} (h : v.2 ≠ w.2) (d : BitVec 32) :
    {k | (rnd f k v).2 ^^^ (rnd f k w).2 = d}.ncard ≤ 2 ^ 30 := by
  have := round_cost hf v w (v.2 ^^^ w.2, d)
  rw [cost1, if_neg fun e => h (diff_snd.1 e)] at this
  refine le_trans (Set.ncard_le_ncard ?_ (Set.toFinite _)) this
  intro k hk
  exact Prod.ext rfl hk

theorem pairs_free (S : Set (BitVec 32 × BitVec 32)) (A : Set (BitVec 32)) (a : Nat) (hA : ∀ p ∈ S, p.1 ∈ A) (ha : A.ncard ≤ a) :
    S.ncard ≤ a * 2 ^ 32 :=
  le_trans (ncard_fibers S A _ hA fun _ _ => ncard_words _) (Nat.mul_le_mul_right _ ha)

/-- A given difference after three rounds. -/
theorem three_rounds (hf : Good f) {v w : Halves} (h : v ≠ w) (d : Halves) :
    {p : BitVec 32 × BitVec 32 × BitVec 32 | diff (rnd f p.2.2 (rnd f p.2.1 (rnd f p.1 v)))
      (rnd f p.2.2 (rnd f p.2.1 (rnd f p.1 w))) = d}.ncard ≤ 7 * 2 ^ 90 := by
  by_cases h8 : d.1 = 0
  · -- the word before the last is the same
    by_cases h6 : v.2 = w.2
    · rw [show {p : BitVec 32 × BitVec 32 × BitVec 32 | diff (rnd f p.2.2 (rnd f p.2.1 (rnd f p.1 v)))
          (rnd f p.2.2 (rnd f p.2.1 (rnd f p.1 w))) = d} = ∅ from
        Set.eq_empty_of_forall_notMem fun p hp => by
          have e : (rnd f p.2.1 (rnd f p.1 v)).2 ^^^ (rnd f p.2.1 (rnd f p.1 w)).2 = d.1 := congrArg Prod.fst hp
          rw [h8] at e
          exact (active hf p.1 p.2.1 h).2.2 ⟨h6, BitVec.xor_eq_zero_iff.1 e⟩, Set.ncard_empty]
      exact Nat.zero_le _
    · refine le_trans (ncard_fibers _ {k | (rnd f k v).2 ^^^ (rnd f k w).2 = d.2} (2 ^ 30 * 2 ^ 32) ?_ ?_)
        (le_trans (Nat.mul_le_mul_right _ (right_half hf h6 d.2)) (by norm_num))
      · intro p hp
        have e : (rnd f p.2.1 (rnd f p.1 v)).2 ^^^ (rnd f p.2.1 (rnd f p.1 w)).2 = d.1 := congrArg Prod.fst hp
        have e' : (rnd f p.2.2 (rnd f p.2.1 (rnd f p.1 v))).2 ^^^ (rnd f p.2.2 (rnd f p.2.1 (rnd f p.1 w))).2 = d.2 :=
          congrArg Prod.snd hp
        rw [h8] at e
        have e := BitVec.xor_eq_zero_iff.1 e
        have e' : (f p.2.2 (rnd f p.2.1 (rnd f p.1 v)).2 ^^^ (rnd f p.1 v).2) ^^^
          (f p.2.2 (rnd f p.2.1 (rnd f p.1 w)).2 ^^^ (rnd f p.1 w).2) = d.2 := e'
        rw [e] at e'
        show (rnd f p.1 v).2 ^^^ (rnd f p.1 w).2 = d.2
        rw [← e', BitVec.xor_comm (f _ _), BitVec.xor_assoc, ← BitVec.xor_assoc (f _ _), BitVec.xor_self, BitVec.zero_xor]
      · intro k hk
        by_cases h7 : (rnd f k v).2 = (rnd f k w).2
        · rw [show {y : BitVec 32 × BitVec 32 | (k, y) ∈ {p : BitVec 32 × BitVec 32 × BitVec 32 |
              diff (rnd f p.2.2 (rnd f p.2.1 (rnd f p.1 v))) (rnd f p.2.2 (rnd f p.2.1 (rnd f p.1 w))) = d}} = ∅ from
            Set.eq_empty_of_forall_notMem fun y hy => by
              have e : (rnd f y.1 (rnd f k v)).2 ^^^ (rnd f y.1 (rnd f k w)).2 = d.1 := congrArg Prod.fst hy
              rw [h8] at e
              exact (active hf k y.1 h).2.1 ⟨h7, BitVec.xor_eq_zero_iff.1 e⟩, Set.ncard_empty]
          exact Nat.zero_le _
        · refine pairs_free _ {l | (rnd f l (rnd f k v)).2 ^^^ (rnd f l (rnd f k w)).2 = d.1} _ ?_ (right_half hf h7 d.1)
          intro y hy
          exact congrArg Prod.fst hy
  · -- the word before the last is different
    obtain ⟨S, hS⟩ : ∃ S, S = {p : BitVec 32 × BitVec 32 × BitVec 32 | diff (rnd f p.2.2 (rnd f p.2.1 (rnd f p.1 v)))
      (rnd f p.2.2 (rnd f p.2.1 (rnd f p.1 w))) = d} := ⟨_, rfl⟩
    obtain ⟨Z, hZ⟩ : ∃ Z, Z = {k : BitVec 32 | (rnd f k v).2 ^^^ (rnd f k w).2 = 0} := ⟨_, rfl⟩
    rw [← hS]
    have mS : ∀ {k l n}, (k, l, n) ∈ S → (rnd f l (rnd f k v)).2 ^^^ (rnd f l (rnd f k w)).2 = d.1 ∧
        (rnd f n (rnd f l (rnd f k v))).2 ^^^ (rnd f n (rnd f l (rnd f k w))).2 = d.2 := by
      intro k l n h
      rw [hS] at h
      exact ⟨congrArg Prod.fst h, congrArg Prod.snd h⟩
    have last : ∀ k l, {n | (k, l, n) ∈ S}.ncard ≤ 2 ^ 30 := by
      intro k l
      by_cases h0 : {n | (k, l, n) ∈ S} = ∅
      · rw [h0, Set.ncard_empty]; exact Nat.zero_le _
      obtain ⟨n₀, hn₀⟩ := Set.nonempty_iff_ne_empty.2 h0
      have hne : (rnd f l (rnd f k v)).2 ≠ (rnd f l (rnd f k w)).2 := by
        intro e
        have := (mS hn₀).1
        rw [e, BitVec.xor_self] at this
        exact h8 this.symm
      exact le_trans (Set.ncard_le_ncard (fun n hn => (mS hn).2) (Set.toFinite _)) (right_half hf hne d.2)
    have hz : Z.ncard ≤ 2 ^ 30 := by
      rw [hZ]
      by_cases h6 : v.2 = w.2
      · rw [show {k : BitVec 32 | (rnd f k v).2 ^^^ (rnd f k w).2 = 0} = ∅ from
          Set.eq_empty_of_forall_notMem fun k hk => (active hf k k h).1 ⟨h6, BitVec.xor_eq_zero_iff.1 hk⟩, Set.ncard_empty]
        exact Nat.zero_le _
      · exact right_half hf h6 0
    have hzc : Z.ncard + Zᶜ.ncard = 2 ^ 32 := by
      rw [Set.ncard_add_ncard_compl, Nat.card_eq_fintype_card, card_bitVec]
    have h1 : (S ∩ {p | p.1 ∈ Z}).ncard ≤ Z.ncard * (2 ^ 32 * 2 ^ 30) := by
      refine ncard_fibers _ Z _ (fun p hp => hp.2) fun k _ => ?_
      refine le_trans (ncard_fibers _ Set.univ (2 ^ 30) (fun _ _ => trivial) fun l _ => ?_) (Nat.mul_le_mul_right _ (ncard_words _))
      exact le_trans (Set.ncard_le_ncard (fun n hn => hn.1) (Set.toFinite _)) (last k l)
    have h2 : (S ∩ {p | p.1 ∈ Zᶜ}).ncard ≤ Zᶜ.ncard * (2 ^ 30 * 2 ^ 30) := by
      refine ncard_fibers _ Zᶜ _ (fun p hp => hp.2) fun k hk => ?_
      have h7 : (rnd f k v).2 ≠ (rnd f k w).2 := by
        intro e
        apply hk
        rw [hZ]
        exact BitVec.xor_eq_zero_iff.2 e
      refine le_trans (ncard_fibers _ {l | (rnd f l (rnd f k v)).2 ^^^ (rnd f l (rnd f k w)).2 = d.1} (2 ^ 30)
        (fun p hp => (mS hp.1).1) fun l _ => ?_) (Nat.mul_le_mul_right _ (right_half hf h7 d.1))
      exact le_trans (Set.ncard_le_ncard (fun n hn => hn.1) (Set.toFinite _)) (last k l)
    have h3 : S.ncard ≤ (S ∩ {p | p.1 ∈ Z}).ncard + (S ∩ {p | p.1 ∈ Zᶜ}).ncard := by
      refine le_trans (Set.ncard_le_ncard (fun p hp => ?_) (Set.toFinite _)) (Set.ncard_union_le _ _)
      by_cases hp' : p.1 ∈ Z
      · exact Or.inl ⟨hp, hp'⟩
      · exact Or.inr ⟨hp, hp'⟩
    omega

/-- The rounds with the keys `ks`. -/
def rnds (f : BitVec 32 → BitVec 32 → BitVec 32) (ks : List (BitVec 32)) (v : Halves) : Halves :=
  ks.foldl (fun v k => rnd f k v) v

theorem rnds_ne (ks : List (BitVec 32)) : ∀ {v w : Halves}, v ≠ w → rnds f ks v ≠ rnds f ks w := by
  induction ks with
  | nil => exact fun h => h
  | cons k ks ih => exact fun h => ih (rnd_ne k h)

/-- A given difference after eight rounds. -/
theorem eight_rounds (hf : Good f) {v w : Halves} (h : v ≠ w) (d : Halves) :
    {ks : Fin 8 → BitVec 32 | diff (rnds f (List.ofFn ks) v) (rnds f (List.ofFn ks) w) = d}.ncard ≤ 7 * 2 ^ 250 := by
  let S : Set ((Fin 5 → BitVec 32) × (BitVec 32 × BitVec 32 × BitVec 32)) := {p |
    diff (rnd f p.2.2.2 (rnd f p.2.2.1 (rnd f p.2.1 (rnds f (List.ofFn p.1) v))))
      (rnd f p.2.2.2 (rnd f p.2.2.1 (rnd f p.2.1 (rnds f (List.ofFn p.1) w)))) = d}
  have h1 : S.ncard ≤ 2 ^ 160 * (7 * 2 ^ 90) := by
    refine le_trans (ncard_fibers S Set.univ (7 * 2 ^ 90) (fun _ _ => trivial) fun ks _ => ?_) (Nat.mul_le_mul_right _ ?_)
    · exact three_rounds hf (rnds_ne (List.ofFn ks) h) d
    · rw [Set.ncard_univ, Nat.card_eq_fintype_card, Fintype.card_fun, card_bitVec, Fintype.card_fin]
      norm_num
  refine le_trans (Set.ncard_le_ncard_of_injOn (t := S)
    (fun ks => (fun i => ks (Fin.castLE (by omega) i), ks 5, ks 6, ks 7)) ?_ ?_ (Set.toFinite _)) (le_trans h1 (by norm_num))
  · intro ks hks
    exact hks
  · intro ks _ ls _ e
    have e5 : ∀ i : Fin 5, ks (Fin.castLE (by omega) i) = ls (Fin.castLE (by omega) i) := fun i => congrFun (congrArg Prod.fst e) i
    have e' := congrArg Prod.snd e
    funext i
    match i with
    | 0 => exact e5 0
    | 1 => exact e5 1
    | 2 => exact e5 2
    | 3 => exact e5 3
    | 4 => exact e5 4
    | 5 => exact congrArg Prod.fst e'
    | 6 => exact congrArg (fun p => p.2.1) e'
    | 7 => exact congrArg (fun p => p.2.2) e'

end

theorem g_good : Good (g Spec.Magma.pi) := ⟨fun k _ _ h => g_injective k h, fun x y d h => g_differences x y d h⟩

end Goost.Differences
