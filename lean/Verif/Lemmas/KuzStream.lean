import Verif.Spec.KuzStreams
import Verif.Lemmas.KuzKey
import Verif.Lemmas.Imit
/-
Kuznyechik streams, counter mode and MAC.
-/
namespace Goost
open Spec Spec.Modes Goost.Kuz
variable {ι : Type}

theorem encrypts_ofBlocks {m : Machine} (hm : m.unalignedLoad = true) {high low : Blk}
    {h l : W64 × W64} (hh : high.value m = .ok h) (hl : low.value m = .ok l) (base : Nat) :
    Encrypts m (Key.ofBlocks high low base) (join64 h ++ join64 l) :=
  fun b v hb => encrypt_value hm ⟨h, hh, rfl⟩ ⟨l, hl, rfl⟩ base (b := b) ⟨v, hb, rfl⟩

theorem _root_.Spec.Encrypts.has {m : Machine} {key : Key} {K : BitVec 256} (h : Encrypts m key K)
    {b : Blk} {x : Spec.Kuz.Block} (hb : HasValue m b x) :
    HasValue m (BlkEncrypted b key) (Spec.Kuz.enc K x) := by
  obtain ⟨v, hv, rfl⟩ := hb
  exact h b v hv

/-! ### StMemory -/

theorem wordPairs_append {a : List W64} (h : a.length % 2 = 0) (b : List W64) :
    wordPairs (a ++ b) = wordPairs a ++ wordPairs b := by
  match a, h with
  | [], _ => rfl
  | [_], h => simp at h
  | x :: y :: r, h =>
    have : r.length % 2 = 0 := by simp at h; omega
    simp only [List.cons_append, wordPairs, wordPairs_append this b]
termination_by a.length

theorem wordPairs_length (a : List W64) : (wordPairs a).length = a.length / 2 := by
  match a with
  | [] => rfl
  | [_] => simp [wordPairs]
  | x :: y :: r =>
    simp only [wordPairs, List.length_cons, wordPairs_length r]
    omega
termination_by a.length

theorem nextIter_pair (pre post : List W64) (a b : W64) (h : pre.length % 2 = 0) :
    StMemory.nextIter (pre ++ a :: b :: post) (8 * pre.length) =
      .ok (some ⟨8 * pre.length, (a, b)⟩) := by
  have e : 8 * pre.length / 8 = pre.length := by omega
  have e1 : (pre ++ a :: b :: post)[pre.length]? = some a := by simp
  have e2 : (pre ++ a :: b :: post)[pre.length + 1]? = some b := by simp
  simp only [StMemory.nextIter, e, vget, e1, e2]
  rw [if_neg (by simp)]
  rfl

theorem nextIter_end (data : List W64) : StMemory.nextIter data (8 * data.length) = .ok none := by
  simp [StMemory.nextIter]

theorem nextIter_odd (pre : List W64) (a : W64) :
    StMemory.nextIter (pre ++ [a]) (8 * pre.length) = .ub .oobRead := by
  have e : 8 * pre.length / 8 = pre.length := by omega
  have e1 : (pre ++ [a])[pre.length]? = some a := by simp
  have e2 : (pre ++ [a])[pre.length + 1]? = none := by simp
  simp only [StMemory.nextIter, e, vget, e1, e2]
  rw [if_neg (by simp)]
  rfl

theorem Shows_memory_from (pre : List W64) (a b : W64) (r : List W64) (hp : pre.length % 2 = 0)
    (hr : r.length % 2 = 0) :
    Shows (ItMemory.impl (pre ++ a :: b :: r)) 16 ⟨8 * pre.length, (a, b)⟩
      (wordPairs (a :: b :: r)) := by
  match r, hr with
  | [], _ =>
    have e : StMemory.nextIter (pre ++ [a, b]) (8 * pre.length + 16) = .ok none := by
      have := nextIter_end (pre ++ [a, b])
      rwa [show 8 * (pre ++ [a, b]).length = 8 * pre.length + 16 by simp; omega] at this
    refine ⟨rfl, ?_, rfl⟩
    simp only [ItMemory.impl, ItMemory.next, if_true, e, Exec.ok_bind]
    rfl
  | [_], hr => simp at hr
  | c :: d :: s, hr =>
    have hs : s.length % 2 = 0 := by simp at hr; omega
    have e : StMemory.nextIter (pre ++ a :: b :: c :: d :: s) (8 * pre.length + 16) =
        .ok (some ⟨8 * pre.length + 16, (c, d)⟩) := by
      have := nextIter_pair (pre ++ [a, b]) s c d (by simp; omega)
      simp only [List.append_assoc, List.cons_append, List.nil_append] at this
      rwa [show 8 * (pre ++ [a, b]).length = 8 * pre.length + 16 by simp; omega] at this
    have ih := Shows_memory_from (pre ++ [a, b]) c d s (by simp; omega) hs
    simp only [List.append_assoc, List.cons_append, List.nil_append] at ih
    rw [show 8 * (pre ++ [a, b]).length = 8 * pre.length + 16 by simp; omega] at ih
    refine ⟨rfl, ?_, rfl, ⟨8 * pre.length + 16, (c, d)⟩, ?_, ih⟩
    · simp only [ItMemory.impl, ItMemory.next, if_true, e, Exec.ok_bind]
      rfl
    · simp only [ItMemory.impl, ItMemory.next, if_true, e]
termination_by r.length

theorem Shows_memory (data : List W64) (h : data.length % 2 = 0) (h0 : data ≠ []) :
    ∃ i, StMemory.iter data = .ok (some i) ∧ Shows (ItMemory.impl data) 16 i (wordPairs data) := by
  match data, h, h0 with
  | [_], h, _ => simp at h
  | a :: b :: r, h, _ =>
    have hr : r.length % 2 = 0 := by simp at h; omega
    exact ⟨_, nextIter_pair [] r a b rfl, Shows_memory_from [] a b r rfl hr⟩

/-! ### Counter mode -/

theorem counter_succ {k : Nat} (iv : BitVec k) (n : Nat) :
    counter iv (n + 1) = counter iv n + 1 := by
  simp only [counter]
  rw [BitVec.add_assoc]
  congr 1
  apply BitVec.eq_of_toNat_eq
  simp

theorem HasValue.incremented {m : Machine} {b : Blk} {x : Spec.Kuz.Block} (h : HasValue m b x) :
    HasValue m (.incremented b) (x + 1) := by
  obtain ⟨v, hv, rfl⟩ := h
  exact ⟨incValue v, by simp [Blk.value, hv], incValue_eq v⟩

/-- Counter mode from block number `n` on. -/
def ctrFrom (E : BitVec 128 → BitVec 128) (iv : BitVec 64) (n : Nat) :
    List (BitVec 128) → List (BitVec 128)
  | [] => []
  | p :: ps => (p ^^^ E (counter iv n)) :: ctrFrom E iv (n + 1) ps

theorem ctr_eq_from (E : BitVec 128 → BitVec 128) (iv : BitVec 64) (ps : List (BitVec 128)) :
    ctr (k := 64) E iv ps = ctrFrom E iv 0 ps := by
  have : ∀ n (ps : List (BitVec 128)), ps.mapIdx (fun i x => x ^^^ E (counter iv (i + n))) =
      ctrFrom E iv n ps := by
    intro n ps
    induction ps generalizing n with
    | nil => rfl
    | cons p ps ih =>
      rw [List.mapIdx_cons, ctrFrom, Nat.zero_add, ← ih (n + 1)]
      simp only [Nat.add_assoc, Nat.add_comm 1 n]
  exact this 0 ps

theorem ctr_value {m : Machine} {key : Key} {K : BitVec 256} (hk : Encrypts m key K)
    {it : IterImpl ι} {i : ι} {v : W64 × W64} (hv : it.value i = .ok v) {c : Blk}
    {x : Spec.Kuz.Block} (hc : HasValue m c x) :
    ∃ r, (ItCTR.impl m it).value ⟨some i, key, c⟩ = .ok r ∧
      join64 r = join64 v ^^^ Spec.Kuz.enc K x := by
  obtain ⟨g, hg, hx⟩ := hk.has hc
  refine ⟨(v.1 ^^^ g.1, v.2 ^^^ g.2), ?_, ?_⟩
  · simp only [ItCTR.impl, deref, hv, Exec.ok_bind]
    rw [hg]; rfl
  · rw [← hx]
    obtain ⟨v1, v2⟩ := v
    obtain ⟨g1, g2⟩ := g
    exact BitVec.xor_append.symm

theorem Shows_ctr_from {m : Machine} {key : Key} {K : BitVec 256} (hk : Encrypts m key K)
    {it : IterImpl ι} {n : Nat} (iv : BitVec 64) (p : List (W64 × W64)) {i : ι}
    (hs : Shows it n i p) (j : Nat) {c : Blk} (hc : HasValue m c (counter iv j)) :
    ∃ cs, Shows (ItCTR.impl m it) n ⟨some i, key, c⟩ cs ∧
      cs.map join64 = ctrFrom (Spec.Kuz.enc K) iv j (p.map join64) := by
  induction p generalizing i j c with
  | nil => exact hs.elim
  | cons v r ih =>
    cases r with
    | nil =>
      obtain ⟨h1, h2, h3⟩ := hs
      obtain ⟨x, hx, hj⟩ := ctr_value hk h1 hc
      exact ⟨[x], ⟨hx, h2, h3⟩, by simp [ctrFrom, hj]⟩
    | cons w r =>
      obtain ⟨h1, h2, h3, i', h4, h5⟩ := hs
      obtain ⟨x, hx, hj⟩ := ctr_value hk h1 hc
      obtain ⟨cs, hcs, hm⟩ := ih h5 (j + 1) (c := .incremented c)
        (by rw [counter_succ]; exact hc.incremented)
      match cs, hcs with
      | y :: cs, hcs =>
        refine ⟨x :: y :: cs, ⟨hx, h2, h3, ⟨some i', key, .incremented c⟩, ?_, hcs⟩, ?_⟩
        · simp only [ItCTR.impl, deref, h4, Exec.ok_bind]; rfl
        · rw [List.map_cons, hm, hj]; rfl

theorem Shows_ctr {m : Machine} {key : Key} {K : BitVec 256} (hk : Encrypts m key K)
    {it : IterImpl ι} {n : Nat} (iv : BitVec 64) (p : List (W64 × W64)) {i : ι}
    (hs : Shows it n i p) :
    ∃ j cs, StCTREncrypted.iter (.ok (some i)) key iv = .ok (some j) ∧
      Shows (ItCTR.impl m it) n j cs ∧
      cs.map join64 = ctr (k := 64) (Spec.Kuz.enc K) iv (p.map join64) := by
  obtain ⟨cs, h1, h2⟩ := Shows_ctr_from hk iv p hs 0 (c := .raw 0 iv) (by
    have : counter iv 0 = iv ++ (0 : BitVec 64) := by simp [counter]
    rw [this]; exact HasValue.raw m 0 iv)
  exact ⟨_, cs, rfl, h1, by rw [ctr_eq_from]; exact h2⟩

theorem ctr_involution (E : BitVec 128 → BitVec 128) (iv : BitVec 64) (p : List (BitVec 128)) :
    ctr (k := 64) E iv (ctr (k := 64) E iv p) = p := by
  rw [ctr_eq_from, ctr_eq_from]
  have : ∀ n (p : List (BitVec 128)), ctrFrom E iv n (ctrFrom E iv n p) = p := by
    intro n p
    induction p generalizing n with
    | nil => rfl
    | cons x p ih => simp only [ctrFrom, ih, BitVec.xor_assoc, BitVec.xor_self, BitVec.xor_zero]
  exact this 0 p

theorem ctr_getElem? (E : BitVec 128 → BitVec 128) (iv : BitVec 64) (p : List (BitVec 128)) (i : Nat) :
    (ctr (k := 64) E iv p)[i]? = p[i]?.map fun x => x ^^^ E (counter iv i) := by
  simp [ctr, List.getElem?_mapIdx]

theorem counter_toNat (iv : BitVec 64) (i : Nat) :
    (counter iv i).toNat = (iv.toNat * 2 ^ 64 + i) % 2 ^ 128 := by
  simp only [counter]
  rw [BitVec.toNat_add, BitVec.toNat_append, ← Nat.shiftLeft_add_eq_or_of_lt (BitVec.isLt _),
    Nat.shiftLeft_eq]
  simp

/-! ### The MAC -/

theorem Shows.split {it : IterImpl ι} {n : Nat} {i : ι} {p : List (W64 × W64)} (h : Shows it n i p) :
    ∃ q v, p = q ++ [v] := by
  rcases List.eq_nil_or_concat p with rfl | ⟨q, v, rfl⟩
  · exact h.elim
  · exact ⟨q, v, by simp⟩

theorem transform_depth (b : Blk) (n : Nat) : (BlkL.transform b n).depth = b.depth + n := by
  induction n generalizing b with
  | zero => rfl
  | succ n ih =>
    rw [BlkL.transform, ih]
    simp only [Blk.depth]
    omega

theorem step_depth (b k : Blk) : (Key.encryptStep b k).depth = max b.depth k.depth + 18 := by
  simp only [Key.encryptStep, BlkL, transform_depth, Blk.depth]

theorem depth_pos (b : Blk) : 1 ≤ b.depth := by
  cases b <;> simp [Blk.depth]

theorem step_depth_le {b k : Blk} {D n : Nat} (hb : b.depth ≤ D + n) (hk : k.depth ≤ D) :
    (Key.encryptStep b k).depth ≤ D + (n + 18) := by
  rw [step_depth]; omega

theorem step_depth_ge (b k : Blk) {n : Nat} (hb : n ≤ b.depth) :
    n + 18 ≤ (Key.encryptStep b k).depth := by
  rw [step_depth]; omega

theorem encrypted_depth (b : Blk) (key : Key) :
    b.depth + 163 ≤ (BlkEncrypted b key).depth ∧
      (BlkEncrypted b key).depth ≤ max b.depth (keyDepth key) + 163 := by
  constructor
  · have := step_depth_ge _ key.k9 (step_depth_ge _ key.k8 (step_depth_ge _ key.k7
      (step_depth_ge _ key.k6 (step_depth_ge _ key.k5 (step_depth_ge _ key.k4
      (step_depth_ge _ key.k3 (step_depth_ge _ key.k2 (step_depth_ge b key.k1
        (Nat.le_refl _)))))))))
    simp only [BlkEncrypted, Key.encrypt, Blk.depth]
    omega
  · have hk : key.k1.depth ≤ keyDepth key ∧ key.k2.depth ≤ keyDepth key ∧
        key.k3.depth ≤ keyDepth key ∧ key.k4.depth ≤ keyDepth key ∧ key.k5.depth ≤ keyDepth key ∧
        key.k6.depth ≤ keyDepth key ∧ key.k7.depth ≤ keyDepth key ∧ key.k8.depth ≤ keyDepth key ∧
        key.k9.depth ≤ keyDepth key ∧ key.k10.depth ≤ keyDepth key := by
      have r : ∀ {a b c : Nat}, a ≤ b → a ≤ max c b := by intro a b c h; omega
      refine ⟨?_, ?_, ?_, ?_, ?_, ?_, ?_, ?_, ?_, ?_⟩
      · exact Nat.le_max_left _ _
      · exact r (Nat.le_max_left _ _)
      · exact r (r (Nat.le_max_left _ _))
      · exact r (r (r (Nat.le_max_left _ _)))
      · exact r (r (r (r (Nat.le_max_left _ _))))
      · exact r (r (r (r (r (Nat.le_max_left _ _)))))
      · exact r (r (r (r (r (r (Nat.le_max_left _ _))))))
      · exact r (r (r (r (r (r (r (Nat.le_max_left _ _)))))))
      · exact r (r (r (r (r (r (r (r (Nat.le_max_left _ _))))))))
      · exact r (r (r (r (r (r (r (r (Nat.le_max_right _ _))))))))
    obtain ⟨h1, h2, h3, h4, h5, h6, h7, h8, h9, h10⟩ := hk
    have le : ∀ {x : Nat}, x ≤ keyDepth key → x ≤ max b.depth (keyDepth key) := by
      intro x hx; omega
    have := step_depth_le (step_depth_le (step_depth_le (step_depth_le (step_depth_le
      (step_depth_le (step_depth_le (step_depth_le (step_depth_le (b := b)
        (D := max b.depth (keyDepth key)) (n := 0) (by omega) (le h1)) (le h2)) (le h3)) (le h4))
        (le h5)) (le h6)) (le h7)) (le h8)) (le h9)
    simp only [BlkEncrypted, Key.encrypt, Blk.depth]
    omega

theorem Kuz.Imit_loop_eq {m : Machine} {key : Key} {K : BitVec 256} (hk : Encrypts m key K)
    {it : IterImpl ι} {n : Nat} (p : List (W64 × W64)) (v : W64 × W64) {i : ι}
    (hs : Shows it n i (p ++ [v])) (fuel : Nat) (hf : p.length < fuel) {block : Blk}
    {c : Spec.Kuz.Block} (hb : HasValue m block c) :
    ∃ block' j, Imit.loop it key fuel (some i) block = .ok (block', some j) ∧
      HasValue m block' (chain (Spec.Kuz.enc K) c (p.map join64)) ∧
      it.value j = .ok v ∧ it.size j = .ok n ∧ block.depth + 164 * p.length ≤ block'.depth ∧
      block'.depth ≤ max block.depth (keyDepth key) + 164 * p.length := by
  induction p generalizing i fuel block c with
  | nil =>
    match fuel, hf with
    | fuel + 1, _ =>
      obtain ⟨h1, h2, h3⟩ := hs
      refine ⟨block, i, ?_, hb, h1, h3, by simp, by simp; omega⟩
      simp [Imit.loop, deref, h2]
  | cons x p ih =>
    match fuel, hf with
    | fuel + 1, hf =>
      obtain ⟨h1, h2, i', h4, h5⟩ : it.value i = .ok x ∧ it.last i = .ok false ∧
          ∃ j, it.next i = .ok (some j) ∧ Shows it n j (p ++ [v]) := by
        cases p with
        | nil => exact ⟨hs.1, hs.2.1, hs.2.2.2⟩
        | cons y p => exact ⟨hs.1, hs.2.1, hs.2.2.2⟩
      have hb' : HasValue m (BlkEncrypted (.xored block (BlkRaw.ofPair x)) key)
          (Spec.Kuz.enc K (c ^^^ join64 x)) := hk.has (hb.xored (HasValue.raw m x.1 x.2))
      obtain ⟨block', j, e1, e2, e3, e4, e5, e6⟩ := ih h5 fuel (by simp at hf; omega) hb'
      have hd := encrypted_depth (.xored block (BlkRaw.ofPair x)) key
      simp only [Blk.depth, BlkRaw.ofPair] at hd
      have hp := depth_pos block
      simp only [BlkRaw.ofPair] at e5 e6
      refine ⟨block', j, ?_, ?_, e3, e4, ?_, ?_⟩
      · simp only [Imit.loop, deref, h2, h1, h4, Exec.ok_bind, Bool.not_false, if_true]
        exact e1
      · rw [List.map_cons, chain_cons, BitVec.xor_comm]
        exact e2
      · simp only [List.length_cons]; omega
      · simp only [List.length_cons]; omega

theorem HasValue.double {m : Machine} {a : Blk} {x : Spec.Kuz.Block} (h : HasValue m a x) :
    HasValue m (.xoredIfHighBit a (BlkRaw.ofU64 0x87)) (double 0x87 x) := by
  obtain ⟨v, hv, rfl⟩ := h
  obtain ⟨s, hs, hj⟩ := shiftValue_eq v 1 (by omega) (by omega)
  have hmsb : (join64 v).msb = !decide (v.2 &&& 0x8000000000000000 = 0) := by
    obtain ⟨lo, hi⟩ := v
    simp only [join64]
    rw [BitVec.msb_append]
    have : ∀ hi : BitVec 64, hi.msb = !decide (hi &&& 0x8000000000000000 = 0) := by
      intro hi
      rw [BitVec.msb_eq_getLsbD_last]
      by_cases hz : hi.getLsbD 63
      · have : ¬ (hi &&& 0x8000000000000000 = 0) := by
          intro e
          have := congrArg (fun b => b.getLsbD 63) e
          simp only [BitVec.getLsbD_and] at this
          rw [hz] at this
          revert this; decide
        rw [hz, decide_eq_false this]; rfl
      · have : hi &&& 0x8000000000000000 = 0 := by
          apply BitVec.eq_of_getLsbD_eq
          intro i hi'
          rw [BitVec.getLsbD_and]
          by_cases e : i = 63
          · subst e; simp at hz; simp [hz]
          · have : (0x8000000000000000 : BitVec 64).getLsbD i = false := by
              have : ∀ i : Fin 64, i.val ≠ 63 → (0x8000000000000000 : BitVec 64).getLsbD i.val = false := by
                decide
              exact this ⟨i, hi'⟩ e
            rw [this]; simp
        rw [decide_eq_true this]
        simp only [Bool.not_eq_true] at hz
        exact hz
    simpa using this hi
  by_cases hz : v.2 &&& 0x8000000000000000 = 0
  · refine ⟨s, ?_, ?_⟩
    · simp only [Blk.value, hv, Exec.ok_bind]
      rw [if_pos hz]
      exact hs
    · rw [Modes.double, hmsb, hj]
      simp only [hz, decide_true, Bool.not_true, Bool.false_eq_true, if_false]
  · refine ⟨(s.1 ^^^ 0x87, s.2 ^^^ 0), ?_, ?_⟩
    · simp only [Blk.value, hv, Exec.ok_bind]
      rw [if_neg hz]
      have hs' : shiftValue v 1 = .ok s := hs
      rw [hs']
      rfl
    · rw [Modes.double, hmsb, ← hj]
      simp only [hz, decide_false, Bool.not_false, if_true]
      exact (BitVec.xor_append (x₁ := s.2) (x₂ := 0) (y₁ := s.1) (y₂ := 0x87)).symm

/-- The block that `Imit::value` evaluates, its value and its depth. -/
theorem Kuz.Imit_build_eq {m : Machine} {key : Key} {K : BitVec 256} (hk : Encrypts m key K)
    {it : IterImpl ι} {n : Nat} (p : List (W64 × W64)) (v : W64 × W64) {i : ι}
    (hs : Shows it n i (p ++ [v])) (fuel : Nat) (hf : p.length < fuel) :
    ∃ b, Imit.build it (.ok (some i)) fuel key = .ok b ∧
      HasValue m b (omac (Spec.Kuz.enc K) (if n = 16 then macK1 (Spec.Kuz.enc K) 0x87
        else macK2 (Spec.Kuz.enc K) 0x87) (p.map join64) (join64 v)) ∧
      164 * (p.length + 1) ≤ b.depth ∧ b.depth ≤ keyDepth key + 164 * (p.length + 1) + 170 := by
  have h0 : HasValue m BlkRaw.zero 0 := HasValue.raw m 0 0
  obtain ⟨block, j, e1, e2, e3, e4, e5, e6⟩ := Kuz.Imit_loop_eq hk p v hs fuel hf h0
  have k1 : HasValue m (.xoredIfHighBit (BlkEncrypted BlkRaw.zero key) (BlkRaw.ofU64 0x87))
      (macK1 (Spec.Kuz.enc K) 0x87) := (hk.has h0).double
  have k2 : HasValue m (.xoredIfHighBit (.xoredIfHighBit (BlkEncrypted BlkRaw.zero key)
      (BlkRaw.ofU64 0x87)) (BlkRaw.ofU64 0x87)) (macK2 (Spec.Kuz.enc K) 0x87) := k1.double
  have x := e2.xored (HasValue.raw m v.1 v.2)
  have d0 := encrypted_depth BlkRaw.zero key
  simp only [BlkRaw.zero, BlkRaw.ofU64, Blk.depth] at d0 e5 e6
  have hz : (BlkEncrypted BlkRaw.zero key).depth = (BlkEncrypted (.raw 0 0) key).depth := rfl
  by_cases hn : n = 16
  · refine ⟨BlkEncrypted (.xored (.xored block (BlkRaw.ofPair v)) (.xoredIfHighBit
      (BlkEncrypted BlkRaw.zero key) (BlkRaw.ofU64 0x87))) key, ?_, ?_, ?_⟩
    · simp only [Imit.build, Exec.ok_bind, e1, deref, e3, e4]
      rw [if_pos hn]
      rfl
    · rw [if_pos hn, omac, BitVec.xor_comm (join64 v)]
      exact hk.has (x.xored k1)
    · have := encrypted_depth (.xored (.xored block (BlkRaw.ofPair v)) (.xoredIfHighBit
        (BlkEncrypted BlkRaw.zero key) (BlkRaw.ofU64 0x87))) key
      simp only [Blk.depth, BlkRaw.ofPair, BlkRaw.ofU64, hz] at this ⊢
      omega
  · refine ⟨BlkEncrypted (.xored (.xored block (BlkRaw.ofPair v)) (.xoredIfHighBit (.xoredIfHighBit
      (BlkEncrypted BlkRaw.zero key) (BlkRaw.ofU64 0x87)) (BlkRaw.ofU64 0x87))) key, ?_, ?_, ?_⟩
    · simp only [Imit.build, Exec.ok_bind, e1, deref, e3, e4]
      rw [if_neg hn]
      rfl
    · rw [if_neg hn, omac, BitVec.xor_comm (join64 v)]
      exact hk.has (x.xored k2)
    · have := encrypted_depth (.xored (.xored block (BlkRaw.ofPair v)) (.xoredIfHighBit
        (.xoredIfHighBit (BlkEncrypted BlkRaw.zero key) (BlkRaw.ofU64 0x87)) (BlkRaw.ofU64 0x87))) key
      simp only [Blk.depth, BlkRaw.ofPair, BlkRaw.ofU64, hz] at this ⊢
      omega

theorem Shows_advance {it : IterImpl ι} {s n : Nat} {p : List (W64 × W64)} {i : ι}
    (h : Shows it s i p) (hn : n < p.length) :
    ∃ j, advance it n i = .ok (some j) ∧ Shows it s j (p.drop n) := by
  induction n generalizing i p with
  | zero => exact ⟨i, rfl, h⟩
  | succ n ih =>
    match p, h, hn with
    | [_], _, hn => simp at hn
    | v :: w :: r, h, hn =>
      obtain ⟨-, -, -, i', h4, h5⟩ := h
      obtain ⟨j, e, hj⟩ := ih h5 (by simp at hn ⊢; omega)
      exact ⟨j, by simp only [advance, h4, Exec.ok_bind]; exact e, hj⟩

theorem Shows_here {it : IterImpl ι} {s : Nat} {p : List (W64 × W64)} {i : ι} (h : Shows it s i p) :
    ∃ v r, p = v :: r ∧ it.value i = .ok v ∧ it.last i = .ok (decide (r = [])) ∧
      it.size i = .ok (if r = [] then s else 16) := by
  match p, h with
  | [v], h => exact ⟨v, [], rfl, h.1, by simpa using h.2.1, by simpa using h.2.2⟩
  | v :: w :: r, h => exact ⟨v, w :: r, rfl, h.1, by simpa using h.2.1, by simpa using h.2.2.1⟩

theorem wordPairs_getElem? (data : List W64) (i : Nat) {v : W64 × W64}
    (h : (wordPairs data)[i]? = some v) :
    data[2 * i]? = some v.1 ∧ data[2 * i + 1]? = some v.2 := by
  match data, i, h with
  | [], _, h => simp [wordPairs] at h
  | [_], _, h => simp [wordPairs] at h
  | a :: b :: r, 0, h =>
    simp [wordPairs] at h
    subst h
    exact ⟨rfl, rfl⟩
  | a :: b :: r, i + 1, h =>
    simp only [wordPairs, List.getElem?_cons_succ] at h
    have := wordPairs_getElem? r i h
    rw [show 2 * (i + 1) = 2 * i + 1 + 1 by omega]
    exact ⟨by simpa using this.1, by simpa using this.2⟩
termination_by data.length

/-- The counter block of the iterator `n` positions further is nested `n` levels deeper. -/
theorem ctr_advance {m : Machine} {it : IterImpl ι} {s n : Nat} {p : List (W64 × W64)} {i : ι}
    (h : Shows it s i p) (hn : n < p.length) (key : Key) (c : Blk) :
    ∃ j, advance it n i = .ok (some j) ∧
      advance (ItCTR.impl m it) n ⟨some i, key, c⟩ =
        .ok (some ⟨some j, key, Nat.repeat Blk.incremented n c⟩) := by
  induction n generalizing i p c with
  | zero => exact ⟨i, rfl, rfl⟩
  | succ n ih =>
    match p, h, hn with
    | [_], _, hn => simp at hn
    | v :: w :: r, h, hn =>
      obtain ⟨-, -, -, i', h4, h5⟩ := h
      obtain ⟨j, e, e'⟩ := ih h5 (by simp at hn ⊢; omega) (.incremented c)
      refine ⟨j, by simp only [advance, h4, Exec.ok_bind]; exact e, ?_⟩
      have : Nat.repeat Blk.incremented (n + 1) c = Nat.repeat Blk.incremented n (.incremented c) :=
        (repeat_comm Blk.incremented n c).symm
      rw [this, ← e']
      simp only [advance, ItCTR.impl, deref, h4, Exec.ok_bind]
      rfl

theorem repeat_incremented_depth (c : Blk) (n : Nat) :
    (Nat.repeat Blk.incremented n c).depth = c.depth + n := by
  induction n with
  | zero => rfl
  | succ n ih => simp only [Nat.repeat, Blk.depth, ih]; omega

/-! ### Lifetimes -/

theorem nextIter_safe (data : List W64) (hd : data.length % 2 = 0) (off : Nat) (ho : off % 16 = 0) :
    StMemory.nextIter data off = .ok none ∨
      ∃ v, v ∈ wordPairs data ∧ StMemory.nextIter data off = .ok (some ⟨off, v⟩) := by
  rcases Nat.lt_or_ge (off / 8) data.length with h | h
  · right
    have e : data = data.take (off / 8) ++ data.drop (off / 8) := (List.take_append_drop _ _).symm
    have hl : (data.take (off / 8)).length = off / 8 := by simp; omega
    have hl2 : (data.drop (off / 8)).length = data.length - off / 8 := by simp
    match hdr : data.drop (off / 8) with
    | [] => rw [hdr] at hl2; simp at hl2; omega
    | [_] => rw [hdr] at hl2; simp at hl2; omega
    | a :: b :: r =>
      rw [hdr] at e
      refine ⟨(a, b), ?_, ?_⟩
      · rw [e, wordPairs_append (by omega)]
        simp [wordPairs]
      · have := nextIter_pair (data.take (off / 8)) r a b (by omega)
        rw [← e, hl, show 8 * (off / 8) = off by omega] at this
        exact this
  · left
    simp [StMemory.nextIter, h]

theorem Session_step_safe (data : List W64) (hd : data.length % 2 = 0) (op : SessionOp) (s : Session)
    (ho : 0 < s.owners) (hi : ∀ i ∈ s.iters, i.offset % 16 = 0 ∧ i.data ∈ wordPairs data) :
    ∃ s', s.step data op = .ok s' ∧
      (∀ i ∈ s'.iters, i.offset % 16 = 0 ∧ i.data ∈ wordPairs data) ∧
      s'.owners = match op with
        | .copy => s.owners + 1
        | .drop => s.owners - 1
        | _ => s.owners := by
  have hne : s.owners ≠ 0 := by omega
  have hb : (s.owners != 0) = true := by simp [hne]
  cases op with
  | copy => exact ⟨_, rfl, by simpa [hne] using hi, by simp [hne]⟩
  | drop => exact ⟨_, rfl, by simpa using hi, rfl⟩
  | iter =>
    simp only [Session.step, hne, if_false, StMemory.iter]
    rcases nextIter_safe data hd 0 rfl with h | ⟨v, hv, h⟩
    · exact ⟨{ s with iters := s.iters ++ [] }, by rw [h]; rfl, by simpa using hi, rfl⟩
    · refine ⟨{ s with iters := s.iters ++ [⟨0, v⟩] }, by rw [h]; rfl, ?_, rfl⟩
      intro i
      simp only [List.mem_append, List.mem_singleton]
      rintro (h' | rfl)
      · exact hi i h'
      · exact ⟨rfl, hv⟩
  | next k =>
    cases hk : s.iters[k]? with
    | none => exact ⟨s, by simp [Session.step, hk], hi, rfl⟩
    | some i =>
      have hm := hi i (List.mem_of_getElem? hk)
      simp only [Session.step, hk, hb, ItMemory.impl, ItMemory.next, if_true]
      rcases nextIter_safe data hd (i.offset + 16) (by omega) with h | ⟨v, hv, h⟩
      · exact ⟨{ s with iters := s.iters ++ [] }, by rw [h]; rfl, by simpa using hi, rfl⟩
      · refine ⟨{ s with iters := s.iters ++ [⟨i.offset + 16, v⟩] }, by rw [h]; rfl, ?_, rfl⟩
        intro j
        simp only [List.mem_append, List.mem_singleton]
        rintro (h' | rfl)
        · exact hi j h'
        · exact ⟨by simp only; omega, hv⟩
  | last k =>
    cases hk : s.iters[k]? with
    | none => exact ⟨s, by simp [Session.step, hk], hi, rfl⟩
    | some i =>
      have hm := hi i (List.mem_of_getElem? hk)
      simp only [Session.step, hk, hb, ItMemory.impl, ItMemory.next, if_true]
      rcases nextIter_safe data hd (i.offset + 16) (by omega) with h | ⟨v, hv, h⟩
      · exact ⟨s, by rw [h]; rfl, hi, rfl⟩
      · exact ⟨s, by rw [h]; rfl, hi, rfl⟩
  | value k =>
    cases hk : s.iters[k]? with
    | none => exact ⟨s, by simp [Session.step, hk], hi, rfl⟩
    | some i => exact ⟨s, by simp [Session.step, hk, ItMemory.impl], hi, rfl⟩

theorem Session_run_safe (data : List W64) (hd : data.length % 2 = 0) (ops : List SessionOp) :
    ∀ s : Session, AlwaysOwned s.owners ops →
      (∀ i ∈ s.iters, i.offset % 16 = 0 ∧ i.data ∈ wordPairs data) →
      ∃ s', Session.run data s ops = .ok s' ∧
        ∀ i ∈ s'.iters, i.offset % 16 = 0 ∧ i.data ∈ wordPairs data := by
  induction ops with
  | nil => intro s _ hi; exact ⟨s, rfl, hi⟩
  | cons op ops ih =>
    intro s ho hi
    have hpos : 0 < s.owners := by cases op <;> exact ho.1
    obtain ⟨s', h1, h2, h3⟩ := Session_step_safe data hd op s hpos hi
    have ho' : AlwaysOwned s'.owners ops := by
      cases op <;> rw [h3] <;> exact ho.2
    obtain ⟨s'', h4, h5⟩ := ih s' ho' h2
    exact ⟨s'', by simp only [Session.run, h1, Exec.ok_bind, h4], h5⟩

theorem nextIter_block {data : List W64} {offset : Nat} (h : offset / 8 + 1 < data.length) :
    Kuz.StMemory.nextIter data offset = .ok (some ⟨offset, (data[offset / 8], data[offset / 8 + 1])⟩) := by
  simp only [Kuz.StMemory.nextIter, vget]
  rw [if_neg (by omega), List.getElem?_eq_getElem (by omega), List.getElem?_eq_getElem h]
  rfl

end Goost
