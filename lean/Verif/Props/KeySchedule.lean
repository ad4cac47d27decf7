import Verif.Props.Kuznyechik
import Verif.Spec.Vectors
import Verif.Model.Sizes
/-
Property C91: the iterated keys of kuznyechik (`BlkIterKey`).
-/
namespace Goost.Props
open Goost.Kuz Spec Spec.Kuz

/-- The iteration constant of an `int` as the code makes it: `L` of the number modulo 2⁶⁴. -/
def codeConstant (i : Int) : Block := L ((BitVec.ofInt 64 i).setWidth 128)

private theorem codeConstant_value (m : Machine) (hm : m.unalignedLoad = true) (i : Int) :
    HasValue m (BlkL (BlkRaw.ofU64 (BitVec.ofInt 64 i))) (codeConstant i) := by
  refine HasValue.blkL hm ⟨_, rfl, ?_⟩
  apply BitVec.eq_of_toNat_eq
  rw [join64, toNat_append]
  simp
  omega

private theorem iterated (m : Machine) (hm : m.unalignedLoad = true) (n : Nat) :
    ∀ (c1 : Int) (a b : Blk) (x : Block × Block), HasValue m b x.1 → HasValue m a x.2 →
      HasValue m (BlkIterKey.generate (c1 + n - 1) a b c1)
        ((List.range n).foldl (fun x (j : Nat) => F (codeConstant (c1 + j)) x) x).1 := by
  induction n with
  | zero =>
    intro c1 a b x hb ha
    unfold BlkIterKey.generate
    rw [if_pos (by omega)]
    exact hb
  | succ n ih =>
    intro c1 a b x hb ha
    unfold BlkIterKey.generate
    rw [if_neg (by omega)]
    have hc := codeConstant_value m hm c1
    have hx := HasValue.xored ha (HasValue.blkL hm (HasValue.blkS (HasValue.xored hb hc)))
    have e : x.2 ^^^ L (S (x.1 ^^^ codeConstant c1)) = (F (codeConstant c1) x).1 := by
      simp only [F, LSX, X]
      rw [BitVec.xor_comm x.2, BitVec.xor_comm x.1]
    rw [e] at hx
    have := ih (c1 + 1) _ _ (F (codeConstant c1) x) hx hb
    rw [show c1 + 1 + (n : Int) - 1 = c1 + ((n + 1 : Nat) : Int) - 1 by omega] at this
    rw [List.range_succ_eq_map, List.foldl_cons, List.foldl_map]
    have e' : (fun (x : Block × Block) (j : Nat) => F (codeConstant (c1 + (Nat.succ j : Nat))) x) =
        fun x (j : Nat) => F (codeConstant (c1 + 1 + j)) x := by
      funext x j
      rw [show c1 + ((Nat.succ j : Nat) : Int) = c1 + 1 + j by omega]
    rw [e', show c1 + ((0 : Nat) : Int) = c1 by omega]
    exact this

/-- C91. For two blocks and any numbers, `BlkIterKey(ka, kb, c1, c2)` is the first block after the
transformations `F` of the standard with the constants numbered `c1, …, c2` in this order, beginning from
`(ka, kb)`. -/
theorem C91_iterated (m : Machine) (hm : m.unalignedLoad = true) (ka kb : Blk) (a b : W64 × W64)
    (ha : ka.value m = .ok a) (hb : kb.value m = .ok b) (c1 c2 : Int) :
    ∃ r, (BlkIterKey ka kb c1 c2).value m = .ok r ∧
      join64 r = ((List.range (c2 + 1 - c1).toNat).foldl (fun x (j : Nat) => F (codeConstant (c1 + j)) x)
        (join64 a, join64 b)).1 := by
  by_cases h : c1 ≤ c2
  · have := iterated m hm (c2 + 1 - c1).toNat c1 kb ka (join64 a, join64 b) ⟨a, ha, rfl⟩ ⟨b, hb, rfl⟩
    rw [show c1 + ((c2 + 1 - c1).toNat : Int) - 1 = c2 by omega] at this
    exact this
  · rw [show (c2 + 1 - c1).toNat = 0 by omega]
    refine ⟨a, ?_, rfl⟩
    unfold BlkIterKey BlkIterKey.generate
    rw [if_pos (by omega)]
    exact ha

example (m : Machine) (hm : m.unalignedLoad = true) := C91_iterated m hm (.raw 1 2) (.raw 3 4) _ _ rfl rfl (-3) 5

/-- C91 with the numbers as `int`s of `w` bits: everything is as with unlimited integers, unless the range contains the largest
`int`; then the number after it is asked for, which is undefined. -/
theorem C91_int (m : Machine) (w : Nat) (ka kb : Blk) (c1 c2 : Int) (h2 : c2 < 2 ^ (w - 1)) :
    BlkIterKey.valueInt m w ka kb c1 c2 =
      if c1 ≤ c2 ∧ c2 = 2 ^ (w - 1) - 1 then .ub .overflow else (BlkIterKey ka kb c1 c2).value m := by
  suffices H : ∀ (n : Nat) (c1 : Int) (a b : Blk), c2 + 1 - c1 ≤ n →
      BlkIterKey.generateInt w c2 a b c1 =
        if c1 ≤ c2 ∧ c2 = 2 ^ (w - 1) - 1 then .ub .overflow else .ok (BlkIterKey.generate c2 a b c1) by
    unfold BlkIterKey.valueInt BlkIterKey
    rw [H (c2 + 1 - c1).toNat c1 kb ka (by omega)]
    split <;> rfl
  intro n
  induction n with
  | zero =>
    intro c1 a b h
    unfold BlkIterKey.generateInt BlkIterKey.generate
    rw [if_pos (by omega), if_neg (by omega), if_pos (by omega)]
  | succ n ih =>
    intro c1 a b h
    unfold BlkIterKey.generateInt BlkIterKey.generate
    by_cases h1 : c1 > c2
    · rw [if_pos h1, if_neg (by omega), if_pos h1]
    · rw [if_neg h1, if_neg h1]
      by_cases h3 : c1 + 1 ≥ 2 ^ (w - 1)
      · rw [if_pos h3, if_pos (by omega)]
      · rw [if_neg h3]
        simp only
        rw [ih (c1 + 1) _ _ (by omega)]
        by_cases h4 : c2 = 2 ^ (w - 1) - 1
        · rw [if_pos ⟨by omega, h4⟩, if_pos ⟨by omega, h4⟩]
        · rw [if_neg (fun h => h4 h.2), if_neg (fun h => h4 h.2)]

/-- The ranges of the key schedule, with `int`s of 16 bits or more. -/
example (m : Machine) (ka kb : Blk) :
    BlkIterKey.valueInt m 16 ka kb 25 32 = (BlkIterKey ka kb 25 32).value m ∧
    BlkIterKey.valueInt m 32 ka kb 1 2147483647 = .ub .overflow :=
  ⟨by rw [C91_int _ _ _ _ _ _ (by decide), if_neg (by decide)],
   by rw [C91_int _ _ _ _ _ _ (by decide), if_pos (by decide)]⟩

/-- C91: for the numbers that are not negative the constants are those of the standard. -/
theorem C91_constants (i : Nat) (h : i < 2 ^ 64) : codeConstant i = C i := by
  unfold codeConstant C
  congr 1
  apply BitVec.eq_of_toNat_eq
  simp
  omega

example := C91_constants 32 (by decide)

/-- C91: with no numbers in the range the block is `ka`, whatever it does, and `kb` is not used. -/
theorem C91_empty_range (m : Machine) (ka kb : Blk) (c1 c2 : Int) (h : c2 < c1) :
    (BlkIterKey ka kb c1 c2).value m = ka.value m := by
  unfold BlkIterKey BlkIterKey.generate
  rw [if_pos (by omega)]

example (m : Machine) := C91_empty_range m (.raw 1 2) (.raw 3 4) 5 4 (by decide)

/-- C91: the ten blocks made from the two halves of a key as `Key` and the test of `BlkIterKey` make
them, are the round keys of the standard, in order. -/
theorem C91_round_keys (m : Machine) (hm : m.unalignedLoad = true) (high low : Blk) (h l : W64 × W64)
    (hh : high.value m = .ok h) (hl : low.value m = .ok l) (base : Nat) :
    let key := Key.ofBlocks high low base
    ∃ vs : List (W64 × W64),
      [key.k1, key.k2, key.k3, key.k4, key.k5, key.k6, key.k7, key.k8, key.k9, key.k10].map
        (fun k => k.value m) = vs.map .ok ∧
      vs.map join64 = roundKeys (join64 h ++ join64 l) := by
  intro key
  obtain ⟨⟨v1, e1, f1⟩, ⟨v2, e2, f2⟩, ⟨v3, e3, f3⟩, ⟨v4, e4, f4⟩, ⟨v5, e5, f5⟩, ⟨v6, e6, f6⟩,
    ⟨v7, e7, f7⟩, ⟨v8, e8, f8⟩, ⟨v9, e9, f9⟩, ⟨v10, e10, f10⟩⟩ :=
    ofBlocks_values hm (x := join64 h) (y := join64 l) ⟨h, hh, rfl⟩ ⟨l, hl, rfl⟩ base
  refine ⟨[v1, v2, v3, v4, v5, v6, v7, v8, v9, v10], ?_, ?_⟩
  · simp only [List.map_cons, List.map_nil, key, e1, e2, e3, e4, e5, e6, e7, e8, e9, e10]
  · simp only [List.map_cons, List.map_nil, f1, f2, f3, f4, f5, f6, f7, f8, f9, f10]
    rfl

private theorem F_inj {k : Block} {x y : Block × Block} (h : F k x = F k y) : x = y := by
  obtain ⟨a, b⟩ := x
  obtain ⟨c, d⟩ := y
  simp only [F, Prod.mk.injEq] at h
  obtain ⟨h1, h2⟩ := h
  subst h2
  have := congrArg (LSX k a ^^^ ·) h1
  simp only [← BitVec.xor_assoc, BitVec.xor_self, BitVec.zero_xor] at this
  rw [this]

private theorem fold_inj (f : Nat → Block) (l : List Nat) : ∀ x y : Block × Block,
    l.foldl (fun x j => F (f j) x) x = l.foldl (fun x j => F (f j) x) y → x = y := by
  induction l with
  | nil => intro x y h; exact h
  | cons j l ih => intro x y h; exact F_inj (ih _ _ h)

private theorem pair_inj (i : Nat) (K K' : BitVec 256) (h : keyPair K i = keyPair K' i) : K = K' := by
  induction i with
  | zero =>
    simp only [keyPair, Prod.mk.injEq] at h
    apply BitVec.eq_of_getLsbD_eq
    intro j hj
    by_cases c : j < 128
    · have := congrArg (·.getLsbD j) h.2
      simpa [c] using this
    · have := congrArg (·.getLsbD (j - 128)) h.1
      simpa [show j - 128 < 128 by omega, show 128 + (j - 128) = j by omega] using this
  | succ i ih => exact ih (fold_inj _ _ _ _ h)

/-- C91: the last two round keys determine the whole key. In particular different
keys never have the same ten round keys, and the last two are enough to decrypt. -/
theorem C91_last_keys_determine_key (m : Machine) (hm : m.unalignedLoad = true) (high low high' low' : Blk)
    (h l h' l' : W64 × W64) (e1 : high.value m = .ok h) (e2 : low.value m = .ok l)
    (e3 : high'.value m = .ok h') (e4 : low'.value m = .ok l') (base base' : Nat)
    (e9 : (Key.ofBlocks high low base).k9.value m = (Key.ofBlocks high' low' base').k9.value m)
    (e10 : (Key.ofBlocks high low base).k10.value m = (Key.ofBlocks high' low' base').k10.value m) :
    h = h' ∧ l = l' := by
  obtain ⟨-, -, -, -, -, -, -, -, ⟨v9, a9, f9⟩, ⟨v10, a10, f10⟩⟩ :=
    ofBlocks_values hm (x := join64 h) (y := join64 l) ⟨h, e1, rfl⟩ ⟨l, e2, rfl⟩ base
  obtain ⟨-, -, -, -, -, -, -, -, ⟨w9, b9, g9⟩, ⟨w10, b10, g10⟩⟩ :=
    ofBlocks_values hm (x := join64 h') (y := join64 l') ⟨h', e3, rfl⟩ ⟨l', e4, rfl⟩ base'
  rw [a9, b9] at e9
  rw [a10, b10] at e10
  injection e9 with e9
  injection e10 with e10
  subst e9 e10
  have k : keyPair (join64 h ++ join64 l) 4 = keyPair (join64 h' ++ join64 l') 4 :=
    Prod.ext (f9.symm.trans g9) (f10.symm.trans g10)
  have := pair_inj 4 _ _ k
  have p1 := congrArg (BitVec.extractLsb' 128 128) this
  have p2 := congrArg (BitVec.extractLsb' 0 128) this
  rw [extract_append_high, extract_append_high] at p1
  rw [extract_append_low, extract_append_low] at p2
  exact ⟨join64_inj p1, join64_inj p2⟩

/-- A case that meets the hypotheses, and what comes out: the keys of GOST R 34.12-2015, A.1.4. -/
example : ∃ v, (Key.ofBlocks (.raw 0x0011223344556677 0x8899aabbccddeeff)
      (.raw 0x0123456789abcdef 0xfedcba9876543210) 0).k10.value .x86 = .ok v ∧
    join64 v = 0x72e9dd7416bcf45b755dbaa88e4a4043 := by
  obtain ⟨vs, h1, h2⟩ := C91_round_keys .x86 rfl (.raw 0x0011223344556677 0x8899aabbccddeeff)
    (.raw 0x0123456789abcdef 0xfedcba9876543210) _ _ rfl rfl 0
  rw [show join64 (0x0011223344556677, 0x8899aabbccddeeff) ++
    join64 (0x0123456789abcdef, 0xfedcba9876543210) = Spec.Vectors.kuzKey from rfl,
    Spec.Vectors.kuz_round_keys] at h2
  have g1 := congrArg (·[9]?) h1
  have g2 := congrArg (·[9]?) h2
  simp only [List.getElem?_map] at g1 g2
  match hv : vs[9]?, g1, g2 with
  | some v, g1, g2 =>
    refine ⟨v, ?_, ?_⟩
    · simpa [hv] using g1
    · simpa [hv] using g2
  | none, g1, g2 => simp at g1

end Goost.Props
