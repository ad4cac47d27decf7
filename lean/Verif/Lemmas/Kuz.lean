import Verif.Lemmas.Field
import Verif.Lemmas.Blocks
/-
Kuznyechik: blocks as bytes, the transformations S, R, L, their inverses, the round keys and the
cipher.
-/
namespace Goost
open Spec Spec.Kuz

/-! ### Blocks and bytes -/

theorem lt16 {P : Nat → Prop} (h0 : P 0) (h1 : P 1) (h2 : P 2) (h3 : P 3) (h4 : P 4) (h5 : P 5)
    (h6 : P 6) (h7 : P 7) (h8 : P 8) (h9 : P 9) (h10 : P 10) (h11 : P 11) (h12 : P 12) (h13 : P 13)
    (h14 : P 14) (h15 : P 15) {i : Nat} (h : i < 16) : P i := by
  have : i = 0 ∨ i = 1 ∨ i = 2 ∨ i = 3 ∨ i = 4 ∨ i = 5 ∨ i = 6 ∨ i = 7 ∨ i = 8 ∨ i = 9 ∨ i = 10 ∨
    i = 11 ∨ i = 12 ∨ i = 13 ∨ i = 14 ∨ i = 15 := by omega
  rcases this with rfl | rfl | rfl | rfl | rfl | rfl | rfl | rfl | rfl | rfl | rfl | rfl | rfl |
    rfl | rfl | rfl <;> assumption

theorem ext_low {n k : Nat} (a : BitVec n) (b : BitVec k) {s l : Nat} (h : s + l ≤ k) :
    (a ++ b).extractLsb' s l = b.extractLsb' s l := by
  apply BitVec.eq_of_getLsbD_eq
  intro i hi
  simp only [BitVec.getLsbD_extractLsb', BitVec.getLsbD_append]
  rw [if_pos (by omega)]

theorem ext_high {n k : Nat} (a : BitVec n) (b : BitVec k) {s l : Nat} (h : k ≤ s) :
    (a ++ b).extractLsb' s l = a.extractLsb' (s - k) l := by
  apply BitVec.eq_of_getLsbD_eq
  intro i hi
  simp only [BitVec.getLsbD_extractLsb', BitVec.getLsbD_append]
  rw [if_neg (by omega), show s + i - k = s - k + i by omega]

theorem ext_self {n : Nat} (a : BitVec n) : a.extractLsb' 0 n = a := by
  apply BitVec.eq_of_getLsbD_eq
  intro i hi
  simp [hi]

theorem byte_ofBytes (f : Nat → Byte) {i : Nat} (h : i < 16) : byte (ofBytes f) i = f i := by
  apply lt16 (P := fun i => byte (ofBytes f) i = f i) (h := h) <;>
    (unfold byte ofBytes; simp (disch := omega) only [ext_low, ext_high, Nat.reduceMul, Nat.reduceSub])
  all_goals exact ext_self _

theorem block_ext {a b : Block} (h : ∀ i, i < 16 → byte a i = byte b i) : a = b := by
  apply BitVec.eq_of_getLsbD_eq
  intro n hn
  have := congrArg (fun x : Spec.Kuz.Byte => x.getLsbD (n % 8)) (h (n / 8) (by omega))
  simp only [byte, BitVec.getLsbD_extractLsb'] at this
  rw [decide_eq_true (by omega), Bool.true_and, Bool.true_and] at this
  have e : 8 * (n / 8) + n % 8 = n := by omega
  rwa [e] at this

theorem ofBytes_byte (a : Block) : ofBytes (byte a) = a :=
  block_ext fun _ hi => byte_ofBytes _ hi

theorem byte_xor (a b : Block) (i : Nat) : byte (a ^^^ b) i = byte a i ^^^ byte b i := by
  apply BitVec.eq_of_getLsbD_eq
  intro n hn
  simp [byte, hn]

theorem byte_join64 (v : W64 × W64) (i : Nat) :
    (i < 8 → byte (join64 v) i = v.1.extractLsb' (8 * i) 8) ∧
    (8 ≤ i → i < 16 → byte (join64 v) i = v.2.extractLsb' (8 * (i - 8)) 8) := by
  constructor
  · intro h
    apply BitVec.eq_of_getLsbD_eq
    intro n hn
    simp only [byte, join64, BitVec.getLsbD_extractLsb', BitVec.getLsbD_append, hn, decide_true,
      Bool.true_and]
    rw [if_pos (by omega)]
  · intro h h'
    apply BitVec.eq_of_getLsbD_eq
    intro n hn
    simp only [byte, join64, BitVec.getLsbD_extractLsb', BitVec.getLsbD_append, hn, decide_true,
      Bool.true_and]
    rw [if_neg (by omega)]
    congr 1; omega

/-- The bytes of a pair, in memory order. -/
theorem bytes_pair (v : W64 × W64) : bytes64 v.1 ++ bytes64 v.2 =
    [byte (join64 v) 0, byte (join64 v) 1, byte (join64 v) 2, byte (join64 v) 3,
     byte (join64 v) 4, byte (join64 v) 5, byte (join64 v) 6, byte (join64 v) 7,
     byte (join64 v) 8, byte (join64 v) 9, byte (join64 v) 10, byte (join64 v) 11,
     byte (join64 v) 12, byte (join64 v) 13, byte (join64 v) 14, byte (join64 v) 15] := by
  have lo := fun i => (byte_join64 v i).1
  have hi := fun i => (byte_join64 v i).2
  rw [lo 0 (by omega), lo 1 (by omega), lo 2 (by omega), lo 3 (by omega), lo 4 (by omega),
    lo 5 (by omega), lo 6 (by omega), lo 7 (by omega), hi 8 (by omega) (by omega),
    hi 9 (by omega) (by omega), hi 10 (by omega) (by omega), hi 11 (by omega) (by omega),
    hi 12 (by omega) (by omega), hi 13 (by omega) (by omega), hi 14 (by omega) (by omega),
    hi 15 (by omega) (by omega)]
  rfl

theorem join64_of8 (b0 b1 b2 b3 b4 b5 b6 b7 b8 b9 b10 b11 b12 b13 b14 b15 : Byte) :
    join64 (of8 b0 b1 b2 b3 b4 b5 b6 b7, of8 b8 b9 b10 b11 b12 b13 b14 b15) =
      ofBytes fun i => [b0, b1, b2, b3, b4, b5, b6, b7, b8, b9, b10, b11, b12, b13, b14, b15].getD i 0 := by
  refine block_ext fun i hi => ?_
  rw [byte_ofBytes _ hi]
  have h := bytes_pair (of8 b0 b1 b2 b3 b4 b5 b6 b7, of8 b8 b9 b10 b11 b12 b13 b14 b15)
  rw [bytes64_of8, bytes64_of8] at h
  simp only [List.cons_append, List.nil_append, List.cons.injEq, and_true] at h
  obtain ⟨h0, h1, h2, h3, h4, h5, h6, h7, h8, h9, h10, h11, h12, h13, h14, h15⟩ := h
  exact lt16 (P := fun i => byte _ i = [b0, b1, b2, b3, b4, b5, b6, b7, b8, b9, b10, b11, b12, b13, b14, b15].getD i 0)
    h0.symm h1.symm h2.symm h3.symm h4.symm h5.symm h6.symm h7.symm h8.symm h9.symm h10.symm
    h11.symm h12.symm h13.symm h14.symm h15.symm hi

/-! ### S -/

theorem sbox_get (b : Byte) : vget Kuz.BlkS.sbox b.toNat = .ok (Spec.Kuz.pi b) :=
  forall_byte (P := fun b => vget Kuz.BlkS.sbox b.toNat = .ok (Spec.Kuz.pi b)) (by decide +kernel) b

theorem sValue_eq (v : W64 × W64) : ∃ r, Kuz.sValue v = .ok r ∧ join64 r = S (join64 v) := by
  unfold Kuz.sValue
  rw [bytes_pair]
  simp only [List.mapM_cons, List.mapM_nil, sbox_get, Exec.ok_bind, Exec.pure_eq]
  refine ⟨_, rfl, ?_⟩
  refine (join64_of8 ..).trans (block_ext fun i hi => ?_)
  rw [byte_ofBytes _ hi, S, byte_ofBytes _ hi]
  apply lt16 (h := hi) <;> rfl

/-! ### R and L -/

theorem rValue_eq {m : Machine} (hm : m.unalignedLoad = true) (v : W64 × W64) :
    ∃ r, Kuz.rValue m v = .ok r ∧ join64 r = R (join64 v) := by
  unfold Kuz.rValue
  simp only [hm, if_true]
  rw [bytes_pair]
  refine ⟨_, rfl, ?_⟩
  refine (join64_of8 ..).trans (block_ext fun i hi => ?_)
  rw [byte_ofBytes _ hi, R, byte_ofBytes _ hi]
  apply lt16 (h := hi)
  case h15 =>
    show (List.zipWith Kuz.gmul _ Kuz.BlkR.k).foldl (· ^^^ ·) 0 = ell (join64 v)
    generalize join64 v = a
    have c := fun i => gfMul_comm_coeff (byte a i)
    simp only [Kuz.BlkR.k, List.zipWith_cons_cons, List.zipWith_nil_right, List.foldl_cons,
      List.foldl_nil, gmul_eq_gfMul, BitVec.ofNat_eq_ofNat, BitVec.zero_xor, ell]
    simp only [BitVec.ofNat_eq_ofNat] at c
    rw [(c 0).1, (c 1).2.1, (c 2).2.2.1, (c 3).2.2.2.1, (c 4).2.2.2.2.1, (c 5).2.2.2.2.2.1,
      (c 6).2.2.2.2.2.2.1, (c 7).1, (c 8).2.2.2.2.2.2.2.1, (c 9).1, (c 10).2.2.2.2.2.2.1,
      (c 11).2.2.2.2.2.1, (c 12).2.2.2.2.1, (c 13).2.2.2.1, (c 14).2.2.1, (c 15).2.1]
    ac_rfl
  all_goals rfl

theorem rValue_misaligned {m : Machine} (hm : m.unalignedLoad = false) (v : W64 × W64) :
    Kuz.rValue m v = .ub .misaligned := by
  unfold Kuz.rValue
  simp [hm]

/-- The block `b` has the value `x`. -/
abbrev HasValue (m : Machine) (b : Kuz.Blk) (x : Block) : Prop :=
  ∃ v, b.value m = .ok v ∧ join64 v = x

theorem HasValue.raw (m : Machine) (lo hi : W64) : HasValue m (.raw lo hi) (hi ++ lo) :=
  ⟨_, rfl, rfl⟩

theorem HasValue.xored {m : Machine} {a b : Kuz.Blk} {x y : Block} (ha : HasValue m a x)
    (hb : HasValue m b y) : HasValue m (.xored a b) (x ^^^ y) := by
  obtain ⟨v, hv, rfl⟩ := ha
  obtain ⟨w, hw, rfl⟩ := hb
  exact ⟨_, by simp only [Kuz.Blk.value, hv, hw, Exec.ok_bind]; rfl, join64_xor v w⟩

theorem HasValue.cached {m : Machine} {b : Kuz.Blk} {x : Block} (h : HasValue m b x) (i : Nat) :
    HasValue m (.cached i b) x := h

theorem HasValue.blkS {m : Machine} {b : Kuz.Blk} {x : Block} (h : HasValue m b x) :
    HasValue m (.blkS b) (S x) := by
  obtain ⟨v, hv, rfl⟩ := h
  obtain ⟨r, hr, hx⟩ := sValue_eq v
  exact ⟨r, by simp only [Kuz.Blk.value, hv, Exec.ok_bind, hr], hx⟩

theorem HasValue.blkR {m : Machine} (hm : m.unalignedLoad = true) {b : Kuz.Blk} {x : Block}
    (h : HasValue m b x) : HasValue m (.blkR b) (R x) := by
  obtain ⟨v, hv, rfl⟩ := h
  obtain ⟨r, hr, hx⟩ := rValue_eq hm v
  exact ⟨r, by simp only [Kuz.Blk.value, hv, Exec.ok_bind, hr], hx⟩

theorem repeat_comm {α : Type} (f : α → α) (n : Nat) (a : α) :
    Nat.repeat f n (f a) = f (Nat.repeat f n a) := by
  induction n with
  | zero => rfl
  | succ n ih => simp only [Nat.repeat, ih]

theorem HasValue.transform {m : Machine} (hm : m.unalignedLoad = true) (n : Nat) {b : Kuz.Blk}
    {x : Block} (h : HasValue m b x) : HasValue m (Kuz.BlkL.transform b n) (Nat.repeat R n x) := by
  induction n generalizing b x with
  | zero => exact h
  | succ n ih =>
    have := ih (HasValue.blkR hm h)
    rwa [repeat_comm] at this

theorem HasValue.blkL {m : Machine} (hm : m.unalignedLoad = true) {b : Kuz.Blk} {x : Block}
    (h : HasValue m b x) : HasValue m (Kuz.BlkL b) (L x) := HasValue.transform hm 16 h

theorem HasValue.lsx {m : Machine} (hm : m.unalignedLoad = true) {b k : Kuz.Blk} {x y : Block}
    (hb : HasValue m b x) (hk : HasValue m k y) :
    HasValue m (Kuz.Key.encryptStep b k) (LSX y x) := by
  have := HasValue.blkL hm (HasValue.blkS (HasValue.xored hb hk))
  rwa [BitVec.xor_comm] at this

/-! ### Linearity and inverses -/

theorem ell_xor (a b : Block) : ell (a ^^^ b) = ell a ^^^ ell b := by
  simp only [ell, byte_xor, gfMul_xor_right]
  ac_rfl

theorem R_xor (a b : Block) : R (a ^^^ b) = R a ^^^ R b := by
  refine block_ext fun i hi => ?_
  rw [byte_xor, R, R, R, byte_ofBytes _ hi, byte_ofBytes _ hi, byte_ofBytes _ hi]
  split
  · exact ell_xor a b
  · exact byte_xor a b _

theorem repeatR_xor (n : Nat) (a b : Block) :
    Nat.repeat R n (a ^^^ b) = Nat.repeat R n a ^^^ Nat.repeat R n b := by
  induction n with
  | zero => rfl
  | succ n ih => simp only [Nat.repeat, ih, R_xor]

theorem L_xor (a b : Block) : L (a ^^^ b) = L a ^^^ L b := repeatR_xor 16 a b

theorem piInv_pi (x : Byte) : piInv (Spec.Kuz.pi x) = x :=
  forall_byte (P := fun x => piInv (Spec.Kuz.pi x) = x) (by decide +kernel) x

theorem pi_piInv (x : Byte) : Spec.Kuz.pi (piInv x) = x :=
  forall_byte (P := fun x => Spec.Kuz.pi (piInv x) = x) (by decide +kernel) x

theorem Sinv_S (a : Block) : Sinv (S a) = a := by
  refine block_ext fun i hi => ?_
  rw [Sinv, byte_ofBytes _ hi, S, byte_ofBytes _ hi, piInv_pi]

theorem S_Sinv (a : Block) : S (Sinv a) = a := by
  refine block_ext fun i hi => ?_
  rw [S, byte_ofBytes _ hi, Sinv, byte_ofBytes _ hi, pi_piInv]

/-- The linear form apart from its last term, whose coefficient is one. -/
def ellTail (a : Block) : Byte :=
  gfMul 148 (byte a 15) ^^^ gfMul 32 (byte a 14) ^^^ gfMul 133 (byte a 13) ^^^
  gfMul 16 (byte a 12) ^^^ gfMul 194 (byte a 11) ^^^ gfMul 192 (byte a 10) ^^^
  gfMul 1 (byte a 9) ^^^ gfMul 251 (byte a 8) ^^^ gfMul 1 (byte a 7) ^^^
  gfMul 192 (byte a 6) ^^^ gfMul 194 (byte a 5) ^^^ gfMul 16 (byte a 4) ^^^
  gfMul 133 (byte a 3) ^^^ gfMul 32 (byte a 2) ^^^ gfMul 148 (byte a 1)

theorem ell_eq (a : Block) : ell a = ellTail a ^^^ byte a 0 := by
  have h := (gfMul_comm_coeff (byte a 0)).2.2.2.2.2.2.2.2
  unfold ell ellTail
  rw [h]

theorem ellTail_congr {a b : Block} (h : ∀ i, 1 ≤ i → i < 16 → byte a i = byte b i) :
    ellTail a = ellTail b := by
  unfold ellTail
  rw [h 1, h 2, h 3, h 4, h 5, h 6, h 7, h 8, h 9, h 10, h 11, h 12, h 13, h 14, h 15] <;> omega

theorem Rinv_R (a : Block) : Rinv (R a) = a := by
  refine block_ext fun i hi => ?_
  have hR : ∀ j, j < 15 → byte (R a) j = byte a (j + 1) := by
    intro j hj
    rw [R, byte_ofBytes _ (by omega), if_neg (by omega)]
  rw [Rinv, byte_ofBytes _ hi]
  by_cases h0 : i = 0
  · subst h0
    rw [if_pos rfl, ell_eq, byte_ofBytes _ (by omega), if_pos rfl,
      ellTail_congr (b := a) (by
        intro j h1 h2
        rw [byte_ofBytes _ h2, if_neg (by omega), hR _ (by omega), Nat.sub_add_cancel h1])]
    rw [R, byte_ofBytes _ (by omega), if_pos rfl, ell_eq, ← BitVec.xor_assoc, BitVec.xor_self,
      BitVec.zero_xor]
  · rw [if_neg h0, hR _ (by omega), Nat.sub_add_cancel (by omega)]

theorem R_Rinv (a : Block) : R (Rinv a) = a := by
  refine block_ext fun i hi => ?_
  have hR : ∀ j, 1 ≤ j → j < 16 → byte (Rinv a) j = byte a (j - 1) := by
    intro j h1 h2
    rw [Rinv, byte_ofBytes _ h2, if_neg (by omega)]
  rw [R, byte_ofBytes _ hi]
  by_cases h0 : i = 15
  · subst h0
    rw [if_pos rfl, ell_eq]
    have e : byte (Rinv a) 0 = ell (ofBytes fun j => if j = 0 then byte a 15 else byte a (j - 1)) := by
      rw [Rinv, byte_ofBytes _ (by omega), if_pos rfl]
    rw [e, ell_eq, byte_ofBytes _ (by omega), if_pos rfl,
      ellTail_congr (a := ofBytes _) (b := Rinv a) (by
        intro j h1 h2
        rw [byte_ofBytes _ h2, if_neg (by omega), hR j h1 h2]),
      ← BitVec.xor_assoc, BitVec.xor_self, BitVec.zero_xor]
  · rw [if_neg h0, hR _ (by omega) (by omega), Nat.add_sub_cancel]

theorem repeat_inverse {α : Type} {f g : α → α} (h : ∀ a, g (f a) = a) (n : Nat) (a : α) :
    Nat.repeat g n (Nat.repeat f n a) = a := by
  induction n with
  | zero => rfl
  | succ n ih =>
    simp only [Nat.repeat]
    rw [← repeat_comm g, h, ih]

theorem Linv_L (a : Block) : Linv (L a) = a := repeat_inverse Rinv_R 16 a
theorem L_Linv (a : Block) : L (Linv a) = a := repeat_inverse R_Rinv 16 a

theorem X_X (k a : Block) : X k (X k a) = a := by
  rw [X, X, ← BitVec.xor_assoc, BitVec.xor_self, BitVec.zero_xor]

theorem decWith_encWith (ks : List Block) (a : Block) : decWith ks (encWith ks a) = a := by
  induction ks generalizing a with
  | nil => rfl
  | cons k ks ih =>
    cases ks with
    | nil => exact X_X k a
    | cons k' ks =>
      show X k (Sinv (Linv (decWith (k' :: ks) (encWith (k' :: ks) (LSX k a))))) = a
      rw [ih, LSX, Linv_L, Sinv_S, X_X]

theorem encWith_decWith (ks : List Block) (a : Block) : encWith ks (decWith ks a) = a := by
  induction ks with
  | nil => rfl
  | cons k ks ih =>
    cases ks with
    | nil => exact X_X k a
    | cons k' ks =>
      show encWith (k' :: ks) (LSX k (X k (Sinv (Linv (decWith (k' :: ks) a))))) = a
      rw [LSX, X_X, S_Sinv, L_Linv, ih]

theorem kuz_enc_injective (K : BitVec 256) {a b : Block} (h : Spec.Kuz.enc K a = Spec.Kuz.enc K b) :
    a = b := by
  rw [← decWith_encWith (roundKeys K) a, ← decWith_encWith (roundKeys K) b]
  exact congrArg _ h

/-! ### Round keys and encryption -/

theorem HasValue.const (m : Machine) {i : Nat} (h : i < 2 ^ 64) :
    HasValue m (Kuz.BlkRaw.ofU64 (BitVec.ofInt 64 (i : Int))) (BitVec.ofNat 128 i) := by
  refine ⟨_, rfl, ?_⟩
  apply BitVec.eq_of_toNat_eq
  rw [join64, toNat_append]
  simp
  omega

/-- The steps `i … i + n - 1` of the key schedule. -/
def steps (i n : Nat) (x : Block × Block) : Block × Block :=
  (List.range n).foldl (fun x j => F (Spec.Kuz.C (i + j)) x) x

theorem steps_zero (i : Nat) (x : Block × Block) : steps i 0 x = x := rfl

theorem steps_cons (i n : Nat) (x : Block × Block) :
    steps i (n + 1) x = steps (i + 1) n (F (Spec.Kuz.C i) x) := by
  unfold steps
  rw [List.range_succ_eq_map, List.foldl_cons, List.foldl_map]
  have e : (fun (x : Block × Block) j => F (Spec.Kuz.C (i + Nat.succ j)) x) =
      fun x j => F (Spec.Kuz.C (i + 1 + j)) x := by
    funext x j
    rw [show i + Nat.succ j = i + 1 + j by omega]
  rw [e]; rfl

theorem steps_last (i n : Nat) (x : Block × Block) :
    steps i (n + 1) x = F (Spec.Kuz.C (i + n)) (steps i n x) := by
  unfold steps
  rw [List.range_succ, List.foldl_append]
  rfl

theorem HasValue.generate {m : Machine} (hm : m.unalignedLoad = true) (n : Nat) {i : Nat}
    (hi : i + n < 2 ^ 64) {a b : Kuz.Blk} {x : Block × Block} (hb : HasValue m b x.1)
    (ha : HasValue m a x.2) :
    HasValue m (Kuz.BlkIterKey.generate ((i : Int) + (n : Int) - 1) a b i) (steps i n x).1 := by
  induction n generalizing i a b x with
  | zero =>
    unfold Kuz.BlkIterKey.generate
    rw [if_pos (by omega)]
    exact hb
  | succ n ih =>
    unfold Kuz.BlkIterKey.generate
    rw [if_neg (by omega), steps_cons]
    have hc := HasValue.blkL hm (HasValue.const m (i := i) (by omega))
    have hl := HasValue.blkL hm (HasValue.blkS (HasValue.xored hb hc))
    have hx := HasValue.xored ha hl
    have e : x.2 ^^^ L (S (x.1 ^^^ L (BitVec.ofNat 128 i))) = (F (Spec.Kuz.C i) x).1 := by
      simp only [F, LSX, X, Spec.Kuz.C]
      rw [BitVec.xor_comm x.2, BitVec.xor_comm x.1]
    rw [e] at hx
    have := ih (i := i + 1) (by omega) (x := F (Spec.Kuz.C i) x) hx hb
    rwa [show ((i + 1 : Nat) : Int) + (n : Int) - 1 = (i : Int) + ((n + 1 : Nat) : Int) - 1 by omega]
      at this

/-- A pair of round keys from the previous pair. -/
theorem HasValue.pair {m : Machine} (hm : m.unalignedLoad = true) {ka kb : Kuz.Blk} {i : Nat}
    (hi : i + 8 < 2 ^ 64) {x : Block × Block} (ha : HasValue m ka x.1) (hb : HasValue m kb x.2) :
    HasValue m (Kuz.BlkIterKey ka kb i (i + 7 : Nat)) (steps i 8 x).1 ∧
    HasValue m (Kuz.BlkIterKey ka kb i (i + 6 : Nat)) (steps i 8 x).2 := by
  have h8 := HasValue.generate hm 8 (i := i) (by omega) ha hb
  have h7 := HasValue.generate hm 7 (i := i) (by omega) ha hb
  rw [show (i : Int) + (8 : Nat) - 1 = ((i + 7 : Nat) : Int) by omega] at h8
  rw [show (i : Int) + (7 : Nat) - 1 = ((i + 6 : Nat) : Int) by omega] at h7
  exact ⟨h8, by rw [steps_last]; exact h7⟩

theorem keyPair_succ (K : BitVec 256) (i : Nat) :
    keyPair K (i + 1) = steps (8 * i + 1) 8 (keyPair K i) := by
  show (List.range 8).foldl _ _ = (List.range 8).foldl _ _
  have e : (fun (x : Block × Block) j => F (Spec.Kuz.C (8 * i + j + 1)) x) =
      fun x j => F (Spec.Kuz.C (8 * i + 1 + j)) x := by
    funext x j
    rw [show 8 * i + j + 1 = 8 * i + 1 + j by omega]
  rw [e]

/-- The ten round keys of a key have the values `ks`. -/
structure KeyValues (m : Machine) (key : Kuz.Key) (k : Fin 10 → Block) : Prop where
  h1 : HasValue m key.k1 (k 0)
  h2 : HasValue m key.k2 (k 1)
  h3 : HasValue m key.k3 (k 2)
  h4 : HasValue m key.k4 (k 3)
  h5 : HasValue m key.k5 (k 4)
  h6 : HasValue m key.k6 (k 5)
  h7 : HasValue m key.k7 (k 6)
  h8 : HasValue m key.k8 (k 7)
  h9 : HasValue m key.k9 (k 8)
  h10 : HasValue m key.k10 (k 9)

/-- The round keys of the standard, by number. -/
def roundKey (K : BitVec 256) (i : Fin 10) : Block :=
  if i.val % 2 = 0 then (keyPair K (i.val / 2)).1 else (keyPair K (i.val / 2)).2

theorem ofBlocks_values {m : Machine} (hm : m.unalignedLoad = true) {high low : Kuz.Blk}
    {x y : Block} (hh : HasValue m high x) (hl : HasValue m low y) (base : Nat) :
    KeyValues m (Kuz.Key.ofBlocks high low base) (roundKey (x ++ y)) := by
  have k0 : keyPair (x ++ y) 0 = (x, y) := by
    simp only [keyPair]
    rw [extract_append_high, extract_append_low]
  have a1 : HasValue m (Kuz.Blk.cached (base + 1) high) (keyPair (x ++ y) 0).1 := by rw [k0]; exact hh
  have a2 : HasValue m (Kuz.Blk.cached (base + 2) low) (keyPair (x ++ y) 0).2 := by rw [k0]; exact hl
  obtain ⟨a3, a4⟩ := HasValue.pair hm (i := 1) (by omega) a1 a2
  rw [← keyPair_succ (x ++ y) 0] at a3 a4
  obtain ⟨a5, a6⟩ := HasValue.pair hm (i := 9) (by omega) (a3.cached (base + 3)) (a4.cached (base + 4))
  rw [← keyPair_succ (x ++ y) 1] at a5 a6
  obtain ⟨a7, a8⟩ := HasValue.pair hm (i := 17) (by omega) (a5.cached (base + 5)) (a6.cached (base + 6))
  rw [← keyPair_succ (x ++ y) 2] at a7 a8
  obtain ⟨a9, a10⟩ := HasValue.pair hm (i := 25) (by omega) (a7.cached (base + 7)) (a8.cached (base + 8))
  rw [← keyPair_succ (x ++ y) 3] at a9 a10
  exact ⟨a1, a2, a3, a4, a5, a6, a7, a8, a9, a10⟩

theorem KeyValues.encrypt {m : Machine} (hm : m.unalignedLoad = true) {key : Kuz.Key}
    {k : Fin 10 → Block} (h : KeyValues m key k) {b : Kuz.Blk} {x : Block} (hb : HasValue m b x) :
    HasValue m (key.encrypt b) (encWith ((List.finRange 10).map k) x) := by
  have := HasValue.xored (HasValue.lsx hm (HasValue.lsx hm (HasValue.lsx hm (HasValue.lsx hm
    (HasValue.lsx hm (HasValue.lsx hm (HasValue.lsx hm (HasValue.lsx hm (HasValue.lsx hm hb h.h1)
      h.h2) h.h3) h.h4) h.h5) h.h6) h.h7) h.h8) h.h9) h.h10
  rw [BitVec.xor_comm] at this
  exact this

theorem encrypt_value {m : Machine} (hm : m.unalignedLoad = true) {high low : Kuz.Blk}
    {x y : Block} (hh : HasValue m high x) (hl : HasValue m low y) (base : Nat) {b : Kuz.Blk}
    {z : Block} (hb : HasValue m b z) :
    HasValue m (Kuz.BlkEncrypted b (Kuz.Key.ofBlocks high low base))
      (Spec.Kuz.enc (x ++ y) z) :=
  (ofBlocks_values hm hh hl base).encrypt hm hb

end Goost
