import Verif.Lemmas.ByteOrder
import Verif.Lemmas.KuzKey
/-
Kuznyechik on a big-endian machine.
-/
namespace Goost
open Spec Spec.Kuz

theorem load64In_big (v : List Byte) (off : Nat) :
    load64In .big v off = (load64 v off >>= fun x => .ok (swap64 x)) := by
  simp only [load64In, load64]
  cases vget v off <;> try rfl
  cases vget v (off + 1) <;> try rfl
  cases vget v (off + 2) <;> try rfl
  cases vget v (off + 3) <;> try rfl
  cases vget v (off + 4) <;> try rfl
  cases vget v (off + 5) <;> try rfl
  cases vget v (off + 6) <;> try rfl
  cases vget v (off + 7) <;> try rfl
  rename_i b0 b1 b2 b3 b4 b5 b6 b7
  have : swap64 (of8 b0 b1 b2 b3 b4 b5 b6 b7) = of8 b7 b6 b5 b4 b3 b2 b1 b0 := by
    rw [swap64, ← bytes64_eq_spec, bytes64_of8]
    exact block64_eq_of8 ..
  exact congrArg Exec.ok this.symm

theorem bytes64In_big (x : W64) : bytes64In .big x = bytes64 (swap64 x) := by
  rw [bytes64In_eq, bytesIn_eq, bytes64_eq_spec]; rfl

theorem join64_swap (v : W64 × W64) : join64 (swap64 v.1, swap64 v.2) = swapHalves (join64 v) := by
  refine block_ext fun i hi => ?_
  have h1 := bytes_pair (swap64 v.1, swap64 v.2)
  have h2 := bytes_pair v
  simp only [← bytes64In_big] at h1
  simp only [bytes64, bytes64In, List.cons_append, List.nil_append, List.cons.injEq, and_true] at h1 h2
  obtain ⟨a0, a1, a2, a3, a4, a5, a6, a7, a8, a9, a10, a11, a12, a13, a14, a15⟩ := h1
  obtain ⟨c0, c1, c2, c3, c4, c5, c6, c7, c8, c9, c10, c11, c12, c13, c14, c15⟩ := h2
  rw [swapHalves, byte_ofBytes _ hi]
  apply lt16 (h := hi)
  · exact a0.symm.trans c7
  · exact a1.symm.trans c6
  · exact a2.symm.trans c5
  · exact a3.symm.trans c4
  · exact a4.symm.trans c3
  · exact a5.symm.trans c2
  · exact a6.symm.trans c1
  · exact a7.symm.trans c0
  · exact a8.symm.trans c15
  · exact a9.symm.trans c14
  · exact a10.symm.trans c13
  · exact a11.symm.trans c12
  · exact a12.symm.trans c11
  · exact a13.symm.trans c10
  · exact a14.symm.trans c9
  · exact a15.symm.trans c8

theorem swapLoads {data : List Byte} {i j : Nat} {r : W64 × W64}
    (h : (do let a ← load64 data i; let b ← load64 data j; return (a, b)) = Exec.ok r) :
    (do let a ← load64In .big data i; let b ← load64In .big data j; return (a, b)) =
      Exec.ok (swap64 r.1, swap64 r.2) := by
  rw [load64In_big, load64In_big]
  generalize load64 data i = x at h ⊢
  generalize load64 data j = y at h ⊢
  cases x <;> try cases h
  cases y <;> cases h
  rfl

theorem swapHalves_swapHalves (a : Block) : swapHalves (swapHalves a) = a := by
  refine block_ext fun i hi => ?_
  rw [swapHalves, byte_ofBytes _ hi]
  split
  · rw [swapHalves, byte_ofBytes _ (by omega), if_pos (by omega)]
    congr 1; omega
  · rw [swapHalves, byte_ofBytes _ (by omega), if_neg (by omega)]
    congr 1; omega

theorem S_swapHalves (a : Block) : S (swapHalves a) = swapHalves (S a) := by
  refine block_ext fun i hi => ?_
  rw [S, byte_ofBytes _ hi, swapHalves, byte_ofBytes _ hi, swapHalves, byte_ofBytes _ hi]
  split
  · rw [S, byte_ofBytes _ (by omega)]
  · rw [S, byte_ofBytes _ (by omega)]

theorem sValueIn_big (v : W64 × W64) :
    ∃ r, Kuz.sValueIn .big v = .ok r ∧ join64 r = S (join64 v) := by
  obtain ⟨r, h1, h2⟩ := sValue_eq (swap64 v.1, swap64 v.2)
  refine ⟨(swap64 r.1, swap64 r.2), ?_, ?_⟩
  · unfold Kuz.sValue at h1
    unfold Kuz.sValueIn
    rw [bytes64In_big, bytes64In_big]
    simp only at h1
    generalize (bytes64 (swap64 v.1) ++ bytes64 (swap64 v.2)).mapM
      (fun b => vget Kuz.BlkS.sbox b.toNat) = data at h1 ⊢
    cases data <;> try cases h1
    exact swapLoads h1
  · rw [join64_swap, h2, join64_swap, S_swapHalves, swapHalves_swapHalves]

theorem sValueIn_eq (o : ByteOrder) (v : W64 × W64) : Kuz.sValueIn o v = Kuz.sValue v := by
  cases o
  · simp only [Kuz.sValueIn, Kuz.sValue, bytes64In, load64In]
  · obtain ⟨r, h1, h2⟩ := sValueIn_big v
    obtain ⟨r', h3, h4⟩ := sValue_eq v
    rw [h1, h3, join64_inj (h2.trans h4.symm)]

theorem rValueIn_big {m : Machine} (hm : m.unalignedLoad = true) (v : W64 × W64) :
    ∃ r, Kuz.rValueIn .big m v = .ok r ∧ join64 r = Rbig (join64 v) := by
  obtain ⟨r, h1, h2⟩ := rValue_eq hm (swap64 v.1, swap64 v.2)
  refine ⟨(swap64 r.1, swap64 r.2), ?_, ?_⟩
  · simp only [Kuz.rValue, hm, if_true] at h1
    simp only [Kuz.rValueIn, hm, if_true, bytes64In_big]
    exact swapLoads h1
  · rw [join64_swap, h2, join64_swap]; rfl

/-- The block `b` has the value `x`. -/
abbrev HasValueBig (m : Machine) (b : Kuz.Blk) (x : Block) : Prop :=
  ∃ v, b.valueIn .big m = .ok v ∧ join64 v = x

theorem HasValueBig.raw (m : Machine) (lo hi : W64) : HasValueBig m (.raw lo hi) (hi ++ lo) :=
  ⟨_, rfl, rfl⟩

theorem HasValueBig.xored {m : Machine} {a b : Kuz.Blk} {x y : Block} (ha : HasValueBig m a x)
    (hb : HasValueBig m b y) : HasValueBig m (.xored a b) (x ^^^ y) := by
  obtain ⟨v, hv, rfl⟩ := ha
  obtain ⟨w, hw, rfl⟩ := hb
  exact ⟨_, by simp only [Kuz.Blk.valueIn, hv, hw, Exec.ok_bind]; rfl, join64_xor v w⟩

theorem HasValueBig.cached {m : Machine} {b : Kuz.Blk} {x : Block} (h : HasValueBig m b x) (i : Nat) :
    HasValueBig m (.cached i b) x := h

theorem HasValueBig.blkS {m : Machine} {b : Kuz.Blk} {x : Block} (h : HasValueBig m b x) :
    HasValueBig m (.blkS b) (S x) := by
  obtain ⟨v, hv, rfl⟩ := h
  obtain ⟨r, hr, hx⟩ := sValueIn_big v
  exact ⟨r, by simp only [Kuz.Blk.valueIn, hv, Exec.ok_bind, hr], hx⟩

theorem HasValueBig.blkR {m : Machine} (hm : m.unalignedLoad = true) {b : Kuz.Blk} {x : Block}
    (h : HasValueBig m b x) : HasValueBig m (.blkR b) (Rbig x) := by
  obtain ⟨v, hv, rfl⟩ := h
  obtain ⟨r, hr, hx⟩ := rValueIn_big hm v
  exact ⟨r, by simp only [Kuz.Blk.valueIn, hv, Exec.ok_bind, hr], hx⟩

theorem HasValueBig.transform {m : Machine} (hm : m.unalignedLoad = true) (n : Nat) {b : Kuz.Blk}
    {x : Block} (h : HasValueBig m b x) : HasValueBig m (Kuz.BlkL.transform b n) (Nat.repeat Rbig n x) := by
  induction n generalizing b x with
  | zero => exact h
  | succ n ih =>
    have := ih (HasValueBig.blkR hm h)
    rwa [repeat_comm] at this

theorem HasValueBig.blkL {m : Machine} (hm : m.unalignedLoad = true) {b : Kuz.Blk} {x : Block}
    (h : HasValueBig m b x) : HasValueBig m (Kuz.BlkL b) (Lbig x) := HasValueBig.transform hm 16 h

theorem HasValueBig.lsx {m : Machine} (hm : m.unalignedLoad = true) {b k : Kuz.Blk} {x y : Block}
    (hb : HasValueBig m b x) (hk : HasValueBig m k y) :
    HasValueBig m (Kuz.Key.encryptStep b k) (LSXbig y x) := by
  have := HasValueBig.blkL hm (HasValueBig.blkS (HasValueBig.xored hb hk))
  rwa [BitVec.xor_comm] at this

theorem HasValueBig.const (m : Machine) {i : Nat} (h : i < 2 ^ 64) :
    HasValueBig m (Kuz.BlkRaw.ofU64 (BitVec.ofInt 64 (i : Int))) (BitVec.ofNat 128 i) := by
  refine ⟨_, rfl, ?_⟩
  apply BitVec.eq_of_toNat_eq
  rw [join64, toNat_append]
  simp
  omega

/-- The stepsBig `i … i + n - 1` of the key schedule. -/
def stepsBig (i n : Nat) (x : Block × Block) : Block × Block :=
  (List.range n).foldl (fun x j => Fbig (Spec.Kuz.Cbig (i + j)) x) x

theorem stepsBig_zero (i : Nat) (x : Block × Block) : stepsBig i 0 x = x := rfl

theorem stepsBig_cons (i n : Nat) (x : Block × Block) :
    stepsBig i (n + 1) x = stepsBig (i + 1) n (Fbig (Spec.Kuz.Cbig i) x) := by
  unfold stepsBig
  rw [List.range_succ_eq_map, List.foldl_cons, List.foldl_map]
  have e : (fun (x : Block × Block) j => Fbig (Spec.Kuz.Cbig (i + Nat.succ j)) x) =
      fun x j => Fbig (Spec.Kuz.Cbig (i + 1 + j)) x := by
    funext x j
    rw [show i + Nat.succ j = i + 1 + j by omega]
  rw [e]; rfl

theorem stepsBig_last (i n : Nat) (x : Block × Block) :
    stepsBig i (n + 1) x = Fbig (Spec.Kuz.Cbig (i + n)) (stepsBig i n x) := by
  unfold stepsBig
  rw [List.range_succ, List.foldl_append]
  rfl

theorem HasValueBig.generate {m : Machine} (hm : m.unalignedLoad = true) (n : Nat) {i : Nat}
    (hi : i + n < 2 ^ 64) {a b : Kuz.Blk} {x : Block × Block} (hb : HasValueBig m b x.1)
    (ha : HasValueBig m a x.2) :
    HasValueBig m (Kuz.BlkIterKey.generate ((i : Int) + (n : Int) - 1) a b i) (stepsBig i n x).1 := by
  induction n generalizing i a b x with
  | zero =>
    unfold Kuz.BlkIterKey.generate
    rw [if_pos (by omega)]
    exact hb
  | succ n ih =>
    unfold Kuz.BlkIterKey.generate
    rw [if_neg (by omega), stepsBig_cons]
    have hc := HasValueBig.blkL hm (HasValueBig.const m (i := i) (by omega))
    have hl := HasValueBig.blkL hm (HasValueBig.blkS (HasValueBig.xored hb hc))
    have hx := HasValueBig.xored ha hl
    have e : x.2 ^^^ Lbig (S (x.1 ^^^ Lbig (BitVec.ofNat 128 i))) = (Fbig (Spec.Kuz.Cbig i) x).1 := by
      simp only [Fbig, LSXbig, X, Spec.Kuz.Cbig]
      rw [BitVec.xor_comm x.2, BitVec.xor_comm x.1]
    rw [e] at hx
    have := ih (i := i + 1) (by omega) (x := Fbig (Spec.Kuz.Cbig i) x) hx hb
    rwa [show ((i + 1 : Nat) : Int) + (n : Int) - 1 = (i : Int) + ((n + 1 : Nat) : Int) - 1 by omega]
      at this

/-- A pair of round keys from the previous pair. -/
theorem HasValueBig.pair {m : Machine} (hm : m.unalignedLoad = true) {ka kb : Kuz.Blk} {i : Nat}
    (hi : i + 8 < 2 ^ 64) {x : Block × Block} (ha : HasValueBig m ka x.1) (hb : HasValueBig m kb x.2) :
    HasValueBig m (Kuz.BlkIterKey ka kb i (i + 7 : Nat)) (stepsBig i 8 x).1 ∧
    HasValueBig m (Kuz.BlkIterKey ka kb i (i + 6 : Nat)) (stepsBig i 8 x).2 := by
  have h8 := HasValueBig.generate hm 8 (i := i) (by omega) ha hb
  have h7 := HasValueBig.generate hm 7 (i := i) (by omega) ha hb
  rw [show (i : Int) + (8 : Nat) - 1 = ((i + 7 : Nat) : Int) by omega] at h8
  rw [show (i : Int) + (7 : Nat) - 1 = ((i + 6 : Nat) : Int) by omega] at h7
  exact ⟨h8, by rw [stepsBig_last]; exact h7⟩

theorem keyPairBig_succ (K : BitVec 256) (i : Nat) :
    keyPairBig K (i + 1) = stepsBig (8 * i + 1) 8 (keyPairBig K i) := by
  show (List.range 8).foldl _ _ = (List.range 8).foldl _ _
  have e : (fun (x : Block × Block) j => Fbig (Spec.Kuz.Cbig (8 * i + j + 1)) x) =
      fun x j => Fbig (Spec.Kuz.Cbig (8 * i + 1 + j)) x := by
    funext x j
    rw [show 8 * i + j + 1 = 8 * i + 1 + j by omega]
  rw [e]

/-- The ten round keys of a key have the values `ks`. -/
structure KeyValuesBig (m : Machine) (key : Kuz.Key) (k : Fin 10 → Block) : Prop where
  h1 : HasValueBig m key.k1 (k 0)
  h2 : HasValueBig m key.k2 (k 1)
  h3 : HasValueBig m key.k3 (k 2)
  h4 : HasValueBig m key.k4 (k 3)
  h5 : HasValueBig m key.k5 (k 4)
  h6 : HasValueBig m key.k6 (k 5)
  h7 : HasValueBig m key.k7 (k 6)
  h8 : HasValueBig m key.k8 (k 7)
  h9 : HasValueBig m key.k9 (k 8)
  h10 : HasValueBig m key.k10 (k 9)

/-- The round keys of the standard, by number. -/
def roundKeyBig (K : BitVec 256) (i : Fin 10) : Block :=
  if i.val % 2 = 0 then (keyPairBig K (i.val / 2)).1 else (keyPairBig K (i.val / 2)).2

theorem ofBlocks_values_big {m : Machine} (hm : m.unalignedLoad = true) {high low : Kuz.Blk}
    {x y : Block} (hh : HasValueBig m high x) (hl : HasValueBig m low y) (base : Nat) :
    KeyValuesBig m (Kuz.Key.ofBlocks high low base) (roundKeyBig (x ++ y)) := by
  have k0 : keyPairBig (x ++ y) 0 = (x, y) := by
    simp only [keyPairBig]
    rw [extract_append_high, extract_append_low]
  have a1 : HasValueBig m (Kuz.Blk.cached (base + 1) high) (keyPairBig (x ++ y) 0).1 := by rw [k0]; exact hh
  have a2 : HasValueBig m (Kuz.Blk.cached (base + 2) low) (keyPairBig (x ++ y) 0).2 := by rw [k0]; exact hl
  obtain ⟨a3, a4⟩ := HasValueBig.pair hm (i := 1) (by omega) a1 a2
  rw [← keyPairBig_succ (x ++ y) 0] at a3 a4
  obtain ⟨a5, a6⟩ := HasValueBig.pair hm (i := 9) (by omega) (a3.cached (base + 3)) (a4.cached (base + 4))
  rw [← keyPairBig_succ (x ++ y) 1] at a5 a6
  obtain ⟨a7, a8⟩ := HasValueBig.pair hm (i := 17) (by omega) (a5.cached (base + 5)) (a6.cached (base + 6))
  rw [← keyPairBig_succ (x ++ y) 2] at a7 a8
  obtain ⟨a9, a10⟩ := HasValueBig.pair hm (i := 25) (by omega) (a7.cached (base + 7)) (a8.cached (base + 8))
  rw [← keyPairBig_succ (x ++ y) 3] at a9 a10
  exact ⟨a1, a2, a3, a4, a5, a6, a7, a8, a9, a10⟩

theorem KeyValuesBig.encrypt {m : Machine} (hm : m.unalignedLoad = true) {key : Kuz.Key}
    {k : Fin 10 → Block} (h : KeyValuesBig m key k) {b : Kuz.Blk} {x : Block} (hb : HasValueBig m b x) :
    HasValueBig m (key.encrypt b) (encWithBig ((List.finRange 10).map k) x) := by
  have := HasValueBig.xored (HasValueBig.lsx hm (HasValueBig.lsx hm (HasValueBig.lsx hm (HasValueBig.lsx hm
    (HasValueBig.lsx hm (HasValueBig.lsx hm (HasValueBig.lsx hm (HasValueBig.lsx hm (HasValueBig.lsx hm hb h.h1)
      h.h2) h.h3) h.h4) h.h5) h.h6) h.h7) h.h8) h.h9) h.h10
  rw [BitVec.xor_comm] at this
  exact this

theorem encrypt_value_big {m : Machine} (hm : m.unalignedLoad = true) {high low : Kuz.Blk}
    {x y : Block} (hh : HasValueBig m high x) (hl : HasValueBig m low y) (base : Nat) {b : Kuz.Blk}
    {z : Block} (hb : HasValueBig m b z) :
    HasValueBig m (Kuz.BlkEncrypted b (Kuz.Key.ofBlocks high low base))
      (Spec.Kuz.encBig (x ++ y) z) :=
  (ofBlocks_values_big hm hh hl base).encrypt hm hb

end Goost
