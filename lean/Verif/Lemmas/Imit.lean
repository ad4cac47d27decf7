import Verif.Lemmas.Sources
/-
Message authentication codes of magma and gost89.
-/
namespace Goost
open Spec Spec.Magma Spec.Modes Goost.Magma
variable {W σ τ : Type}

/-! ### The specification -/

theorem xor_left_cancel {n : Nat} {a b c : BitVec n} (h : a ^^^ b = a ^^^ c) : b = c := by
  rwa [BitVec.xor_right_inj] at h

theorem xor_right_cancel {n : Nat} {a b c : BitVec n} (h : b ^^^ a = c ^^^ a) : b = c := by
  rwa [BitVec.xor_left_inj] at h

theorem chain_injective {n : Nat} {E : BitVec n → BitVec n} (hE : ∀ x y, E x = E y → x = y)
    (l : List (BitVec n)) {c c' : BitVec n} (h : chain E c l = chain E c' l) : c = c' := by
  induction l generalizing c c' with
  | nil => exact h
  | cons x l ih => exact xor_left_cancel (hE _ _ (ih h))

theorem chain_append {n : Nat} (E : BitVec n → BitVec n) (c : BitVec n) (l l' : List (BitVec n)) :
    chain E c (l ++ l') = chain E (chain E c l) l' := by
  simp [chain, List.foldl_append]

@[simp] theorem chain_cons {n : Nat} (E : BitVec n → BitVec n) (c x : BitVec n)
    (l : List (BitVec n)) : chain E c (x :: l) = chain E (E (x ^^^ c)) l := rfl

@[simp] theorem chain_nil {n : Nat} (E : BitVec n → BitVec n) (c : BitVec n) :
    chain E c [] = c := rfl

/-- One different block changes the chain. -/
theorem chain_change {n : Nat} {E : BitVec n → BitVec n} (hE : ∀ x y, E x = E y → x = y)
    (c : BitVec n) (l l' : List (BitVec n)) {x y : BitVec n}
    (h : chain E c (l ++ x :: l') = chain E c (l ++ y :: l')) : x = y := by
  rw [chain_append, chain_append, chain_cons, chain_cons] at h
  exact xor_right_cancel (hE _ _ (chain_injective hE _ h))

/-- One different block changes the MAC. `a` and `b` are the messages: all blocks but the last and the
last one. -/
theorem omac_change {n : Nat} {E : BitVec n → BitVec n} (hE : ∀ x y, E x = E y → x = y)
    (K : BitVec n) {p q l l' : List (BitVec n)} {last last' x y : BitVec n}
    (hp : p ++ [last] = l ++ x :: l') (hq : q ++ [last'] = l ++ y :: l')
    (h : omac E K p last = omac E K q last') : x = y := by
  unfold omac at h
  have h := xor_right_cancel (hE _ _ h)
  rcases List.eq_nil_or_concat l' with rfl | ⟨l'', z, rfl⟩
  · obtain ⟨rfl, hx⟩ := List.append_inj' hp rfl
    obtain ⟨rfl, hy⟩ := List.append_inj' hq rfl
    obtain rfl : last = x := by simpa using hx
    obtain rfl : last' = y := by simpa using hy
    exact xor_right_cancel h
  · rw [List.concat_eq_append] at hp hq
    rw [show l ++ x :: (l'' ++ [z]) = (l ++ x :: l'') ++ [z] by simp] at hp
    rw [show l ++ y :: (l'' ++ [z]) = (l ++ y :: l'') ++ [z] by simp] at hq
    obtain ⟨rfl, hx⟩ := List.append_inj' hp rfl
    obtain ⟨rfl, hy⟩ := List.append_inj' hq rfl
    obtain rfl : last = z := by simpa using hx
    obtain rfl : last' = last := by simpa using hy
    exact chain_change hE 0 _ _ (xor_left_cancel h)

/-! ### Shifts -/

theorem shiftValue_x86 (v : W32 × W32) (n : Nat) (h1 : 1 ≤ n) (h2 : n ≤ 31) :
    ∃ r, Magma.shiftValue .x86 v n = .ok r ∧ join32 r = join32 v <<< n := by
  have c1 : (0 : Int) ≤ (n : Int) ∧ (n : Int) < 32 := by omega
  have c2 : ¬ ((0 : Int) ≤ 64 - (n : Int) ∧ (64 : Int) - (n : Int) < 32) := by omega
  have c3 : ((64 - (n : Int)) % 32).toNat = 32 - n := by omega
  refine ⟨(v.1 <<< n, v.2 <<< n ||| v.1 >>> (32 - n)), ?_, ?_⟩
  · simp only [Magma.shiftValue, Machine.shl32, Machine.shr32, if_pos c1, if_neg c2, Machine.x86,
      if_true, Exec.ok_bind, c3, Int.toNat_natCast, Exec.pure_eq]
  · apply BitVec.eq_of_getLsbD_eq
    intro i hi
    simp only [join32, BitVec.getLsbD_append, BitVec.getLsbD_shiftLeft, BitVec.getLsbD_or,
      BitVec.getLsbD_ushiftRight, hi, decide_true, Bool.true_and]
    by_cases hin : i < n
    · have : i < 32 := by omega
      simp [hin, this]
    · by_cases hi32 : i < 32
      · have : i - n < 32 := by omega
        simp [hin, hi32, this]
      · by_cases hk : i - 32 < n
        · have e1 : i - n < 32 := by omega
          have e2 : 32 - n + (i - 32) = i - n := by omega
          simp [hin, hi32, hk, e1, e2]
        · have e1 : ¬ i - n < 32 := by omega
          have e2 : i - 32 < 32 := by omega
          have e3 : i - 32 - n = i - n - 32 := by omega
          have e4 : 32 ≤ 32 - n + (i - 32) := by omega
          simp [hin, hi32, hk, e1, e2, e3, BitVec.getLsbD_of_ge v.1 _ e4]

/-- On a processor that takes counts modulo 32 a count and its remainder do the same. -/
theorem shiftValue_x86_mod (v : W32 × W32) (n : Int) :
    Magma.shiftValue .x86 v n = Magma.shiftValue .x86 v (n % 32) := by
  have hl (x : W32) (k : Int) : Machine.shl32 .x86 x k = .ok (x <<< (k % 32).toNat) := by
    simp only [Machine.shl32, Machine.x86, if_true]
    by_cases h : 0 ≤ k ∧ k < 32
    · rw [if_pos h, Int.emod_eq_of_lt h.1 h.2]
    · rw [if_neg h]
  have hr (x : W32) (k : Int) : Machine.shr32 .x86 x k = .ok (x >>> (k % 32).toNat) := by
    simp only [Machine.shr32, Machine.x86, if_true]
    by_cases h : 0 ≤ k ∧ k < 32
    · rw [if_pos h, Int.emod_eq_of_lt h.1 h.2]
    · rw [if_neg h]
  have e : (64 - n % 32) % 32 = (64 - n) % 32 := by omega
  simp only [Magma.shiftValue, hl, hr, Int.emod_emod, e]

theorem shiftValue_iso (v : W32 × W32) (n : Int) :
    Magma.shiftValue .iso v n = .ub .badShift := by
  simp only [Magma.shiftValue, Machine.shl32, Machine.shr32, Machine.iso]
  by_cases h : 0 ≤ n ∧ n < 32
  · have h2 : ¬ (0 ≤ 64 - n ∧ 64 - n < 32) := by omega
    rw [if_pos h, if_pos h, if_neg h2]
    rfl
  · rw [if_neg h]
    rfl

theorem high_bit (v : W32 × W32) : v.2 &&& 0x80000000 = 0 ↔ (join32 v).msb = false := by
  have e : (join32 v).msb = v.2.getLsbD 31 := by
    rw [BitVec.msb_eq_getLsbD_last, join32, BitVec.getLsbD_append]
    simp
  rw [e]
  constructor
  · intro h
    have := congrArg (fun x : W32 => x.getLsbD 31) h
    simpa using this
  · intro h
    apply BitVec.eq_of_getLsbD_eq
    intro i hi
    have hm : (0x80000000 : W32) = BitVec.twoPow 32 31 := by decide
    rw [hm, BitVec.getLsbD_and, BitVec.getLsbD_twoPow]
    by_cases h31 : i = 31
    · subst h31; rw [h]; rfl
    · have : ¬ 31 = i := fun e => h31 e.symm
      simp [this]

theorem imitShifted_x86 {b : Blk} {v : W32 × W32} (hb : b.value .x86 = .ok v) :
    ∃ r, (Blk.imitShifted b).value .x86 = .ok r ∧ join32 r = double 0x1b (join32 v) := by
  obtain ⟨s, hs, hj⟩ := shiftValue_x86 v 1 (by omega) (by omega)
  have hs' : Magma.shiftValue .x86 v 1 = .ok s := hs
  by_cases h : v.2 &&& 0x80000000 = 0
  · refine ⟨s, ?_, ?_⟩
    · simp only [Blk.value, hb, Exec.ok_bind, h, if_true, hs']
    · rw [double, (high_bit v).1 h, hj]
      rfl
  · refine ⟨(s.1 ^^^ 0x1b, s.2 ^^^ 0), ?_, ?_⟩
    · simp only [Blk.value, hb, Exec.ok_bind, h, if_false, hs', Exec.pure_eq]
    · have hm : (join32 v).msb = true := by
        cases e : (join32 v).msb
        · exact absurd ((high_bit v).2 e) h
        · rfl
      have e := join32_xor s ((0x1b : W32), (0 : W32))
      simp only at e
      rw [e, double, hm, hj]
      rfl

theorem imitShifted_iso {b : Blk} {v : W32 × W32} (hb : b.value .iso = .ok v) :
    (Blk.imitShifted b).value .iso = .ub .badShift := by
  simp only [Blk.value, hb, Exec.ok_bind, shiftValue_iso]
  split <;> rfl

/-! ### magma::Imit -/

theorem natOfBytes_append (a b : List Byte) :
    natOfBytes (a ++ b) = natOfBytes a + 256 ^ a.length * natOfBytes b := by
  induction a with
  | nil => simp [natOfBytes]
  | cons x a ih =>
    simp only [List.cons_append, natOfBytes, ih, List.length_cons, Nat.pow_succ]
    rw [Nat.mul_add, Nat.add_assoc, ← Nat.mul_assoc, Nat.mul_comm 256 (256 ^ a.length)]

theorem natOfBytes_zeros (n : Nat) : natOfBytes (List.replicate n 0) = 0 := by
  induction n with
  | zero => rfl
  | succ n ih => rw [List.replicate_succ, natOfBytes, ih]; rfl

theorem block64_zeros (a : List Byte) (n : Nat) :
    block64 (a ++ List.replicate n 0) = block64 a := by
  rw [block64, natOfBytes_append, natOfBytes_zeros]; rfl

theorem loadPartial_eq {b : List Byte} (h0 : b ≠ []) (h8 : b.length ≤ 8) :
    Imit.loadPartial b = .ok (block64 b) := by
  rw [Imit.loadPartial, copyInto, if_neg h0, if_pos h8, Exec.ok_bind,
    load64_eq (by simp; omega), block64_zeros]

/-- The value of the MAC key block. -/
theorem BlkImitFinalKey_x86 {key : Key} {f} (h : Computes key f) (n : Nat) :
    ∃ k, (BlkImitFinalKey (some key) n).value .x86 = .ok k ∧
      join32 k = if n = 8 then macK1 (encF f) 0x1b else macK2 (encF f) 0x1b := by
  obtain ⟨e, he, hx⟩ := BlkEncrypted_ofU64 h .x86 0
  obtain ⟨k1, hk1, h1⟩ := imitShifted_x86 he
  obtain ⟨k2, hk2, h2⟩ := imitShifted_x86 hk1
  by_cases h8 : n = 8
  · refine ⟨k1, ?_, ?_⟩
    · simp only [BlkImitFinalKey, h8, if_true]; exact hk1
    · rw [h1, hx, if_pos h8]; rfl
  · refine ⟨k2, ?_, ?_⟩
    · simp only [BlkImitFinalKey, h8, if_false]; exact hk2
    · rw [h2, h1, hx, if_neg h8]; rfl

/-- The loop of `Imit::value` over a message: `n` is the length of the last piece, and the block
accumulated is the chain of all blocks but the last one, xored with the last one. -/
theorem Imit_loop_eq {key : Key} {f} (h : Computes key f) (m : Machine)
    (rd : σ → Nat → Io W (List Byte × σ)) (R : σ → W → List Byte → Prop)
    (hR : ∀ s w d, R s w d → ∃ s' w', rd s 8 w = (.ok (d.take 8, s'), w') ∧ R s' w' (d.drop 8))
    (p : List W64) (tail : List Byte) (ht : tail ≠ []) (ht8 : tail.length ≤ 8) (fuel : Nat)
    (hf : p.length < fuel) (d : List Byte) (hd : d = unblocks64 p ++ tail) (s : σ) (w : W)
    (hs : R s w (d.drop 8)) (block : Blk) (c : W32 × W32) (hb : block.value m = .ok c) :
    ∃ block' v w', Imit.loop rd (some key) fuel s (d.take 8) block w =
        (.ok (block', BlkImitFinalKey (some key) tail.length), w') ∧
      block'.value m = .ok v ∧
      join32 v = block64 tail ^^^ chain (encF f) (join32 c) p ∧
      block'.depth = 6 * p.length + block.depth + 1 := by
  induction p generalizing fuel d s w block c with
  | nil =>
    obtain ⟨fuel, rfl⟩ : ∃ k, fuel = k + 1 := ⟨fuel - 1, by simp at hf; omega⟩
    simp only [unblocks64_nil, List.nil_append] at hd
    subst hd
    have htk : d.take 8 = d := List.take_of_length_le ht8
    have hdr : d.drop 8 = [] := List.drop_of_length_le ht8
    obtain ⟨u, hu, hux⟩ := ofU64_value m (block64 d)
    have hval : (Blk.xored block (BlkRaw.ofU64 (block64 d))).value m =
        .ok (c.1 ^^^ u.1, c.2 ^^^ u.2) := by simp [Blk.value, hb, hu]
    have hjoin : join32 (c.1 ^^^ u.1, c.2 ^^^ u.2) = block64 d ^^^ chain (encF f) (join32 c) [] := by
      rw [join32_xor, hux, BitVec.xor_comm]; rfl
    have hdep : (Blk.xored block (BlkRaw.ofU64 (block64 d))).depth =
        6 * ([] : List W64).length + block.depth + 1 := by
      have : 1 ≤ block.depth := by cases block <;> simp [Blk.depth]
      simp only [Blk.depth, BlkRaw.ofU64, List.length_nil]
      omega
    unfold Imit.loop
    rw [htk, loadPartial_eq ht ht8, Io.lift_ok_bind]
    simp only
    by_cases h8 : d.length < 8
    · rw [if_pos h8]
      exact ⟨_, _, w, rfl, hval, hjoin, hdep⟩
    · rw [if_neg h8]
      obtain ⟨s1, w1, e1, -⟩ := hR s w _ hs
      rw [Io.bind_run_ok e1, hdr]
      exact ⟨_, _, w1, rfl, hval, hjoin, hdep⟩
  | cons x p ih =>
    obtain ⟨fuel, rfl⟩ : ∃ k, fuel = k + 1 := ⟨fuel - 1, by simp at hf; omega⟩
    rw [unblocks64_cons, List.append_assoc] at hd
    have htk : d.take 8 = bytesOf64 x := by rw [hd]; exact List.take_left' (by simp)
    have hdr : d.drop 8 = unblocks64 p ++ tail := by rw [hd]; exact List.drop_left' (by simp)
    obtain ⟨u, hu, hux⟩ := ofU64_value m x
    have hval : (Blk.xored block (BlkRaw.ofU64 x)).value m =
        .ok (c.1 ^^^ u.1, c.2 ^^^ u.2) := by simp [Blk.value, hb, hu]
    have henc := BlkEncrypted_value h m hval
    have hdep : (BlkEncrypted (Blk.xored block (BlkRaw.ofU64 x)) (some key)).depth =
        block.depth + 6 := by
      have : 1 ≤ block.depth := by cases block <;> simp [Blk.depth]
      simp only [BlkEncrypted, Blk.depth, BlkRaw.ofU64]
      omega
    obtain ⟨s1, w1, e1, r1⟩ := hR s w _ hs
    unfold Imit.loop
    rw [htk, loadPartial_eq (bytesOf64_ne x) (by simp), Io.lift_ok_bind, block64_bytesOf64]
    simp only
    rw [if_neg (by simp), Io.bind_run_ok e1]
    simp only
    have hne : (d.drop 8).take 8 ≠ [] := by
      rw [hdr]
      intro e
      have := congrArg List.length e
      have htl : 0 < tail.length := List.length_pos_iff.2 ht
      simp only [List.length_take, List.length_append, List.length_nil] at this
      omega
    rw [if_neg hne]
    obtain ⟨block', v, w', g1, g2, g3, g4⟩ := ih fuel (by simp at hf; omega) (d.drop 8) hdr s1 w1 r1 _ _
      henc
    refine ⟨block', v, w', g1, g2, ?_, ?_⟩
    · rw [g3, join32_encP, join32_xor, hux, chain_cons, BitVec.xor_comm (join32 c)]
    · rw [g4, hdep]; simp only [List.length_cons]; omega

/-- The whole message: the block that `Imit::value` evaluates. -/
theorem Imit_build_eq {key : Key} {f} (h : Computes key f) (m : Machine)
    (rd : σ → Nat → Io W (List Byte × σ)) (s : σ) (w : W) (p : List W64) (tail : List Byte)
    (ht : tail ≠ []) (ht8 : tail.length ≤ 8)
    (hs : SuppliesBlocks rd s w (unblocks64 p ++ tail)) (fuel : Nat) (hf : p.length < fuel) :
    ∃ block v w', Imit.build rd fuel s (some key) w =
        (.ok (BlkEncrypted (.xored block (BlkImitFinalKey (some key) tail.length)) (some key)), w') ∧
      block.value m = .ok v ∧ join32 v = block64 tail ^^^ chain (encF f) 0 p ∧
      block.depth = 6 * p.length + 2 := by
  obtain ⟨R, h0, hR⟩ := hs
  obtain ⟨s1, w1, e1, r1⟩ := hR s w _ h0
  obtain ⟨block, v, w', g1, g2, g3, g4⟩ := Imit_loop_eq h m rd R hR p tail ht ht8 fuel hf _ rfl s1 w1 r1
    BlkRaw.zero (0, 0) rfl
  refine ⟨block, v, w', ?_, g2, g3, g4⟩
  unfold Imit.build
  rw [Io.bind_run_ok e1]
  simp only
  rw [Io.bind_run_ok g1]
  rfl

theorem Imit_value_x86 {key : Key} {f} (h : Computes key f)
    (rd : σ → Nat → Io W (List Byte × σ)) (s : σ) (w : W) (p : List W64) (tail : List Byte)
    (ht : tail ≠ []) (ht8 : tail.length ≤ 8)
    (hs : SuppliesBlocks rd s w (unblocks64 p ++ tail)) (fuel : Nat) (hf : p.length < fuel) :
    ∃ v w', Imit.value .x86 rd fuel s (some key) w = (.ok v, w') ∧
      join32 v = omac (encF f) (if tail.length = 8 then macK1 (encF f) 0x1b
        else macK2 (encF f) 0x1b) p (block64 tail) := by
  obtain ⟨block, v, w', g1, g2, g3, -⟩ := Imit_build_eq h .x86 rd s w p tail ht ht8 hs fuel hf
  obtain ⟨k, hk, hkx⟩ := BlkImitFinalKey_x86 h tail.length
  have hx : (Blk.xored block (BlkImitFinalKey (some key) tail.length)).value .x86 =
      .ok (v.1 ^^^ k.1, v.2 ^^^ k.2) := by simp [Blk.value, g2, hk]
  refine ⟨encP f (v.1 ^^^ k.1, v.2 ^^^ k.2), w', ?_, ?_⟩
  · unfold Imit.value
    rw [Io.bind_run_ok g1, BlkEncrypted_value h .x86 hx]
    rfl
  · rw [join32_encP, join32_xor, g3, hkx]; rfl

theorem Imit_value_iso {key : Key} {f} (h : Computes key f)
    (rd : σ → Nat → Io W (List Byte × σ)) (s : σ) (w : W) (p : List W64) (tail : List Byte)
    (ht : tail ≠ []) (ht8 : tail.length ≤ 8)
    (hs : SuppliesBlocks rd s w (unblocks64 p ++ tail)) (fuel : Nat) (hf : p.length < fuel) :
    ∃ w', Imit.value .iso rd fuel s (some key) w = (.ub .badShift, w') := by
  obtain ⟨block, v, w', g1, g2, g3, -⟩ := Imit_build_eq h .iso rd s w p tail ht ht8 hs fuel hf
  obtain ⟨e, he, -⟩ := BlkEncrypted_ofU64 h .iso 0
  have hk : (BlkImitFinalKey (some key) tail.length).value .iso = .ub .badShift := by
    have h1 := imitShifted_iso he
    unfold BlkImitFinalKey
    simp only
    split
    · exact h1
    · unfold Blk.value
      rw [show Blk.value .iso (Blk.imitShifted (BlkEncrypted BlkRaw.zero (some key))) = _ from h1]
      rfl
  refine ⟨w', ?_⟩
  unfold Imit.value
  rw [Io.bind_run_ok g1]
  simp [BlkEncrypted, Blk.value, g2, hk, Io.lift]

/-- A byte string as whole blocks and a last piece of 1 … 8 bytes. -/
theorem split_message {d : List Byte} (h : d ≠ []) :
    ∃ p tail, d = unblocks64 p ++ tail ∧ tail ≠ [] ∧ tail.length ≤ 8 ∧
      p.length = (d.length - 1) / 8 ∧ tail = d.drop (8 * ((d.length - 1) / 8)) := by
  have hl : 0 < d.length := List.length_pos_iff.2 h
  have e1 : (d.take (8 * ((d.length - 1) / 8))).length = 8 * ((d.length - 1) / 8) := by
    simp; omega
  refine ⟨blocks64 (d.take (8 * ((d.length - 1) / 8))), d.drop (8 * ((d.length - 1) / 8)),
    ?_, ?_, ?_, ?_, rfl⟩
  · rw [unblocks64_blocks64_whole (by rw [e1]; omega), List.take_append_drop]
  · intro e
    have := congrArg List.length e
    simp only [List.length_drop, List.length_nil] at this
    omega
  · simp only [List.length_drop]; omega
  · rw [blocks64_length, e1]; omega

/-! ### gost89::DataImit -/

theorem xorBytes_eq {a b : List Byte} (ha : a.length = 8) (hb : b.length = 8) :
    block64 (List.zipWith (· ^^^ ·) a b) = block64 a ^^^ block64 b := by
  obtain ⟨a0, a1, a2, a3, a4, a5, a6, a7, rfl⟩ := exists_of_length_eight ha
  obtain ⟨b0, b1, b2, b3, b4, b5, b6, b7, rfl⟩ := exists_of_length_eight hb
  simp only [List.zipWith_cons_cons, List.zipWith_nil_right, block64_eq_of8]
  apply BitVec.eq_of_getLsbD_eq
  intro i hi
  simp only [of8, BitVec.getLsbD_xor, BitVec.getLsbD_append]
  repeat' split
  all_goals rfl

theorem ImitedBlock_eq {key : Key} {f} (h : Computes key f) (m : Machine) {b : Blk}
    {v : W32 × W32} (hb : b.value m = .ok v) :
    ∃ r, Gost89.ImitedBlock.value m b (some key) = .ok (BlkRaw.ofPair r) ∧
      join32 r = macStep f (join32 v) := by
  refine ⟨_, ?_, join32_macStep f v⟩
  simp only [Gost89.ImitedBlock.value, hb, Exec.ok_bind, BlkRaw.ofBlock, Blk.value,
    BlkRaw.ofPair, forwardRounds_eq h, Exec.pure_eq]

theorem DataImit_loop_eq {key : Key} {f} (h : Computes key f) (m : Machine) (p : List W64)
    (state : List Byte) (hst : state.length = 8) :
    Gost89.DataImit.loop m (some key) (unblocks64 p) state =
      .ok (bytesOf64 (chain (macStep f) (block64 state) p)) := by
  induction p generalizing state with
  | nil =>
    simp only [unblocks64_nil, chain_nil, Gost89.DataImit.loop]
    rw [bytesOf64_block64 hst]
  | cons x p ih =>
    obtain ⟨b0, b1, b2, b3, b4, b5, b6, b7, hx⟩ := exists_of_length_eight (bytesOf64_length x)
    have hz : (List.zipWith (· ^^^ ·) state (bytesOf64 x)).length = 8 := by
      simp [hst]
    have hv : ∀ y : W64, (Blk.raw (y.extractLsb' 0 32) (y.extractLsb' 32 32)).value m =
      .ok (y.extractLsb' 0 32, y.extractLsb' 32 32) := fun _ => rfl
    obtain ⟨r, hr, hrj⟩ := ImitedBlock_eq h m
      (hv (block64 (List.zipWith (· ^^^ ·) state (bytesOf64 x))))
    rw [unblocks64_cons, hx]
    simp only [List.cons_append, List.nil_append]
    unfold Gost89.DataImit.loop
    simp only
    rw [← hx, ofBytes_eq hz, Exec.ok_bind, hr, Exec.ok_bind]
    have : (BlkRaw.ofPair r).value m = .ok r := rfl
    rw [this, Exec.ok_bind, overwrite8_eq hz, Exec.ok_bind, bytes32_pair, ih _ (by simp), hrj,
      join32_surj, block64_bytesOf64, xorBytes_eq hst (by simp), block64_bytesOf64, chain_cons,
      BitVec.xor_comm]

theorem DataImit_pad_length (d : List Byte) : (Gost89.DataImit.pad d).length % 8 = 0 := by
  simp only [Gost89.DataImit.pad, List.length_append, List.length_replicate]
  omega

theorem DataImit_value_eq {key : Key} {f} (h : Computes key f) (m : Machine) (d : List Byte) :
    Gost89.DataImit.value m d (some key) =
      .ok (bytesOf64 (chain (macStep f) 0 (blocks64 (Gost89.DataImit.pad d)))) := by
  have e := DataImit_loop_eq h m (blocks64 (Gost89.DataImit.pad d)) (List.replicate 8 0) rfl
  rw [unblocks64_blocks64_whole (DataImit_pad_length d)] at e
  rw [Gost89.DataImit.value, e]
  have : block64 (List.replicate 8 0) = 0 := by decide
  rw [this]

theorem blocks64_append_whole {a : List Byte} (h : a.length % 8 = 0) (b : List Byte) :
    blocks64 (a ++ b) = blocks64 a ++ blocks64 b := by
  induction a using bytes_induction with
  | short p hp =>
    obtain rfl : p = [] := List.length_eq_zero_iff.1 (by omega)
    rw [blocks64_short hp]; rfl
  | step p l hp ih =>
    rw [List.length_append] at h
    rw [List.append_assoc, blocks64_append hp, blocks64_append hp, ih (by omega)]; rfl

theorem blocks64_eight {a : List Byte} (h : a.length = 8) : blocks64 a = [block64 a] := by
  have := blocks64_append h []
  rwa [List.append_nil] at this

theorem bytesOf64_inj {x y : W64} (h : bytesOf64 x = bytesOf64 y) : x = y := by
  rw [← block64_bytesOf64 x, h, block64_bytesOf64]

theorem block64_inj {x y : List Byte} (hx : x.length = 8) (hy : y.length = 8)
    (h : block64 x = block64 y) : x = y := by
  rw [← bytesOf64_block64 hx, h, bytesOf64_block64 hy]

theorem DataImit_pad_eq (d : List Byte) : Gost89.DataImit.pad d = zeroPadded d := by
  simp only [Gost89.DataImit.pad, zeroPadded, List.append_assoc, List.replicate_append_replicate,
    List.length_append, List.length_replicate]
  congr 2
  omega

theorem zeroPadded_zeros (d : List Byte) (n : Nat)
    (h : d.length + n ≤ 8 * max 2 ((d.length + 7) / 8)) :
    zeroPadded (d ++ List.replicate n 0) = zeroPadded d := by
  simp only [zeroPadded, List.append_assoc, List.replicate_append_replicate,
    List.length_append, List.length_replicate]
  congr 2
  omega

theorem zeroPadded_whole (d : List Byte) (h : d.length % 8 = 0) (h16 : 16 ≤ d.length) :
    zeroPadded d = d := by
  have : 8 * max 2 ((d.length + 7) / 8) - d.length = 0 := by omega
  rw [zeroPadded, this]; simp

end Goost
