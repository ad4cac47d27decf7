import Verif.Lemmas.Feistel
/-
Helper lemmas: S-boxes.
-/
namespace Goost.Magma
open Spec Spec.Magma

theorem nibble_index (v : W32) (i : Nat) :
    ((v >>> (i * 4)) &&& 0xf).toNat = (v.extractLsb' (4 * i) 4).toNat := by
  have : (v >>> (i * 4)) &&& 0xf = (v.extractLsb' (4 * i) 4).setWidth 32 := by
    apply BitVec.eq_of_getLsbD_eq
    intro j hj
    have h15 : (0xf : W32) = BitVec.setWidth 32 (BitVec.allOnes 4) := by decide
    rw [h15]
    simp only [BitVec.getLsbD_and, BitVec.getLsbD_ushiftRight, BitVec.getLsbD_setWidth,
      BitVec.getLsbD_allOnes, BitVec.getLsbD_extractLsb', hj, decide_true, Bool.true_and]
    rw [Nat.mul_comm i 4, Bool.and_comm]
  rw [this, BitVec.toNat_setWidth]
  exact Nat.mod_eq_of_lt (Nat.lt_trans (BitVec.isLt _) (by decide))

theorem ofInt_nibble (x : BitVec 4) : BitVec.ofInt 32 (x.toNat : Int) = x.setWidth 32 := by
  rw [BitVec.ofInt_natCast, BitVec.ofNat_toNat]

theorem transformN_eq {p : List Int} {row : BitVec 4 → BitVec 4}
    (h : ∀ x : BitVec 4, p[x.toNat]? = some ((row x).toNat : Int)) (v : W32) (i : Nat) :
    SboxNibble.transformN v p i =
      .ok ((row (v.extractLsb' (4 * i) 4)).setWidth 32 <<< (i * 4)) := by
  simp only [SboxNibble.transformN, nibble_index, vget, h, Exec.ok_bind, Exec.pure_eq, ofInt_nibble]

theorem or_nibbles (x0 x1 x2 x3 x4 x5 x6 x7 : BitVec 4) :
    (x0.setWidth 32 <<< (0 * 4)) ||| (x1.setWidth 32 <<< (1 * 4)) |||
      (x2.setWidth 32 <<< (2 * 4)) ||| (x3.setWidth 32 <<< (3 * 4)) |||
      (x4.setWidth 32 <<< (4 * 4)) ||| (x5.setWidth 32 <<< (5 * 4)) |||
      (x6.setWidth 32 <<< (6 * 4)) ||| (x7.setWidth 32 <<< (7 * 4)) =
    (x7 ++ x6 ++ x5 ++ x4 ++ x3 ++ x2 ++ x1 ++ x0 : BitVec 32) := by
  have key : ∀ (x : BitVec 4) (i n : Nat), n < 32 → i < 8 →
      (BitVec.setWidth 32 x <<< (i * 4)).getLsbD n =
        (decide (i * 4 ≤ n ∧ n < i * 4 + 4) && x.getLsbD (n - i * 4)) := by
    intro x i n hn hi
    simp only [BitVec.getLsbD_shiftLeft, BitVec.getLsbD_setWidth, hn, decide_true, Bool.true_and]
    by_cases h1 : n < i * 4
    · simp [h1, Nat.not_le.mpr h1]
    · by_cases h2 : n < i * 4 + 4
      · have h3 : i * 4 ≤ n := by omega
        have h4 : n - i * 4 < 32 := by omega
        simp [h1, h2, h3, h4]
      · have h5 : x.getLsbD (n - i * 4) = false := BitVec.getLsbD_of_ge _ _ (by omega)
        simp [h5]
  apply BitVec.eq_of_getLsbD_eq
  intro n hn
  simp only [BitVec.getLsbD_or, key _ 0 n hn (by decide), key _ 1 n hn (by decide),
    key _ 2 n hn (by decide), key _ 3 n hn (by decide), key _ 4 n hn (by decide),
    key _ 5 n hn (by decide), key _ 6 n hn (by decide), key _ 7 n hn (by decide),
    BitVec.getLsbD_append]
  repeat' split
  all_goals
    simp (disch := omega) only [decide_eq_true, decide_eq_false, Bool.false_and, Bool.true_and,
      Bool.false_or, Bool.or_false]
    try (congr 1; try omega)

theorem SboxNibble_eq {p : Fin 8 → List Int} {rows : Fin 8 → BitVec 4 → BitVec 4}
    (h : ∀ i x, (p i)[x.toNat]? = some ((rows i x).toNat : Int)) (v : W32) :
    SboxNibble p v = .ok (t rows v) := by
  simp only [SboxNibble, transformN_eq (h 0), transformN_eq (h 1), transformN_eq (h 2),
    transformN_eq (h 3), transformN_eq (h 4), transformN_eq (h 5), transformN_eq (h 6),
    transformN_eq (h 7), Exec.ok_bind, Exec.pure_eq]
  rw [or_nibbles]
  rfl

/-- The shift-and-or of `SboxTwisted` is the rotation by 11. -/
theorem twist_eq (x : W32) : (x <<< 11) ||| ((x >>> 21) &&& 0x7ff) = x.rotateLeft 11 := by
  apply BitVec.eq_of_getLsbD_eq
  intro n hn
  have hm : (0x7ff : W32) = BitVec.setWidth 32 (BitVec.allOnes 11) := by decide
  rw [hm, BitVec.getLsbD_rotateLeft]
  simp only [BitVec.getLsbD_or, BitVec.getLsbD_shiftLeft, BitVec.getLsbD_and,
    BitVec.getLsbD_ushiftRight, BitVec.getLsbD_setWidth, BitVec.getLsbD_allOnes, hn, decide_true,
    Bool.true_and]
  by_cases h : n < 11
  · simp only [h, decide_true, Bool.not_true, Bool.false_and, Bool.false_or, Bool.and_true]
    rfl
  · have : x.getLsbD (21 + n) = false := BitVec.getLsbD_of_ge _ _ (by omega)
    simp only [h, decide_false, Bool.not_false, Bool.true_and, this, Bool.false_and, Bool.or_false]
    rfl

theorem SboxTwisted_eq {sbox : Sbox} {v r : W32} (h : sbox v = .ok r) :
    SboxTwisted sbox v = .ok (r.rotateLeft 11) := by
  simp only [SboxTwisted, h, Exec.ok_bind, Exec.pure_eq, twist_eq]

theorem R3412_rows : ∀ (i : Fin 8) (x : BitVec 4),
    (SboxR3412.tables i)[x.toNat]? = some ((Spec.Magma.pi i x).toNat : Int) := by
  decide +kernel

theorem SboxR3412_eq (v : W32) : SboxR3412 v = .ok ((t Spec.Magma.pi v).rotateLeft 11) :=
  SboxTwisted_eq (SboxNibble_eq R3412_rows v)

theorem packed_sum (hi lo : Byte) :
    ((hi &&& 0xf0).setWidth 32) + ((lo &&& 0x0f).setWidth 32) =
      (hi.extractLsb' 4 4 ++ lo.extractLsb' 0 4 : BitVec 8).setWidth 32 := by
  have hm : (0xf0 : Byte) = BitVec.allOnes 4 ++ (0 : BitVec 4) := by decide
  have hl : (0x0f : Byte) = (0 : BitVec 4) ++ BitVec.allOnes 4 := by decide
  have hz : ((hi &&& 0xf0).setWidth 32) &&& ((lo &&& 0x0f).setWidth 32) = (0 : W32) := by
    rw [hm, hl]
    apply BitVec.eq_of_getLsbD_eq
    intro n hn
    simp only [BitVec.getLsbD_and, BitVec.getLsbD_setWidth, BitVec.getLsbD_append, hn,
      decide_true, Bool.true_and]
    split <;> simp
  rw [BitVec.add_eq_or_of_and_eq_zero _ _ hz, hm, hl]
  apply BitVec.eq_of_getLsbD_eq
  intro n hn
  simp only [BitVec.getLsbD_or, BitVec.getLsbD_and, BitVec.getLsbD_setWidth,
    BitVec.getLsbD_append, hn, decide_true, Bool.true_and, BitVec.getLsbD_extractLsb',
    BitVec.getLsbD_allOnes]
  by_cases h : n < 4
  · simp [h]
  · by_cases h8 : n < 8
    · have h4 : n - 4 < 4 := by omega
      have : 4 + (n - 4) = n := by omega
      simp [h, h4, this]
    · have : hi.getLsbD n = false := BitVec.getLsbD_of_ge _ _ (by omega)
      have h4 : ¬ (n - 4 < 4) := by omega
      simp [h, this, h4]

theorem sar_extract (w : W32) : (w.sshiftRight 4).extractLsb' 0 4 = w.extractLsb' 4 4 := by
  apply BitVec.eq_of_getLsbD_eq
  intro n hn
  have h1 : 4 + n < 32 := by omega
  have h2 : ¬ (32 ≤ n) := by omega
  simp only [BitVec.getLsbD_extractLsb', BitVec.getLsbD_sshiftRight, hn, decide_true,
    Bool.true_and, Nat.zero_add, h1, h2, if_true, decide_false, Bool.not_false]

theorem low_nibble (w : W32) : (w &&& 0xf).toNat = (w.extractLsb' 0 4).toNat := by
  have h := nibble_index w 0
  simpa using h

theorem SboxByte64Tab_eq {uz : List Byte} (h : 64 ≤ uz.length) (j : Nat) (hj : j < 4) (w : W32) :
    SboxByte64Tab uz j w =
      .ok ((packedRows uz ⟨2 * j + 1, by omega⟩ (w.extractLsb' 4 4) ++
        packedRows uz ⟨2 * j, by omega⟩ (w.extractLsb' 0 4) : BitVec 8).setWidth 32) := by
  have get : ∀ x : BitVec 4, vget uz (x.toNat * 4 + j) = .ok (uz.getD (4 * x.toNat + j) 0) := by
    intro x
    have hx := x.isLt
    have hlt : 4 * x.toNat + j < uz.length := by omega
    rw [vget, Nat.mul_comm, List.getD_eq_getElem?_getD, List.getElem?_eq_getElem hlt]; rfl
  simp only [SboxByte64Tab, low_nibble, sar_extract, get, Exec.ok_bind, Exec.pure_eq, packed_sum,
    packedRows]
  have e1 : (2 * j + 1) / 2 = j := by omega
  have e2 : (2 * j + 1) % 2 ≠ 0 := by omega
  have e3 : 2 * j / 2 = j := by omega
  have e4 : 2 * j % 2 = 0 := by omega
  simp only [e1, e2, e3, e4, if_true, if_false]

theorem or_bytes (x0 x1 x2 x3 : Byte) :
    x0.setWidth 32 ||| (x1.setWidth 32 <<< 8) ||| (x2.setWidth 32 <<< 16) |||
      (x3.setWidth 32 <<< 24) = (x3 ++ x2 ++ x1 ++ x0 : BitVec 32) := by
  have key : ∀ (x : BitVec 8) (i n : Nat), n < 32 → i < 32 →
      (BitVec.setWidth 32 x <<< i).getLsbD n =
        (decide (i ≤ n ∧ n < i + 8) && x.getLsbD (n - i)) := by
    intro x i n hn hi
    simp only [BitVec.getLsbD_shiftLeft, BitVec.getLsbD_setWidth, hn, decide_true, Bool.true_and]
    by_cases h1 : n < i
    · simp [h1, Nat.not_le.mpr h1]
    · by_cases h2 : n < i + 8
      · have h3 : i ≤ n := by omega
        have h4 : n - i < 32 := by omega
        simp [h1, h2, h3, h4]
      · have h5 : x.getLsbD (n - i) = false := BitVec.getLsbD_of_ge _ _ (by omega)
        simp [h5]
  apply BitVec.eq_of_getLsbD_eq
  intro n hn
  have k0 : (BitVec.setWidth 32 x0).getLsbD n = (decide (0 ≤ n ∧ n < 0 + 8) && x0.getLsbD (n - 0)) := by
    rw [← key x0 0 n hn (by decide)]; simp
  simp only [BitVec.getLsbD_or, k0, key _ 8 n hn (by decide),
    key _ 16 n hn (by decide), key _ 24 n hn (by decide), BitVec.getLsbD_append]
  repeat' split
  all_goals
    simp (disch := omega) only [decide_eq_true, decide_eq_false, Bool.false_and, Bool.true_and,
      Bool.false_or, Bool.or_false]
    try (congr 1; try omega)

theorem append_nibbles (a b c d e f g h : BitVec 4) :
    ((a ++ b : BitVec 8) ++ (c ++ d : BitVec 8) ++ (e ++ f : BitVec 8) ++ (g ++ h : BitVec 8) :
      BitVec 32) = (a ++ b ++ c ++ d ++ e ++ f ++ g ++ h : BitVec 32) := by
  apply BitVec.eq_of_getLsbD_eq
  intro n hn
  simp only [BitVec.getLsbD_append]
  repeat' split
  all_goals first | omega | (congr 1 <;> omega)

theorem extract_shift (v : W32) (i j : Nat) :
    (v >>> i).extractLsb' j 4 = v.extractLsb' (i + j) 4 := by
  apply BitVec.eq_of_getLsbD_eq
  intro n hn
  simp only [BitVec.getLsbD_extractLsb', BitVec.getLsbD_ushiftRight, hn, decide_true,
    Bool.true_and]
  congr 1; omega

theorem SboxByte_eq {uz : List Byte} (h : 64 ≤ uz.length) (v : W32) :
    SboxByte uz v = .ok (t (packedRows uz) v) := by
  simp only [SboxByte, SboxByte.ofTabs, SboxByte64Tab_eq h 0 (by decide),
    SboxByte64Tab_eq h 1 (by decide), SboxByte64Tab_eq h 2 (by decide),
    SboxByte64Tab_eq h 3 (by decide), Exec.ok_bind, Exec.pure_eq, or_bytes]
  rw [append_nibbles]
  simp only [extract_shift, Nat.reduceAdd]
  rfl

theorem nibble_t (rows : Fin 8 → BitVec 4 → BitVec 4) (v : BitVec 32) (i : Fin 8) :
    nibble (t rows v) i = rows i (nibble v i) := by
  have h : ∀ a b c d e f g h : BitVec 4,
      nibble (a ++ b ++ c ++ d ++ e ++ f ++ g ++ h : BitVec 32) i =
        [h, g, f, e, d, c, b, a].getD i.val 0 := by
    intro a b c d e f g h
    match i with
    | 0 | 1 | 2 | 3 | 4 | 5 | 6 | 7 =>
      apply BitVec.eq_of_getLsbD_eq; intro n hn
      simp only [nibble, BitVec.getLsbD_extractLsb', BitVec.getLsbD_append, hn, decide_true,
        Bool.true_and]
      repeat' split
      all_goals first | omega | (simp only [List.getD]; congr 1; omega)
  rw [t, h]
  match i with
  | 0 | 1 | 2 | 3 | 4 | 5 | 6 | 7 => rfl

theorem pi_injective : ∀ (i : Fin 8) (x y : BitVec 4),
    Spec.Magma.pi i x = Spec.Magma.pi i y → x = y := by decide +kernel

theorem pi_surjective : ∀ (i : Fin 8) (y : BitVec 4), ∃ x, Spec.Magma.pi i x = y := by
  decide +kernel

theorem nibble_ext {u v : BitVec 32} (h : ∀ i, nibble u i = nibble v i) : u = v := by
  apply BitVec.eq_of_getLsbD_eq; intro n hn
  have := congrArg (fun x : BitVec 4 => x.getLsbD (n % 4)) (h ⟨n / 4, by omega⟩)
  have hm : n % 4 < 4 := by omega
  have hd : 4 * (n / 4) + n % 4 = n := by omega
  simpa [nibble, hm, hd] using this

end Goost.Magma
