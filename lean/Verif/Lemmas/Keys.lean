import Verif.Lemmas.Sbox
import Verif.Lemmas.Text
/-
Helper lemmas: key data and keys.
-/
namespace Goost.Magma
open Spec Spec.Magma

theorem keyWord_toNat (n : Nat) (hn : n < 2 ^ 256) (i : Fin 8) :
    (keyWord (BitVec.ofNat 256 n) i).toNat = n / 2 ^ (32 * (7 - i.val)) % 2 ^ 32 := by
  simp only [keyWord, BitVec.extractLsb'_toNat, BitVec.toNat_ofNat, Nat.mod_eq_of_lt hn,
    Nat.shiftRight_eq_div_pow]

theorem KeyDataString_eq {s : List Char} (h : IsHex s) (hl : s.length = 64) (i : Fin 8) :
    KeyDataString s (i.val : Int) = .ok (keyWord (BitVec.ofNat 256 (hexNat s)) i) := by
  have hi := i.isLt
  have h0 : ¬ ((i.val : Int) < 0 ∨ (i.val : Int) > 7) := by omega
  have hs : i.val * 8 ≤ s.length := by omega
  have hlen : ((s.drop (i.val * 8)).take 8).length = 8 := by simp; omega
  simp only [KeyDataString, hl, ne_eq, not_true_eq_false, if_false, h0, Int.toNat_natCast, substr]
  rw [if_pos (by omega)]
  simp only [Exec.ok_bind]
  rw [istreamHex32_eq ((h.drop _).take _) hlen]
  congr 1
  apply BitVec.eq_of_toNat_eq
  have hN := hexNat_lt s
  rw [hl] at hN
  have hN' : hexNat s < 2 ^ 256 := Nat.lt_of_lt_of_le hN (by decide)
  rw [keyWord_toNat _ hN', BitVec.toNat_ofNat, hexNat_slice _ _ _ (by omega), hl]
  have e1 : (16 : Nat) ^ 8 = 2 ^ 32 := by decide
  have e2 : (16 : Nat) ^ (64 - i.val * 8 - 8) = 2 ^ (32 * (7 - i.val)) := by
    have : (16 : Nat) = 2 ^ 4 := by decide
    rw [this, ← Nat.pow_mul]
    congr 1
    omega
  rw [e1, e2, Nat.mod_mod]

theorem KeyCachedData_eq {kd : KeyData} {k : Fin 8 → W32}
    (h : ∀ i : Fin 8, kd (i.val : Int) = .ok (k i)) (i : Fin 8) :
    KeyCachedData kd (i.val : Int) = .ok (k i) := by
  have h0 : kd 0 = .ok (k 0) := h 0
  have h1 : kd 1 = .ok (k 1) := h 1
  have h2 : kd 2 = .ok (k 2) := h 2
  have h3 : kd 3 = .ok (k 3) := h 3
  have h4 : kd 4 = .ok (k 4) := h 4
  have h5 : kd 5 = .ok (k 5) := h 5
  have h6 : kd 6 = .ok (k 6) := h 6
  have h7 : kd 7 = .ok (k 7) := h 7
  simp only [KeyCachedData, h0, h1, h2, h3, h4, h5, h6, h7, Exec.ok_bind, vgetI]
  rw [if_neg (by omega), Int.toNat_natCast]
  match i with
  | 0 => rfl | 1 => rfl | 2 => rfl | 3 => rfl | 4 => rfl | 5 => rfl | 6 => rfl | 7 => rfl

theorem KeyDataNative_eq {kd : List W32} (h : 8 ≤ kd.length) (i : Fin 8) :
    KeyDataNative kd (i.val : Int) = .ok (kd[i.val]'(by omega)) := by
  simp only [KeyDataNative, vgetI]
  rw [if_neg (by omega), Int.toNat_natCast, vget, List.getElem?_eq_getElem (by omega)]

theorem LazyKey_computes {kd : KeyData} {sbox : Sbox} {k : Fin 8 → W32} {t : W32 → W32}
    (hk : ∀ i : Fin 8, kd (i.val : Int) = .ok (k i)) (hs : ∀ v, sbox v = .ok (t v)) :
    Computes (LazyKey kd sbox) fun i v => t (v + k i) := by
  intro v i
  simp only [LazyKey, hk, Exec.ok_bind, hs, BitVec.add_comm]

theorem LazyKey_ofString_computes {s : List Char} (h : IsHex s) (hl : s.length = 64) :
    Computes (LazyKey.ofString s) fun i => g Spec.Magma.pi (keyWord (BitVec.ofNat 256 (hexNat s)) i) :=
  LazyKey_computes (KeyCachedData_eq (KeyDataString_eq h hl)) SboxR3412_eq

theorem LazyKey_ofStringSbox_computes {s : List Char} (h : IsHex s) (hl : s.length = 64)
    {sbox : Sbox} {t : W32 → W32} (hs : ∀ v, sbox v = .ok (t v)) :
    Computes (LazyKey.ofStringSbox s sbox)
      fun i v => t (v + keyWord (BitVec.ofNat 256 (hexNat s)) i) :=
  LazyKey_computes (KeyCachedData_eq (KeyDataString_eq h hl)) hs

theorem LazyKey_ofNative_computes {kd : List W32} (h : 8 ≤ kd.length)
    {sbox : Sbox} {t : W32 → W32} (hs : ∀ v, sbox v = .ok (t v)) :
    Computes (LazyKey.ofNative kd sbox) fun i v => t (v + kd[i.val]'(by omega)) :=
  LazyKey_computes (KeyDataNative_eq h) hs

theorem asLazy_of {key : Key} (h : key.isLazy = true) : key.asLazy = some key := by
  simp [Key.asLazy, h]

/-! ### Containers -/

theorem natOfBytes_lt (l : List Byte) : natOfBytes l < 256 ^ l.length := by
  induction l with
  | nil => simp [natOfBytes]
  | cons b l ih =>
    rw [natOfBytes, List.length_cons, Nat.pow_succ]
    have := b.isLt
    omega

theorem natOfBytes_append (l u : List Byte) :
    natOfBytes (l ++ u) = natOfBytes l + 256 ^ l.length * natOfBytes u := by
  induction l with
  | nil => simp [natOfBytes]
  | cons b l ih =>
    rw [List.cons_append, natOfBytes, natOfBytes, ih, List.length_cons, Nat.pow_succ,
      Nat.mul_comm (256 ^ l.length) 256, Nat.mul_add, Nat.mul_assoc, Nat.add_assoc]

theorem natOfBytes_slice (l : List Byte) (a n : Nat) (h : a + n ≤ l.length) :
    natOfBytes ((l.drop a).take n) = natOfBytes l / 256 ^ a % 256 ^ n := by
  have e : l = l.take a ++ ((l.drop a).take n ++ (l.drop a).drop n) := by
    rw [List.take_append_drop, List.take_append_drop]
  have l1 : (l.take a).length = a := by simp; omega
  have l2 : ((l.drop a).take n).length = n := by simp; omega
  have h1 := natOfBytes_append (l.take a) ((l.drop a).take n ++ (l.drop a).drop n)
  have h2 := natOfBytes_append ((l.drop a).take n) ((l.drop a).drop n)
  rw [← e, l1] at h1
  rw [l2] at h2
  have b1 := natOfBytes_lt (l.take a)
  have b2 := natOfBytes_lt ((l.drop a).take n)
  rw [l1] at b1
  rw [l2] at b2
  rw [h1, Nat.add_mul_div_left _ _ (Nat.pow_pos (by decide)), Nat.div_eq_of_lt b1, Nat.zero_add,
    h2, Nat.add_mul_mod_self_left, Nat.mod_eq_of_lt b2]

theorem word_of_bytes (a b c d : Byte) :
    (a ++ b ++ c ++ d : BitVec 32).toNat = natOfBytes [d, c, b, a] := by
  simp only [toNat_append, natOfBytes]
  generalize a.toNat = a'; generalize b.toNat = b'
  generalize c.toNat = c'; generalize d.toNat = d'
  omega

theorem htonl_load (a b c d : Byte) :
    htonl (d ++ c ++ b ++ a : BitVec 32) = (a ++ b ++ c ++ d : BitVec 32) := by
  have e0 : (d ++ c ++ b ++ a : BitVec 32).extractLsb' 0 8 = a := by
    apply BitVec.eq_of_getLsbD_eq; intro i hi
    simp only [BitVec.getLsbD_extractLsb', BitVec.getLsbD_append, hi, decide_true, Bool.true_and]
    repeat' split
    all_goals first | omega | (congr 1; omega)
  have e1 : (d ++ c ++ b ++ a : BitVec 32).extractLsb' 8 8 = b := by
    apply BitVec.eq_of_getLsbD_eq; intro i hi
    simp only [BitVec.getLsbD_extractLsb', BitVec.getLsbD_append, hi, decide_true, Bool.true_and]
    repeat' split
    all_goals first | omega | (congr 1; omega)
  have e2 : (d ++ c ++ b ++ a : BitVec 32).extractLsb' 16 8 = c := by
    apply BitVec.eq_of_getLsbD_eq; intro i hi
    simp only [BitVec.getLsbD_extractLsb', BitVec.getLsbD_append, hi, decide_true, Bool.true_and]
    repeat' split
    all_goals first | omega | (congr 1; omega)
  have e3 : (d ++ c ++ b ++ a : BitVec 32).extractLsb' 24 8 = d := by
    apply BitVec.eq_of_getLsbD_eq; intro i hi
    simp only [BitVec.getLsbD_extractLsb', BitVec.getLsbD_append, hi, decide_true, Bool.true_and]
    repeat' split
    all_goals first | omega | (congr 1; omega)
  unfold htonl
  rw [e0, e1, e2, e3]

theorem exists_of_length_32 {l : List Byte} (h : l.length = 32) :
    ∃ b0 b1 b2 b3 b4 b5 b6 b7 b8 b9 b10 b11 b12 b13 b14 b15 b16 b17 b18 b19 b20 b21 b22 b23 b24 b25
      b26 b27 b28 b29 b30 b31,
      l = [b0, b1, b2, b3, b4, b5, b6, b7, b8, b9, b10, b11, b12, b13, b14, b15, b16, b17, b18, b19,
        b20, b21, b22, b23, b24, b25, b26, b27, b28, b29, b30, b31] := by
  match l, h with
  | [b0, b1, b2, b3, b4, b5, b6, b7, b8, b9, b10, b11, b12, b13, b14, b15, b16, b17, b18, b19,
      b20, b21, b22, b23, b24, b25, b26, b27, b28, b29, b30, b31], _ =>
    exact ⟨b0, b1, b2, b3, b4, b5, b6, b7, b8, b9, b10, b11, b12, b13, b14, b15, b16, b17, b18, b19,
      b20, b21, b22, b23, b24, b25, b26, b27, b28, b29, b30, b31, rfl⟩

/-- The eight words of a 256-bit key. -/
def keyWords (K : BitVec 256) : List W32 :=
  [keyWord K 0, keyWord K 1, keyWord K 2, keyWord K 3, keyWord K 4, keyWord K 5, keyWord K 6,
   keyWord K 7]

theorem container_word {key : List Byte} (h : key.length = 32) (i : Fin 8) {a b c d : Byte}
    (e : (key.reverse.drop (4 * (7 - i.val))).take 4 = [d, c, b, a]) :
    (a ++ b ++ c ++ d : BitVec 32) =
      keyWord (BitVec.ofNat 256 (natOfBytes key.reverse)) i := by
  apply BitVec.eq_of_toNat_eq
  have hN := natOfBytes_lt key.reverse
  rw [List.length_reverse, h] at hN
  have hN' : natOfBytes key.reverse < 2 ^ 256 := Nat.lt_of_lt_of_le hN (by decide)
  rw [keyWord_toNat _ hN', word_of_bytes, ← e,
    natOfBytes_slice _ _ _ (by rw [List.length_reverse, h]; omega)]
  have e1 : (256 : Nat) ^ 4 = 2 ^ 32 := by decide
  have e2 : (256 : Nat) ^ (4 * (7 - i.val)) = 2 ^ (32 * (7 - i.val)) := by
    have : (256 : Nat) = 2 ^ 8 := by decide
    rw [this, ← Nat.pow_mul]
    congr 1
    omega
  rw [e1, e2]

theorem copyInto_full {n : Nat} {l : List Byte} (hn : 0 < n) (h : l.length = n) :
    copyInto n l = .ok l := by
  unfold copyInto
  rw [if_neg (by intro e; simp [e] at h; omega), if_pos (by omega), h, Nat.sub_self,
    List.replicate_zero, List.append_nil]

theorem makeKey_eq {c : Container} (hk : c.key.length = 32) (hs : c.sbox.length = 64) :
    ECBSource.makeKey c = .ok (LazyKey.ofNative
      (keyWords (BitVec.ofNat 256 (natOfBytes c.key.reverse))) (SboxTwisted (SboxByte c.sbox))) := by
  have hw := fun i a b c' d => @container_word c.key hk i a b c' d
  rw [ECBSource.makeKey, copyInto_full (by decide) hk]
  obtain ⟨b0, b1, b2, b3, b4, b5, b6, b7, b8, b9, b10, b11, b12, b13, b14, b15, b16, b17, b18, b19,
      b20, b21, b22, b23, b24, b25, b26, b27, b28, b29, b30, b31, e⟩ := exists_of_length_32 hk
  simp only [keyWords]
  rw [e] at hw ⊢
  rw [← hw 0 b0 b1 b2 b3 rfl, ← hw 1 b4 b5 b6 b7 rfl, ← hw 2 b8 b9 b10 b11 rfl,
    ← hw 3 b12 b13 b14 b15 rfl, ← hw 4 b16 b17 b18 b19 rfl, ← hw 5 b20 b21 b22 b23 rfl,
    ← hw 6 b24 b25 b26 b27 rfl, ← hw 7 b28 b29 b30 b31 rfl]
  rw [copyInto_full (by decide) hs]
  refine Eq.trans (b := .ok (LazyKey.ofNative
    ([(b3 ++ b2 ++ b1 ++ b0 : BitVec 32), (b7 ++ b6 ++ b5 ++ b4 : BitVec 32),
     (b11 ++ b10 ++ b9 ++ b8 : BitVec 32), (b15 ++ b14 ++ b13 ++ b12 : BitVec 32),
     (b19 ++ b18 ++ b17 ++ b16 : BitVec 32), (b23 ++ b22 ++ b21 ++ b20 : BitVec 32),
     (b27 ++ b26 ++ b25 ++ b24 : BitVec 32), (b31 ++ b30 ++ b29 ++ b28 : BitVec 32)].map htonl)
    (SboxTwisted (SboxByte c.sbox)))) rfl ?_
  simp only [List.map_cons, List.map_nil, htonl_load]

theorem packed_total {uz : List Byte} (h : 64 ≤ uz.length) (v : W32) :
    SboxTwisted (SboxByte uz) v = .ok ((t (packedRows uz) v).rotateLeft 11) :=
  SboxTwisted_eq (SboxByte_eq h v)

theorem keyWords_length (K : BitVec 256) : (keyWords K).length = 8 := rfl

theorem keyWords_get (K : BitVec 256) (i : Fin 8) :
    (keyWords K)[i.val]'(by rw [keyWords_length]; exact i.isLt) = keyWord K i := by
  match i with
  | 0 => rfl | 1 => rfl | 2 => rfl | 3 => rfl | 4 => rfl | 5 => rfl | 6 => rfl | 7 => rfl

theorem natOfWords_fold (ws : List W32) (n : Nat) :
    ws.foldl (fun n w => n * 2 ^ 32 + w.toNat) n = n * 2 ^ (32 * ws.length) + natOfWords ws := by
  induction ws generalizing n with
  | nil => simp [natOfWords]
  | cons w ws ih =>
    have e : natOfWords (w :: ws) = w.toNat * 2 ^ (32 * ws.length) + natOfWords ws := by
      have := ih (0 * 2 ^ 32 + w.toNat)
      rw [Nat.zero_mul, Nat.zero_add] at this
      rw [← this]
      simp [natOfWords]
    rw [List.foldl_cons, ih, e, List.length_cons, Nat.mul_add 32, Nat.pow_add, Nat.add_mul,
      Nat.mul_assoc, Nat.mul_comm (2 ^ 32), Nat.add_assoc]

theorem natOfWords_cons (w : W32) (ws : List W32) :
    natOfWords (w :: ws) = w.toNat * 2 ^ (32 * ws.length) + natOfWords ws := by
  have := natOfWords_fold ws w.toNat
  simpa [natOfWords] using this

theorem natOfWords_lt (ws : List W32) : natOfWords ws < 2 ^ (32 * ws.length) := by
  induction ws with
  | nil => simp [natOfWords]
  | cons w ws ih =>
    rw [natOfWords_cons, List.length_cons, Nat.mul_add 32, Nat.pow_add, Nat.mul_comm (2 ^ (32 * _))]
    have := w.isLt
    have h2 : (w.toNat + 1) * 2 ^ (32 * ws.length) ≤ 2 ^ 32 * 2 ^ (32 * ws.length) :=
      Nat.mul_le_mul_right _ (by omega)
    rw [Nat.add_mul] at h2
    simp only [Nat.mul_one]
    omega

theorem natOfWords_get (ws : List W32) (i : Nat) (h : i < ws.length) :
    natOfWords ws / 2 ^ (32 * (ws.length - 1 - i)) % 2 ^ 32 = (ws[i]).toNat := by
  induction ws generalizing i with
  | nil => simp at h
  | cons w ws ih =>
    have hl := natOfWords_lt ws
    rw [natOfWords_cons]
    cases i with
    | zero =>
      simp only [List.length_cons, Nat.add_sub_cancel, Nat.sub_zero, List.getElem_cons_zero]
      rw [Nat.mul_comm, Nat.mul_add_div (Nat.pow_pos (by decide)), Nat.div_eq_of_lt hl,
        Nat.add_zero, Nat.mod_eq_of_lt w.isLt]
    | succ i =>
      have hi : i < ws.length := by simpa using h
      have e : (w :: ws).length - 1 - (i + 1) = ws.length - 1 - i := by
        simp only [List.length_cons]; omega
      rw [e, List.getElem_cons_succ, ← ih i hi]
      have e2 : 32 * ws.length = 32 * (ws.length - 1 - i) + (32 + 32 * i) := by omega
      rw [e2, Nat.pow_add, Nat.mul_comm (w.toNat), Nat.mul_assoc, Nat.mul_add_div
        (Nat.pow_pos (by decide)), Nat.pow_add, Nat.mul_assoc, Nat.mul_add_mod_self_left]

theorem native_word {ws : List W32} (h : ws.length = 8) (i : Fin 8) :
    keyWord (BitVec.ofNat 256 (natOfWords ws)) i = ws[i.val]'(by omega) := by
  have hN := natOfWords_lt ws
  rw [h] at hN
  apply BitVec.eq_of_toNat_eq
  rw [keyWord_toNat _ hN, ← natOfWords_get ws i.val (by omega), h]

end Goost.Magma
