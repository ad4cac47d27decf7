import Verif.Lemmas.Text
import Verif.Lemmas.Bits
import Verif.Model.Kuznyechik
/-
Helper lemmas: block classes of both ciphers that are not ciphers.
-/
namespace Goost
open Spec

theorem hexChar_ok : ∀ d < 16, hexDigit (hexChar d) = some d := by decide

theorem hexText_length (w n : Nat) : (hexText w n).length = w := by
  induction w generalizing n with
  | zero => rfl
  | succ w ih => simp [hexText, ih]

theorem hexText_isHex (w n : Nat) : IsHex (hexText w n) := by
  induction w generalizing n with
  | zero => intro c hc; simp [hexText] at hc
  | succ w ih =>
    intro c hc
    rw [hexText, List.mem_append] at hc
    rcases hc with h | h
    · exact ih _ c h
    · rw [List.mem_singleton.mp h, hexChar_ok _ (Nat.mod_lt _ (by decide))]; rfl

theorem hexNat_hexText (w n : Nat) : hexNat (hexText w n) = n % 16 ^ w := by
  induction w generalizing n with
  | zero => simp [hexText, hexNat, Nat.mod_one]
  | succ w ih =>
    have h1 : hexNat [hexChar (n % 16)] = n % 16 := by
      simp [hexNat, hexChar_ok _ (Nat.mod_lt n (show 0 < 16 by decide))]
    rw [hexText, hexNat_append, ih, h1, List.length_singleton, Nat.pow_one, Nat.pow_succ,
      Nat.mul_comm (16 ^ w) 16, Nat.mod_mul]
    omega

theorem hexNat_zeros (n : Nat) (s : List Char) :
    hexNat (List.replicate n '0' ++ s) = hexNat s := by
  induction n with
  | zero => rfl
  | succ n ih =>
    rw [List.replicate_succ, List.cons_append, ← ih]
    have : hexNat ('0' :: (List.replicate n '0' ++ s)) =
      (List.replicate n '0' ++ s).foldl (fun n c => 16 * n + (hexDigit c).getD 0) 0 := rfl
    rw [this]; rfl

theorem pad_isHex {s : List Char} (h : IsHex s) (n : Nat) : IsHex (List.replicate n '0' ++ s) := by
  intro c hc
  rw [List.mem_append] at hc
  rcases hc with hc | hc
  · rw [(List.mem_replicate.mp hc).2]; decide
  · exact h c hc

theorem Magma.str_value (m : Machine) {s : List Char} (h : IsHex s) (hl : s.length ≤ 16) :
    ∃ v, (Magma.Blk.str s).value m = .ok v ∧ join32 v = BitVec.ofNat 64 (hexNat s) := by
  have hh := pad_isHex h (16 - s.length)
  have hlen : (Magma.padZeros 16 s).length = 16 := by simp [Magma.padZeros]; omega
  have hN : hexNat (Magma.padZeros 16 s) = hexNat s := hexNat_zeros _ _
  have hh : IsHex (Magma.padZeros 16 s) := hh
  have e1 := hexNat_slice (Magma.padZeros 16 s) 8 8 (by omega)
  have e0 := hexNat_slice (Magma.padZeros 16 s) 0 8 (by omega)
  have hlt := hexNat_lt (Magma.padZeros 16 s)
  rw [hlen] at e1 e0 hlt
  simp only [Magma.Blk.value, substr, hlen]
  generalize Magma.padZeros 16 s = v at *
  rw [if_pos (by decide), Exec.ok_bind, stoull16_eq ((hh.drop _).take _)
    (by intro e; have := congrArg List.length e; simp [hlen] at this) (by simp [hlen]),
    Exec.ok_bind, if_pos (by decide), Exec.ok_bind, stoull16_eq ((hh.drop _).take _)
    (by intro e; have := congrArg List.length e; simp [hlen] at this) (by simp [hlen]),
    Exec.ok_bind, e1, e0]
  refine ⟨_, rfl, ?_⟩
  apply BitVec.eq_of_toNat_eq
  rw [join32, toNat_append]
  simp only [BitVec.toNat_setWidth, BitVec.toNat_ofNat, hN]
  rw [hN] at hlt
  generalize hexNat s = n at *
  omega

theorem Kuz.str_value (m : Machine) {s : List Char} (h : IsHex s) (hl : s.length ≤ 32) :
    ∃ v, (Kuz.Blk.str s).value m = .ok v ∧ join64 v = BitVec.ofNat 128 (hexNat s) := by
  have hh := pad_isHex h (32 - s.length)
  have hlen : (Kuz.padZeros 32 s).length = 32 := by simp [Kuz.padZeros]; omega
  have hN : hexNat (Kuz.padZeros 32 s) = hexNat s := hexNat_zeros _ _
  have hh : IsHex (Kuz.padZeros 32 s) := hh
  have e1 := hexNat_slice (Kuz.padZeros 32 s) 16 16 (by omega)
  have e0 := hexNat_slice (Kuz.padZeros 32 s) 0 16 (by omega)
  have hlt := hexNat_lt (Kuz.padZeros 32 s)
  rw [hlen] at e1 e0 hlt
  simp only [Kuz.Blk.value, substr, hlen]
  generalize Kuz.padZeros 32 s = v at *
  rw [if_pos (by decide), Exec.ok_bind, stoull16_eq ((hh.drop _).take _)
    (by intro e; have := congrArg List.length e; simp [hlen] at this) (by simp [hlen]),
    Exec.ok_bind, if_pos (by decide), Exec.ok_bind, stoull16_eq ((hh.drop _).take _)
    (by intro e; have := congrArg List.length e; simp [hlen] at this) (by simp [hlen]),
    Exec.ok_bind, e1, e0]
  refine ⟨_, rfl, ?_⟩
  apply BitVec.eq_of_toNat_eq
  rw [join64, toNat_append]
  simp only [BitVec.toNat_ofNat, hN]
  rw [hN] at hlt
  generalize hexNat s = n at *
  omega

end Goost

namespace Goost
open Spec

theorem Magma.many_value (m : Machine) (rest : List Magma.Blk) (a b : Magma.Blk)
    (va vb : W32 × W32) (vs : List (W32 × W32)) (ha : a.value m = .ok va) (hb : b.value m = .ok vb)
    (h : rest.map (Magma.Blk.value m) = vs.map Exec.ok) :
    ∃ r, (Magma.BlkXored.many a b rest).value m = .ok r ∧
      join32 r = (vs.map join32).foldl (· ^^^ ·) (join32 va ^^^ join32 vb) := by
  induction rest generalizing a b va vb vs with
  | nil =>
    have : vs = [] := by simpa using h.symm
    subst this
    refine ⟨(va.1 ^^^ vb.1, va.2 ^^^ vb.2), ?_, ?_⟩
    · simp [Magma.BlkXored.many, Magma.Blk.value, ha, hb]
    · simp [join32_xor]
  | cons c rest ih =>
    cases vs with
    | nil => simp at h
    | cons vc vs =>
      simp only [List.map_cons, List.cons.injEq] at h
      obtain ⟨r, h1, h2⟩ := ih (.xored a b) c (va.1 ^^^ vb.1, va.2 ^^^ vb.2) vc vs
        (by simp [Magma.Blk.value, ha, hb]) h.1 h.2
      refine ⟨r, h1, ?_⟩
      rw [h2, join32_xor]
      rfl

theorem Kuz.many_value (m : Machine) (rest : List Kuz.Blk) (a b : Kuz.Blk)
    (va vb : W64 × W64) (vs : List (W64 × W64)) (ha : a.value m = .ok va) (hb : b.value m = .ok vb)
    (h : rest.map (Kuz.Blk.value m) = vs.map Exec.ok) :
    ∃ r, (Kuz.BlkXored.many a b rest).value m = .ok r ∧
      join64 r = (vs.map join64).foldl (· ^^^ ·) (join64 va ^^^ join64 vb) := by
  induction rest generalizing a b va vb vs with
  | nil =>
    have : vs = [] := by simpa using h.symm
    subst this
    refine ⟨(va.1 ^^^ vb.1, va.2 ^^^ vb.2), ?_, ?_⟩
    · simp [Kuz.BlkXored.many, Kuz.Blk.value, ha, hb]
    · simp [join64_xor]
  | cons c rest ih =>
    cases vs with
    | nil => simp at h
    | cons vc vs =>
      simp only [List.map_cons, List.cons.injEq] at h
      obtain ⟨r, h1, h2⟩ := ih (.xored a b) c (va.1 ^^^ vb.1, va.2 ^^^ vb.2) vc vs
        (by simp [Kuz.Blk.value, ha, hb]) h.1 h.2
      refine ⟨r, h1, ?_⟩
      rw [h2, join64_xor]
      rfl

theorem xor_perm {n : Nat} {l u : List (BitVec n)} (h : l.Perm u) :
    l.foldl (· ^^^ ·) 0 = u.foldl (· ^^^ ·) 0 :=
  h.foldl_eq' (fun x _ y _ z => by rw [BitVec.xor_assoc, BitVec.xor_comm x y, ← BitVec.xor_assoc]) 0

theorem Kuz.incValue_eq (v : W64 × W64) : join64 (Kuz.incValue v) = join64 v + 1 := by
  obtain ⟨lo, hi⟩ := v
  apply BitVec.eq_of_toNat_eq
  unfold Kuz.incValue
  have e1 : (1 : BitVec 128).toNat = 1 := rfl
  have e2 : (1 : BitVec 64).toNat = 1 := rfl
  have e3 : (0 : BitVec 64).toNat = 0 := rfl
  have hlo := lo.isLt
  have hhi := hi.isLt
  split
  · rename_i h
    have h' : lo.toNat = 2 ^ 64 - 1 := by
      have : lo = BitVec.allOnes 64 := h
      rw [this]; rfl
    simp only [join64, toNat_append, BitVec.toNat_add, e1, e2, e3]
    generalize lo.toNat = a at *
    generalize hi.toNat = b at *
    omega
  · rename_i h
    have h' : lo.toNat ≠ 2 ^ 64 - 1 := by
      intro h'
      exact h (BitVec.eq_of_toNat_eq h')
    simp only [join64, toNat_append, BitVec.toNat_add, e1, e2]
    generalize lo.toNat = a at *
    generalize hi.toNat = b at *
    omega

theorem Kuz.shiftValue_eq (v : W64 × W64) (n : Nat) (h1 : 1 ≤ n) (h2 : n ≤ 63) :
    ∃ r, Kuz.shiftValue v n = .ok r ∧ join64 r = join64 v <<< n := by
  have e : ((64 : Int) - n).toNat = 64 - n := by omega
  have c1 : (0 : Int) ≤ n ∧ (n : Int) < 64 := by omega
  have c2 : (0 : Int) ≤ 64 - n ∧ (64 - n : Int) < 64 := by omega
  refine ⟨(v.1 <<< n, (v.2 <<< n) ||| (v.1 >>> (64 - n))), ?_, ?_⟩
  · simp only [Kuz.shiftValue, shl64, shr64, c1, c2, and_self, if_true, Exec.ok_bind, Exec.pure_eq,
      Int.toNat_natCast, e]
  · obtain ⟨lo, hi⟩ := v
    apply BitVec.eq_of_getLsbD_eq
    intro i hi'
    simp only [join64, BitVec.getLsbD_append, BitVec.getLsbD_shiftLeft, BitVec.getLsbD_or,
      BitVec.getLsbD_ushiftRight, hi', decide_true, Bool.true_and]
    by_cases c : i < 64
    · have : i - n < 64 := by omega
      simp [c, this]
    · by_cases c3 : i < 64 + n
      · have d1 : i - 64 < n := by omega
        have d2 : i - n < 64 := by omega
        have d3 : ¬ i < n := by omega
        have d4 : 64 - n + (i - 64) = i - n := by omega
        simp [c, d1, d2, d3, d4]
      · have d1 : ¬ i - 64 < n := by omega
        have d2 : ¬ i - n < 64 := by omega
        have d3 : ¬ i < n := by omega
        have d4 : i - 64 - n = i - n - 64 := by omega
        have d5 : i - 64 < 64 := by omega
        have d6 : lo.getLsbD (64 - n + (i - 64)) = false := BitVec.getLsbD_of_ge _ _ (by omega)
        simp [c, d1, d2, d3, d4, d5, d6]

end Goost
