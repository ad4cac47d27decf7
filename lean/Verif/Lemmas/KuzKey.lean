import Verif.Lemmas.Kuz
import Verif.Lemmas.Blocks
/-
Kuznyechik keys from text, and what can go wrong while a block is encrypted.
-/
namespace Goost
open Spec Spec.Kuz

/-- A key text of at least 32 hexadecimal digits, as the code reads it: the first half is the first
32 digits, the second half what follows, up to 32 digits. -/
theorem ofString_value {m : Machine} (hm : m.unalignedLoad = true) {s : List Char} (hs : IsHex s)
    (hl : 32 ≤ s.length) (base : Nat) {b : Kuz.Blk} {z : Block} (hb : HasValue m b z) :
    ∃ key, Kuz.Key.ofString s base = .ok key ∧ HasValue m (Kuz.BlkEncrypted b key)
      (Spec.Kuz.enc (BitVec.ofNat 128 (hexNat (s.take 32)) ++
        BitVec.ofNat 128 (hexNat ((s.drop 32).take 32))) z) := by
  refine ⟨Kuz.Key.ofBlocks (.str (s.take 32)) (.str ((s.drop 32).take 32)) base, ?_, ?_⟩
  · simp [Kuz.Key.ofString, Kuz.KeyDataString.high, Kuz.KeyDataString.low, substr, hl]
  · refine encrypt_value hm ?_ ?_ base hb
    · exact Kuz.str_value m (hs.take _) (by simp; omega)
    · exact Kuz.str_value m ((hs.drop _).take _) (by simp; omega)

theorem key_of_halves {s : List Char} (hl : s.length = 64) :
    BitVec.ofNat 128 (hexNat (s.take 32)) ++ BitVec.ofNat 128 (hexNat ((s.drop 32).take 32)) =
      BitVec.ofNat 256 (hexNat s) := by
  have e0 := hexNat_slice s 0 32 (by omega)
  have e1 := hexNat_slice s 32 32 (by omega)
  have hlt := hexNat_lt s
  rw [hl] at e0 e1 hlt
  simp only [List.drop_zero] at e0
  rw [e0, e1]
  apply BitVec.eq_of_toNat_eq
  rw [BitVec.toNat_append, ← Nat.shiftLeft_add_eq_or_of_lt (BitVec.isLt _), Nat.shiftLeft_eq]
  simp only [BitVec.toNat_ofNat]
  generalize hexNat s = n at *
  omega

/-! ### Outcomes other than a value -/

theorem Kuz.xored_bad {m : Machine} {a b : Kuz.Blk} {v : W64 × W64} {x : Exec (W64 × W64)}
    (ha : a.value m = .ok v) (hb : b.value m = x) (hx : ∀ v, x ≠ .ok v) :
    (Kuz.Blk.xored a b).value m = x := by
  simp only [Kuz.Blk.value, ha, hb, Exec.ok_bind]
  cases x with
  | ok v => exact absurd rfl (hx v)
  | _ => rfl

theorem Kuz.xored_bad_left {m : Machine} {a b : Kuz.Blk} {x : Exec (W64 × W64)}
    (ha : a.value m = x) (hx : ∀ v, x ≠ .ok v) : (Kuz.Blk.xored a b).value m = x := by
  simp only [Kuz.Blk.value, ha]
  cases x with
  | ok v => exact absurd rfl (hx v)
  | _ => rfl

theorem Kuz.blkS_bad {m : Machine} {a : Kuz.Blk} {x : Exec (W64 × W64)}
    (ha : a.value m = x) (hx : ∀ v, x ≠ .ok v) : (Kuz.Blk.blkS a).value m = x := by
  simp only [Kuz.Blk.value, ha]
  cases x with
  | ok v => exact absurd rfl (hx v)
  | _ => rfl

theorem Kuz.transform_bad {m : Machine} (n : Nat) {a : Kuz.Blk} {x : Exec (W64 × W64)}
    (ha : a.value m = x) (hx : ∀ v, x ≠ .ok v) : (Kuz.BlkL.transform a n).value m = x := by
  induction n generalizing a with
  | zero => exact ha
  | succ n ih =>
    refine ih ?_
    simp only [Kuz.Blk.value, ha]
    cases x with
    | ok v => exact absurd rfl (hx v)
    | _ => rfl

theorem Kuz.step_bad {m : Machine} {a k : Kuz.Blk} {x : Exec (W64 × W64)}
    (h : (Kuz.Blk.xored a k).value m = x) (hx : ∀ v, x ≠ .ok v) :
    (Kuz.Key.encryptStep a k).value m = x :=
  Kuz.transform_bad 16 (Kuz.blkS_bad h hx) hx

/-- If the first step does not give a value, the encryption has its outcome. -/
theorem Kuz.encrypt_bad {m : Machine} {b : Kuz.Blk} {key : Kuz.Key} {x : Exec (W64 × W64)}
    (h : (Kuz.Key.encryptStep b key.k1).value m = x) (hx : ∀ v, x ≠ .ok v) :
    (Kuz.BlkEncrypted b key).value m = x :=
  Kuz.xored_bad_left (Kuz.step_bad (Kuz.xored_bad_left (Kuz.step_bad (Kuz.xored_bad_left
    (Kuz.step_bad (Kuz.xored_bad_left (Kuz.step_bad (Kuz.xored_bad_left (Kuz.step_bad
    (Kuz.xored_bad_left (Kuz.step_bad (Kuz.xored_bad_left (Kuz.step_bad (Kuz.xored_bad_left
    (Kuz.step_bad (Kuz.xored_bad_left h hx) hx) hx) hx) hx) hx) hx) hx) hx) hx) hx) hx) hx) hx)
    hx) hx) hx

/-- If the first step gives a value and the second does not, the encryption has the outcome of the
second. -/
theorem Kuz.encrypt_bad2 {m : Machine} {b : Kuz.Blk} {key : Kuz.Key} {v : W64 × W64}
    {x : Exec (W64 × W64)} (h1 : (Kuz.Key.encryptStep b key.k1).value m = .ok v)
    (h2 : key.k2.value m = x) (hx : ∀ v, x ≠ .ok v) :
    (Kuz.BlkEncrypted b key).value m = x :=
  Kuz.xored_bad_left (Kuz.step_bad (Kuz.xored_bad_left (Kuz.step_bad (Kuz.xored_bad_left
    (Kuz.step_bad (Kuz.xored_bad_left (Kuz.step_bad (Kuz.xored_bad_left (Kuz.step_bad
    (Kuz.xored_bad_left (Kuz.step_bad (Kuz.xored_bad_left (Kuz.step_bad
    (Kuz.xored_bad_left (Kuz.step_bad (Kuz.xored_bad h1 h2 hx) hx) hx) hx) hx) hx) hx) hx) hx)
    hx) hx) hx) hx) hx) hx) hx) hx

/-- On a machine without unaligned loads the linear step of a value is undefined. -/
theorem Kuz.blkL_misaligned {m : Machine} (hm : m.unalignedLoad = false) {a : Kuz.Blk}
    {v : W64 × W64} (ha : a.value m = .ok v) : (Kuz.BlkL a).value m = .ub .misaligned := by
  refine Kuz.transform_bad 15 (a := .blkR a) ?_ (by simp)
  simp only [Kuz.Blk.value, ha, Exec.ok_bind]
  exact rValue_misaligned hm v

/-! ### No undefined behaviour -/

/-- Evaluating the block is not undefined. -/
def NoUb (m : Machine) (b : Kuz.Blk) : Prop := ∀ u, b.value m ≠ .ub u

theorem Exec.bind_no_ub {α β : Type} {x : Exec α} {f : α → Exec β} (h : ∀ u, x ≠ .ub u)
    (hf : ∀ a u, x = .ok a → f a ≠ .ub u) (u : UB) : (x >>= f) ≠ .ub u := by
  cases x with
  | ok a => exact hf a u rfl
  | throw e => simp
  | ub u' => exact absurd rfl (h u')
  | diverge => simp

theorem NoUb.xored {m : Machine} {a b : Kuz.Blk} (ha : NoUb m a) (hb : NoUb m b) :
    NoUb m (.xored a b) := by
  intro u
  simp only [Kuz.Blk.value]
  exact Exec.bind_no_ub ha (fun v u _ => Exec.bind_no_ub hb (fun _ _ _ => by simp) u) u

theorem NoUb.blkS {m : Machine} {a : Kuz.Blk} (ha : NoUb m a) : NoUb m (.blkS a) := by
  intro u
  simp only [Kuz.Blk.value]
  refine Exec.bind_no_ub ha (fun v u _ => ?_) u
  obtain ⟨r, e, _⟩ := sValue_eq v
  rw [e]; simp

theorem NoUb.blkR {m : Machine} (hm : m.unalignedLoad = true) {a : Kuz.Blk} (ha : NoUb m a) :
    NoUb m (.blkR a) := by
  intro u
  simp only [Kuz.Blk.value]
  refine Exec.bind_no_ub ha (fun v u _ => ?_) u
  obtain ⟨r, e, _⟩ := rValue_eq hm v
  rw [e]; simp

theorem NoUb.transform {m : Machine} (hm : m.unalignedLoad = true) (n : Nat) {a : Kuz.Blk}
    (ha : NoUb m a) : NoUb m (Kuz.BlkL.transform a n) := by
  induction n generalizing a with
  | zero => exact ha
  | succ n ih => exact ih (ha.blkR hm)

theorem NoUb.lsx {m : Machine} (hm : m.unalignedLoad = true) {a k : Kuz.Blk}
    (ha : NoUb m a) (hk : NoUb m k) : NoUb m (Kuz.Key.encryptStep a k) :=
  (NoUb.blkS (ha.xored hk)).transform hm 16

theorem NoUb.cached {m : Machine} {a : Kuz.Blk} (ha : NoUb m a) (i : Nat) : NoUb m (.cached i a) :=
  ha

theorem NoUb.generate {m : Machine} (hm : m.unalignedLoad = true) (n : Nat) {c2 i : Int}
    (hn : (c2 + 1 - i).toNat = n) {a b : Kuz.Blk} (ha : NoUb m a) (hb : NoUb m b) :
    NoUb m (Kuz.BlkIterKey.generate c2 a b i) := by
  induction n generalizing a b i with
  | zero =>
    rw [Kuz.BlkIterKey.generate, if_pos (by omega)]
    exact hb
  | succ n ih =>
    rw [Kuz.BlkIterKey.generate, if_neg (by omega)]
    refine ih (by omega) hb (ha.xored ?_)
    refine NoUb.transform hm 16 (NoUb.blkS (hb.xored (NoUb.transform hm 16 ?_)))
    intro u
    simp [Kuz.BlkRaw.ofU64, Kuz.Blk.value]

theorem NoUb.iterKey {m : Machine} (hm : m.unalignedLoad = true) {a b : Kuz.Blk} (ha : NoUb m a)
    (hb : NoUb m b) (c1 c2 : Int) : NoUb m (Kuz.BlkIterKey a b c1 c2) :=
  NoUb.generate hm _ rfl hb ha

theorem NoUb.encrypted {m : Machine} (hm : m.unalignedLoad = true) {high low b : Kuz.Blk}
    (hh : NoUb m high) (hl : NoUb m low) (base : Nat) (hb : NoUb m b) :
    NoUb m (Kuz.BlkEncrypted b (Kuz.Key.ofBlocks high low base)) := by
  have h1 := hh.cached (base + 1)
  have h2 := hl.cached (base + 2)
  have h3 := (NoUb.iterKey hm h1 h2 1 8).cached (base + 3)
  have h4 := (NoUb.iterKey hm h1 h2 1 7).cached (base + 4)
  have h5 := (NoUb.iterKey hm h3 h4 9 16).cached (base + 5)
  have h6 := (NoUb.iterKey hm h3 h4 9 15).cached (base + 6)
  have h7 := (NoUb.iterKey hm h5 h6 17 24).cached (base + 7)
  have h8 := (NoUb.iterKey hm h5 h6 17 23).cached (base + 8)
  have h9 := (NoUb.iterKey hm h7 h8 25 32).cached (base + 9)
  have h10 := (NoUb.iterKey hm h7 h8 25 31).cached (base + 10)
  exact NoUb.xored (NoUb.lsx hm (NoUb.lsx hm (NoUb.lsx hm (NoUb.lsx hm (NoUb.lsx hm (NoUb.lsx hm
    (NoUb.lsx hm (NoUb.lsx hm (NoUb.lsx hm hb h1) h2) h3) h4) h5) h6) h7) h8) h9) h10

theorem stoull16_no_ub (s : List Char) (u : UB) : stoull16 s ≠ .ub u := by
  unfold stoull16
  split
  · simp
  · split <;> simp

theorem NoUb.str (m : Machine) (s : List Char) : NoUb m (.str s) := by
  intro u
  simp only [Kuz.Blk.value]
  have hs : ∀ (t : List Char) a n u, substr t a n ≠ .ub u := by
    intro t a n u; unfold substr; split <;> simp
  exact Exec.bind_no_ub (hs _ _ _) (fun _ u _ => Exec.bind_no_ub (stoull16_no_ub _) (fun _ u _ =>
    Exec.bind_no_ub (hs _ _ _) (fun _ u _ => Exec.bind_no_ub (stoull16_no_ub _) (fun _ u _ => by
      simp) u) u) u) u

/-! ### Text that cannot be read -/

/-- A text that does not begin with a digit, a sign or white space is rejected by `stoull`. -/
theorem stoull16_reject {c : Char} (r : List Char) (h1 : hexDigit c = none) (h2 : isSpaceC c = false)
    (h3 : c ≠ '+') (h4 : c ≠ '-') : stoull16 (c :: r) = .throw .invalidArgument := by
  unfold stoull16
  have e : (c :: r).dropWhile isSpaceC = c :: r := by simp [h2]
  have e2 : readSigned (c :: r) = none := by
    unfold readSigned
    split
    · rename_i e; exact absurd (List.cons.inj e).1 h4
    · rename_i e; exact absurd (List.cons.inj e).1 h3
    · simp [readNumber, hexDigit?_eq, h1]
  rw [e, e2]

theorem Kuz.padZeros_long {s : List Char} (h : 32 ≤ s.length) : Kuz.padZeros 32 s = s := by
  simp [Kuz.padZeros, show 32 - s.length = 0 by omega]

theorem stoull16_throw (s : List Char) : (∃ v, stoull16 s = .ok v) ∨ ∃ e, stoull16 s = .throw e := by
  unfold stoull16
  split
  · exact Or.inr ⟨_, rfl⟩
  · split
    · exact Or.inl ⟨_, rfl⟩
    · exact Or.inr ⟨_, rfl⟩

theorem Kuz.str_value_long (m : Machine) {s : List Char} (h : s.length = 32) :
    (Kuz.Blk.str s).value m = (do
      let first ← stoull16 (s.drop 16)
      let second ← stoull16 (s.take 16)
      return (first, second)) := by
  simp only [Kuz.Blk.value, Kuz.padZeros_long (show 32 ≤ s.length by omega), substr]
  rw [if_pos (by omega), if_pos (by omega)]
  have : (s.drop 16).take 16 = s.drop 16 := List.take_of_length_le (by simp; omega)
  simp only [this, Exec.ok_bind, List.drop_zero]

/-- A text of 32 characters one of whose halves begins with a character that is not a digit, a sign or
white space is not the text of a block. -/
theorem Kuz.str_reject (m : Machine) {s : List Char} (h : s.length = 32) (i : Nat) (hi : i < 2)
    (c : Char) (hc : s[16 * i]? = some c) (h1 : hexDigit c = none) (h2 : isSpaceC c = false)
    (h3 : c ≠ '+') (h4 : c ≠ '-') : ∃ e, (Kuz.Blk.str s).value m = .throw e := by
  rw [Kuz.str_value_long m h]
  have hcons : ∀ l : List Char, l[0]? = some c → ∃ r, l = c :: r := by
    intro l hl
    cases l with
    | nil => simp at hl
    | cons a r => simp at hl; exact ⟨r, by rw [hl]⟩
  match i, hi with
  | 0, _ =>
    obtain ⟨r, hr⟩ := hcons (s.take 16) (by simpa using hc)
    rcases stoull16_throw (s.drop 16) with ⟨v, e⟩ | ⟨x, e⟩
    · rw [e, hr, stoull16_reject r h1 h2 h3 h4]; exact ⟨_, rfl⟩
    · rw [e]; exact ⟨_, rfl⟩
  | 1, _ =>
    obtain ⟨r, hr⟩ := hcons (s.drop 16) (by simpa using hc)
    rw [hr, stoull16_reject r h1 h2 h3 h4]; exact ⟨_, rfl⟩

end Goost
