import Verif.Lemmas.Growing
/-
Lemmas about cipher feedback objects made by the constructors that take pending bytes.
-/
namespace Goost
open Goost.Magma Spec Spec.Magma Spec.Modes
variable {W σ τ : Type}

theorem CFBSink_pending (m : Machine) (wr : τ → List Byte → Io W τ) (key : Key) (s : τ) (rl rr : W64)
    (p : List Byte) (hp : p.length < 8) (q : List Byte) (h : q.length + p.length < 8) :
    CFBSink.loop m wr key p s q rl rr = pure ⟨s, key, rl, rr, q ++ p⟩ := by
  induction p generalizing q with
  | nil => simp [CFBSink.loop]
  | cons b p ih =>
    simp only [List.length_cons] at h hp
    unfold CFBSink.loop
    simp only [List.length_append, List.length_cons, List.length_nil]
    rw [if_neg (by omega), ih (by omega) _ (by simp; omega), List.append_assoc]
    rfl

theorem CFBSink_stuck (m : Machine) (wr : τ → List Byte → Io W τ) (key : Key) (s : τ) (rl rr : W64)
    (p q : List Byte) (h : 8 ≤ q.length) :
    CFBSink.loop m wr key p s q rl rr = pure ⟨s, key, rl, rr, q ++ p⟩ := by
  induction p generalizing q with
  | nil => simp [CFBSink.loop]
  | cons b p ih =>
    unfold CFBSink.loop
    simp only [List.length_append, List.length_cons, List.length_nil]
    rw [if_neg (by omega), ih _ (by simp; omega), List.append_assoc]
    rfl

theorem gost89_CFBSink_pending (m : Machine) (wr : τ → List Byte → Io W τ) (key : Key) (s : τ)
    (r : W64) (p : List Byte) (hp : p.length < 8) (q : List Byte) (h : q.length + p.length < 8) :
    Gost89.CFBSink.loop m wr key p s q r = pure ⟨s, key, r, q ++ p⟩ := by
  induction p generalizing q with
  | nil => simp [Gost89.CFBSink.loop]
  | cons b p ih =>
    simp only [List.length_cons] at h hp
    unfold Gost89.CFBSink.loop
    simp only [List.length_append, List.length_cons, List.length_nil]
    rw [if_neg (by omega), ih (by omega) _ (by simp; omega), List.append_assoc]
    rfl

theorem gost89_CFBSink_stuck (m : Machine) (wr : τ → List Byte → Io W τ) (key : Key) (s : τ)
    (r : W64) (p q : List Byte) (h : 8 ≤ q.length) :
    Gost89.CFBSink.loop m wr key p s q r = pure ⟨s, key, r, q ++ p⟩ := by
  induction p generalizing q with
  | nil => simp [Gost89.CFBSink.loop]
  | cons b p ih =>
    unfold Gost89.CFBSink.loop
    simp only [List.length_append, List.length_cons, List.length_nil]
    rw [if_neg (by omega), ih _ (by simp; omega), List.append_assoc]
    rfl

theorem xorWords_append {p : List Byte} (h : p.length = 8) (q : List Byte) (x y : W32) :
    xorWords (p ++ q) x y = (xorWords p x y).bind fun c => .ok (c ++ q) := by
  obtain ⟨b0, b1, b2, b3, b4, b5, b6, b7, rfl⟩ := exists_of_length_eight h
  rfl

theorem xorWords_long {p : List Byte} (h : 8 ≤ p.length) (e : W32 × W32) :
    xorWords p e.2 e.1 =
      .ok (bytesOf64 (block64 (p.take 8) ^^^ (join32 e).rotateLeft 32) ++ p.drop 8) := by
  have ht : (p.take 8).length = 8 := by simp; omega
  have := xorWords_append ht (p.drop 8) e.2 e.1
  rw [List.take_append_drop, xorWords_eq ht (e.2, e.1)] at this
  rw [this]
  have hj : join32 (e.2, e.1) = (join32 e).rotateLeft 32 := by
    apply BitVec.eq_of_getLsbD_eq
    intro i hi
    simp only [join32, BitVec.getLsbD_append, BitVec.getLsbD_rotateLeft]
    by_cases h32 : i < 32
    · simp [h32, hi]
    · simp [h32, hi]
      intro _ ; omega
  rw [hj]
  rfl

/-- `CFBSource` with pending bytes supplies these, then the decryption of what its source
supplies. -/
theorem CFBSource_supplies_pending (m : Machine) (rd : σ → Nat → Io W (List Byte × σ)) {key : Key} {f}
    (h : Computes key f) (hl : key.isLazy = true) (s : σ) (w : W) (c : List Byte)
    (hs : SuppliesBlocks rd s w c) (hc : c.length % 8 = 0) (ivl ivr : W64) (p : List Byte) :
    Supplies (CFBSource.read m rd) ⟨s, key, ivl, ivr, p⟩ w (p ++ cfbPlain f [ivl, ivr] c) := by
  obtain ⟨R, h0, hR⟩ := hs
  refine ⟨fun t w d => t.key = key ∧ ∃ c, R t.source w c ∧ c.length % 8 = 0 ∧
    d = t.plain ++ cfbPlain f [t.ivl, t.ivr] c, ⟨rfl, c, h0, hc, rfl⟩, ?_⟩
  rintro t w d ⟨hk, c, hr, hc, rfl⟩ n
  obtain ⟨t', w', c', g1, g2, g3, g4, g5⟩ := CFBSource_loop_eq m rd h hl n R hR (n + 1) t.source w c
    t.plain t.ivl t.ivr [] hr hc (Nat.zero_le _) (by omega)
    (by simp only [List.length_nil]; split <;> omega)
  refine ⟨t', w', ?_, g2, c', g3, g4, ?_⟩
  · rw [CFBSource.read, hk, g1]; rfl
  · rw [g5]; rfl

theorem gost89_CFBSource_supplies_pending (m : Machine) (rd : σ → Nat → Io W (List Byte × σ))
    {key : Key} {f} (h : Computes key f) (hl : key.isLazy = true) (s : σ) (w : W) (c : List Byte)
    (hs : SuppliesBlocks rd s w c) (hc : c.length % 8 = 0) (iv : W64) (p : List Byte) :
    Supplies (Gost89.CFBSource.read m rd) ⟨s, key, iv, p⟩ w (p ++ cfbPlain f [iv] c) := by
  obtain ⟨R, h0, hR⟩ := hs
  refine ⟨fun t w d => t.key = key ∧ ∃ c, R t.source w c ∧ c.length % 8 = 0 ∧
    d = t.plain ++ cfbPlain f [t.iv] c, ⟨rfl, c, h0, hc, rfl⟩, ?_⟩
  rintro t w d ⟨hk, c, hr, hc, rfl⟩ n
  obtain ⟨t', w', c', g1, g2, g3, g4, g5⟩ := gost89_CFBSource_loop_eq m rd h hl n R hR (n + 1)
    t.source w c t.plain t.iv [] hr hc (Nat.zero_le _) (by omega)
    (by simp only [List.length_nil]; split <;> omega)
  refine ⟨t', w', ?_, g2, c', g3, g4, ?_⟩
  · rw [Gost89.CFBSource.read, hk, g1]; rfl
  · rw [g5]; rfl

end Goost
