import Verif.Spec.Crash
import Verif.Lemmas.Layers
import Verif.Lemmas.Reads
import Verif.Lemmas.Reuse
/-
Helper lemmas: a device that stops, and reads through stacks of sources one block at a time.
-/
namespace Goost
open Goost.Magma Goost.Layers Spec Spec.Magma Spec.Modes
variable {W σ τ : Type}

theorem diskWrite_all (xs : List (List Byte)) (a : List Byte) (k : Nat) :
    ∃ r j, writeAll diskWrite () xs ⟨a, k⟩ = (r, ⟨a ++ xs.flatten.take k, j⟩) ∧
      (xs.flatten.length ≤ k → r = .ok ()) ∧ (k < xs.flatten.length → r = .throw (.user 9)) := by
  induction xs generalizing a k with
  | nil => exact ⟨.ok (), k, by simp; rfl, fun _ => rfl, fun h => by simp at h⟩
  | cons x xs ih =>
    rw [writeAll_cons, List.flatten_cons]
    by_cases hx : x.length ≤ k
    · obtain ⟨r, j, e, h1, h2⟩ := ih (a ++ x) (k - x.length)
      refine ⟨r, j, ?_, fun h => h1 ?_, fun h => h2 ?_⟩
      · have : diskWrite () x ⟨a, k⟩ = (.ok (), ⟨a ++ x, k - x.length⟩) := by simp [diskWrite, hx]
        rw [Io.bind_run_ok this, e, List.take_append, List.take_of_length_le hx, List.append_assoc]
      · rw [List.length_append] at h; omega
      · rw [List.length_append] at h; omega
    · refine ⟨.throw (.user 9), 0, ?_, fun h => ?_, fun _ => rfl⟩
      · have : diskWrite () x ⟨a, k⟩ = (.throw (.user 9), ⟨a ++ x.take k, 0⟩) := by simp [diskWrite, hx]
        rw [bind_run_throw this, List.take_append_of_le_length (by omega)]
      · rw [List.length_append] at h; omega

theorem Layer_enc_take (l : Layer) (p : List W64) (n : Nat) :
    Layer.enc l (p.take n) = (Layer.enc l p).take n := by
  cases l with
  | ecb key => simp [Layer.enc, ecb, List.map_take]
  | cfb key ivl ivr => exact cfbEnc_take _ _ _ _
  | gostCfb key iv => exact cfbEnc_take _ _ _ _

theorem Layer_enc_length (l : Layer) (p : List W64) : (Layer.enc l p).length = p.length := by
  cases l with
  | ecb key => simp [Layer.enc, ecb]
  | cfb key ivl ivr => exact cfbEnc_length _ _ _ (by simp)
  | gostCfb key iv => exact cfbEnc_length _ _ _ (by simp)

theorem stackEnc_take (ls : List Layer) (p : List W64) (n : Nat) :
    stackEnc ls (p.take n) = (stackEnc ls p).take n := by
  induction ls generalizing p with
  | nil => rfl
  | cons l ls ih =>
    show stackEnc ls (Layer.enc l (p.take n)) = (stackEnc ls (Layer.enc l p)).take n
    rw [Layer_enc_take, ih]

theorem stackEnc_length (ls : List Layer) (p : List W64) : (stackEnc ls p).length = p.length := by
  induction ls generalizing p with
  | nil => rfl
  | cons l ls ih =>
    show (stackEnc ls (Layer.enc l p)).length = p.length
    rw [ih, Layer_enc_length]

/-- The failures of a call that the streams pass on. -/
inductive Failure where
  | throw (e : Exn)
  | ub (u : UB)

/-- The outcome of a call with this failure. -/
def Failure.outcome {α : Type} : Failure → Exec α
  | .throw e => .throw e
  | .ub u => .ub u

theorem bind_run_failure {α β : Type} {x : Io W α} {f : α → Io W β} {w w' : W} {e : Failure}
    (h : x w = (e.outcome, w')) : (x >>= f) w = (e.outcome, w') := by
  cases e with
  | throw e => exact bind_run_throw h
  | ub u => exact bind_run_ub h

theorem CFBSource_read_failure (m : Machine) (rd : σ → Nat → Io W (List Byte × σ)) {key : Key} {f}
    (hc : Computes key f) (hl : key.isLazy = true) (s : σ) (w w' : W) (rl rr : W64) (e : Failure)
    (h : rd s 8 w = (e.outcome, w')) :
    CFBSource.read m rd ⟨s, key, rl, rr, []⟩ 8 w = (e.outcome, w') := by
  obtain ⟨v, -, e1⟩ := CFBSource_loop_call m rd hc hl 8 8 s w [] rl rr [] (by simp)
  show CFBSource.loop m rd key 8 (8 + 1) s [] rl rr [] w = _
  rw [e1, bind_run_failure h]

theorem gost89_CFBSource_read_failure (m : Machine) (rd : σ → Nat → Io W (List Byte × σ)) {key : Key} {f}
    (hc : Computes key f) (hl : key.isLazy = true) (s : σ) (w w' : W) (r : W64) (e : Failure)
    (h : rd s 8 w = (e.outcome, w')) :
    Gost89.CFBSource.read m rd ⟨s, key, r, []⟩ 8 w = (e.outcome, w') := by
  obtain ⟨v, -, e1⟩ := gost89_CFBSource_loop_call m rd hc hl 8 8 s w [] r [] (by simp)
  show Gost89.CFBSource.loop m rd key 8 (8 + 1) s [] r [] w = _
  rw [e1, bind_run_failure h]

theorem ECBSource_reads (m : Machine) (rd : σ → Nat → Io W (List Byte × σ)) {key : Key} {f}
    (hc : Computes key f) (hl : key.isLazy = true) (c : List W64) (s s1 : σ) (w w1 : W)
    (h : ReadsBlocks rd s w c s1 w1) :
    ReadsBlocks (ECBSource.read m rd) (.ecb s key) w (ecb (decF f) c) (.ecb s1 key) w1 := by
  induction c generalizing s w with
  | nil => obtain ⟨rfl, rfl⟩ := h; exact ⟨rfl, rfl⟩
  | cons x c ih =>
    obtain ⟨s0, w0, e0, h⟩ := h
    refine ⟨.ecb s0 key, w0, ?_, ih s0 w0 h⟩
    rw [ECBSource_block hc hl m rd s s0 8 (by omega) w w0 _ e0 (by simp), block64_bytesOf64]

theorem CFBSource_reads (m : Machine) (rd : σ → Nat → Io W (List Byte × σ)) {key : Key} {f}
    (hc : Computes key f) (hl : key.isLazy = true) (c : List W64) (s s1 : σ) (w w1 : W) (rl rr : W64)
    (h : ReadsBlocks rd s w c s1 w1) :
    ∃ rl' rr', ReadsBlocks (CFBSource.read m rd) ⟨s, key, rl, rr, []⟩ w (cfbDec (encF f) [rl, rr] c)
      ⟨s1, key, rl', rr', []⟩ w1 := by
  induction c generalizing s w rl rr with
  | nil => obtain ⟨rfl, rfl⟩ := h; exact ⟨rl, rr, rfl, rfl⟩
  | cons x c ih =>
    obtain ⟨s0, w0, e0, h⟩ := h
    obtain ⟨rl', rr', h'⟩ := ih s0 w0 rr x h
    refine ⟨rl', rr', ⟨s0, key, rr, x, []⟩, w0, ?_, h'⟩
    have := (CFBSource_read_fetch m rd ⟨s, key, rl, rr, []⟩ hc hl 8 [x] s0 w w0
      ⟨s0, w0, e0, rfl, rfl⟩ (by simp)).1 (by simp)
    rw [this]
    simp [cfbDec, unblocks64, List.take_of_length_le]

theorem gost89_CFBSource_reads (m : Machine) (rd : σ → Nat → Io W (List Byte × σ)) {key : Key} {f}
    (hc : Computes key f) (hl : key.isLazy = true) (c : List W64) (s s1 : σ) (w w1 : W) (r : W64)
    (h : ReadsBlocks rd s w c s1 w1) :
    ∃ r', ReadsBlocks (Gost89.CFBSource.read m rd) ⟨s, key, r, []⟩ w (cfbDec (encF f) [r] c)
      ⟨s1, key, r', []⟩ w1 := by
  induction c generalizing s w r with
  | nil => obtain ⟨rfl, rfl⟩ := h; exact ⟨r, rfl, rfl⟩
  | cons x c ih =>
    obtain ⟨s0, w0, e0, h⟩ := h
    obtain ⟨r', h'⟩ := ih s0 w0 x h
    refine ⟨r', ⟨s0, key, x, []⟩, w0, ?_, h'⟩
    have := (gost89_CFBSource_read_fetch m rd ⟨s, key, r, []⟩ hc hl 8 [x] s0 w w0
      ⟨s0, w0, e0, rfl, rfl⟩ (by simp)).1 (by simp)
    rw [this]
    simp [cfbDec, unblocks64, List.take_of_length_le]

/-- One layer over any source: the blocks come through, a failure of the source comes through, a torn
block becomes an access out of bounds. -/
theorem Sources_layer_reads (m : Machine) (rd : σ → Nat → Io W (List Byte × σ)) (s : σ) (l : Layer)
    (ls : List Layer) (hl : Layer.Usable l) (c : List W64) (w w1 : W) (r1 : Sources σ ls)
    (h : ReadsBlocks (Sources.read m rd ls) (Sources.new s ls) w c r1 w1) :
    ∃ t, ReadsBlocks (Sources.read m rd (l :: ls)) (Sources.new s (l :: ls)) w (Layer.dec l c) t w1 ∧
      (∀ (e : Failure) w2, Sources.read m rd ls r1 8 w1 = (e.outcome, w2) →
        Sources.read m rd (l :: ls) t 8 w1 = (e.outcome, w2)) ∧
      (∀ p r2 w2, Sources.read m rd ls r1 8 w1 = (.ok (p, r2), w2) → p ≠ [] → p.length < 8 →
        Sources.read m rd (l :: ls) t 8 w1 = (.ub .oobRead, w2)) := by
  obtain ⟨hu, hz⟩ := hl
  have hc := computes_roundFunctions hu
  cases l with
  | ecb key =>
    refine ⟨(.ecb r1 key : ECBSource (Sources σ ls)),
      ECBSource_reads m (Sources.read m rd ls) hc hz c _ r1 w w1 h, ?_, ?_⟩
    · intro e w2 h2
      show ECBSource.read m (Sources.read m rd ls) (.ecb r1 key) 8 w1 = _
      rw [ECBSource_read_ecb m (Sources.read m rd ls) r1 key 8 (by omega), bind_run_failure h2]
      rfl
    · intro p r2 w2 h2 h0 h8
      show ECBSource.read m (Sources.read m rd ls) (.ecb r1 key) 8 w1 = _
      rw [ECBSource_read_ecb m (Sources.read m rd ls) r1 key 8 (by omega), Io.bind_run_ok h2]
      simp only
      rw [if_neg h0, ofBytes_short h8]
      rfl
  | cfb key ivl ivr =>
    obtain ⟨rl', rr', h'⟩ := CFBSource_reads m (Sources.read m rd ls) hc hz c _ r1 w w1 ivl ivr h
    refine ⟨(⟨r1, key, rl', rr', []⟩ : CFBSource (Sources σ ls)), h', ?_, ?_⟩
    · intro e w2 h2
      exact CFBSource_read_failure m (Sources.read m rd ls) hc hz r1 w1 w2 rl' rr' e h2
    · intro p r2 w2 h2 h0 h8
      have := CFBSource_bad_chunk m (Sources.read m rd ls) ⟨r1, key, rl', rr', []⟩ hu hz 8 (by simp) w1 w2
        p r2 h2 h0 (by omega)
      rw [if_pos h8] at this
      exact this
  | gostCfb key iv =>
    obtain ⟨r', h'⟩ := gost89_CFBSource_reads m (Sources.read m rd ls) hc hz c _ r1 w w1 iv h
    refine ⟨(⟨r1, key, r', []⟩ : Gost89.CFBSource (Sources σ ls)), h', ?_, ?_⟩
    · intro e w2 h2
      exact gost89_CFBSource_read_failure m (Sources.read m rd ls) hc hz r1 w1 w2 r' e h2
    · intro p r2 w2 h2 h0 h8
      have := gost89_CFBSource_bad_chunk m (Sources.read m rd ls) ⟨r1, key, r', []⟩ hu hz 8 (by simp) w1 w2
        p r2 h2 h0 (by omega)
      rw [if_pos h8] at this
      exact this

/-- Stacks of any depth: the blocks come through, and so does a failure of the source. -/
theorem Sources_reads (m : Machine) (rd : σ → Nat → Io W (List Byte × σ)) (s s1 : σ)
    (ls : List Layer) (hl : ∀ x ∈ ls, Layer.Usable x) (c : List W64) (w w1 : W)
    (h : ReadsBlocks rd s w c s1 w1) :
    ∃ t, ReadsBlocks (Sources.read m rd ls) (Sources.new s ls) w (stackDec ls c) t w1 ∧
      (∀ (e : Failure) w2, rd s1 8 w1 = (e.outcome, w2) →
        Sources.read m rd ls t 8 w1 = (e.outcome, w2)) ∧
      (ls ≠ [] → ∀ p r2 w2, rd s1 8 w1 = (.ok (p, r2), w2) → p ≠ [] → p.length < 8 →
        Sources.read m rd ls t 8 w1 = (.ub .oobRead, w2)) := by
  induction ls with
  | nil => exact ⟨s1, h, fun e w2 h2 => h2, fun h => absurd rfl h⟩
  | cons l ls ih =>
    obtain ⟨r1, a1, a2, a3⟩ := ih fun x hx => hl x (by simp [hx])
    obtain ⟨t, b1, b2, b3⟩ := Sources_layer_reads m rd s l ls (hl l (by simp)) _ w w1 r1 a1
    refine ⟨t, b1, fun e w2 h2 => b2 e w2 (a2 e w2 h2), fun _ p r2 w2 h2 h0 h8 => ?_⟩
    cases ls with
    | nil =>
      have e1 : r1 = s1 := by
        clear a2 a3 b1 b2 b3 h2
        have : ∀ (c : List W64) (s : σ) (w : W), ReadsBlocks rd s w c s1 w1 → ReadsBlocks rd s w c r1 w1 →
            r1 = s1 := by
          intro c
          induction c with
          | nil => intro s w h1 h2; exact h2.1.trans h1.1.symm
          | cons x c ih =>
            intro s w h1 h2
            obtain ⟨s0, w0, e0, h1⟩ := h1
            obtain ⟨s0', w0', e0', h2⟩ := h2
            rw [e0] at e0'
            simp only [Prod.mk.injEq, Exec.ok.injEq, true_and] at e0'
            obtain ⟨rfl, rfl⟩ := e0'
            exact ih _ _ h1 h2
        exact this c s w h a1
      subst e1
      exact b3 p r2 w2 h2 h0 h8
    | cons l' ls => exact b2 (.ub .oobRead) w2 (a3 (by simp) p r2 w2 h2 h0 h8)

end Goost
