import Verif.Spec.Endless
import Verif.Spec.Modes
import Verif.Lemmas.Sources
import Verif.Lemmas.KuzStream
/-
Lemmas for C119.
-/
namespace Goost
open Spec

theorem Exec.bind_returns {α β : Type} {x : Exec α} {f : α → Exec β} (hx : x ≠ .diverge)
    (hf : ∀ a, x = .ok a → f a ≠ .diverge) : (x >>= f) ≠ .diverge := by
  cases x with
  | ok a => exact hf a rfl
  | throw e => simp
  | ub u => simp
  | diverge => exact absurd rfl hx

theorem Exec.bind_ok {α β : Type} {x : Exec α} {f : α → Exec β} {b : β} (h : (x >>= f) = .ok b) :
    ∃ a, x = .ok a ∧ f a = .ok b := by
  cases x with
  | ok a => exact ⟨a, rfl, h⟩
  | throw e => cases h
  | ub u => cases h
  | diverge => cases h

theorem Io.bind_returns {W α β : Type} {x : Io W α} {f : α → Io W β} {w : W} (hx : (x w).1 ≠ .diverge)
    (hf : ∀ a w', x w = (.ok a, w') → (f a w').1 ≠ .diverge) : ((x >>= f) w).1 ≠ .diverge := by
  rw [Io.bind_def]
  simp only [Io.bind]
  rcases h : x w with ⟨r, w'⟩
  cases r with
  | ok a => exact hf a w' h
  | throw e => simp
  | ub u => simp
  | diverge => rw [h] at hx; exact absurd rfl hx

theorem Io.lift_returns {W α : Type} {x : Exec α} {w : W} (hx : x ≠ .diverge) : ((Io.lift x : Io W α) w).1 ≠ .diverge :=
  hx

theorem vget_returns {α : Type} (v : List α) (i : Nat) : vget v i ≠ .diverge := by
  simp only [vget]; split <;> simp

theorem vxor_returns (v : List Byte) (i : Nat) (x : Byte) : vxor v i x ≠ .diverge := by
  simp only [vxor]; split <;> simp

theorem load32_returns (v : List Byte) (off : Nat) : load32 v off ≠ .diverge := by
  simp only [load32]
  iterate 4 refine Exec.bind_returns (vget_returns _ _) fun _ _ => ?_
  simp

theorem load64_returns (v : List Byte) (off : Nat) : load64 v off ≠ .diverge := by
  simp only [load64]
  iterate 8 refine Exec.bind_returns (vget_returns _ _) fun _ _ => ?_
  simp

namespace Magma

theorem callKey_returns {key : Option Key} (hk : ∀ k, key = some k → ReturningKey k) (v : W32) (i : Int) :
    callKey key v i ≠ .diverge := by
  cases key with
  | none => simp [callKey]
  | some k => exact hk k rfl v i

theorem asLazy_returning {key : Key} (hk : ReturningKey key) : ∀ k, key.asLazy = some k → ReturningKey k := by
  intro k h
  simp only [Key.asLazy] at h
  split at h
  · cases h; exact hk
  · cases h

theorem forwardRounds_returns {key : Option Key} (hk : ∀ k, key = some k → ReturningKey k) (v : W32 × W32) :
    forwardRounds key v ≠ .diverge := by
  simp only [forwardRounds]
  iterate 8 refine Exec.bind_returns (callKey_returns hk _ _) fun _ _ => ?_
  simp

theorem backwardRounds_returns {key : Option Key} (hk : ∀ k, key = some k → ReturningKey k) (v : W32 × W32) :
    backwardRounds key v ≠ .diverge := by
  simp only [backwardRounds]
  iterate 8 refine Exec.bind_returns (callKey_returns hk _ _) fun _ _ => ?_
  simp

theorem shl32_returns (m : Machine) (x : W32) (n : Int) : m.shl32 x n ≠ .diverge := by
  simp only [Machine.shl32]; split
  · simp
  · split <;> simp

theorem shr32_returns (m : Machine) (x : W32) (n : Int) : m.shr32 x n ≠ .diverge := by
  simp only [Machine.shr32]; split
  · simp
  · split <;> simp

theorem shiftValue_returns (m : Machine) (v : W32 × W32) (n : Int) : shiftValue m v n ≠ .diverge := by
  simp only [shiftValue]
  refine Exec.bind_returns (shl32_returns _ _ _) fun _ _ => ?_
  refine Exec.bind_returns (shl32_returns _ _ _) fun _ _ => ?_
  refine Exec.bind_returns (shr32_returns _ _ _) fun _ _ => ?_
  simp

theorem encrypted_returns {m : Machine} {b : Blk} {key : Option Key} (hb : b.value m ≠ .diverge)
    (hk : ∀ k, key = some k → ReturningKey k) : (BlkEncrypted b key).value m ≠ .diverge := by
  simp only [BlkEncrypted, Blk.value]
  refine Exec.bind_returns (Exec.bind_returns (Exec.bind_returns (Exec.bind_returns (Exec.bind_returns hb ?_) ?_) ?_) ?_) ?_
  · exact fun _ _ => forwardRounds_returns hk _
  · exact fun _ _ => forwardRounds_returns hk _
  · exact fun _ _ => forwardRounds_returns hk _
  · exact fun _ _ => backwardRounds_returns hk _
  · simp

theorem decrypted_returns {m : Machine} {b : Blk} {key : Option Key} (hb : b.value m ≠ .diverge)
    (hk : ∀ k, key = some k → ReturningKey k) : (BlkDecrypted b key).value m ≠ .diverge := by
  simp only [BlkDecrypted, Blk.value]
  refine Exec.bind_returns (Exec.bind_returns (Exec.bind_returns (Exec.bind_returns (Exec.bind_returns hb ?_) ?_) ?_) ?_) ?_
  · exact fun _ _ => forwardRounds_returns hk _
  · exact fun _ _ => backwardRounds_returns hk _
  · exact fun _ _ => backwardRounds_returns hk _
  · exact fun _ _ => backwardRounds_returns hk _
  · simp

theorem xored_returns {m : Machine} {a b : Blk} (ha : a.value m ≠ .diverge) (hb : b.value m ≠ .diverge) :
    (Blk.xored a b).value m ≠ .diverge := by
  simp only [Blk.value]
  refine Exec.bind_returns ha fun _ _ => Exec.bind_returns hb fun _ _ => ?_
  simp

theorem imitShifted_returns {m : Machine} {b : Blk} (hb : b.value m ≠ .diverge) :
    (Blk.imitShifted b).value m ≠ .diverge := by
  simp only [Blk.value]
  refine Exec.bind_returns hb fun _ _ => ?_
  split
  · exact Exec.bind_returns hb fun _ _ => shiftValue_returns _ _ _
  · refine Exec.bind_returns hb fun _ _ => Exec.bind_returns (shiftValue_returns _ _ _) fun _ _ => ?_
    simp

theorem finalKey_returns {m : Machine} {key : Option Key} (hk : ∀ k, key = some k → ReturningKey k) (n : Nat) :
    (BlkImitFinalKey key n).value m ≠ .diverge := by
  simp only [BlkImitFinalKey]
  have h : (Blk.imitShifted (BlkEncrypted BlkRaw.zero key)).value m ≠ .diverge :=
    imitShifted_returns (encrypted_returns (by simp [BlkRaw.zero, BlkRaw.ofU64, Blk.value]) hk)
  split
  · exact h
  · exact imitShifted_returns h

theorem ofU64_returns (m : Machine) (x : W64) : (BlkRaw.ofU64 x).value m ≠ .diverge := by
  simp [BlkRaw.ofU64, Blk.value]

theorem xorWords_returns (c : List Byte) (x y : W32) : xorWords c x y ≠ .diverge := by
  simp only [xorWords]
  iterate 7 refine Exec.bind_returns (vxor_returns _ _ _) fun _ _ => ?_
  exact vxor_returns _ _ _

theorem condXor_returns (p : List Byte) (i : Nat) (x : Byte) : condXor p i x ≠ .diverge := by
  simp only [condXor]; split
  · exact vxor_returns _ _ _
  · simp

theorem condXor_length {p q : List Byte} {i : Nat} {x : Byte} (h : condXor p i x = .ok q) : q.length = p.length := by
  simp only [condXor] at h
  split at h
  · simp only [vxor] at h
    split at h
    · cases h; simp
    · cases h
  · cases h; rfl

theorem condXorWords_nil {p : List Byte} {x y : W32} (h : condXorWords p x y = .ok []) : p = [] := by
  simp only [condXorWords] at h
  obtain ⟨p1, h1, h⟩ := Exec.bind_ok h
  obtain ⟨p2, h2, h⟩ := Exec.bind_ok h
  obtain ⟨p3, h3, h⟩ := Exec.bind_ok h
  obtain ⟨p4, h4, h⟩ := Exec.bind_ok h
  obtain ⟨p5, h5, h⟩ := Exec.bind_ok h
  obtain ⟨p6, h6, h⟩ := Exec.bind_ok h
  obtain ⟨p7, h7, h⟩ := Exec.bind_ok h
  have := condXor_length h
  rw [condXor_length h7, condXor_length h6, condXor_length h5, condXor_length h4, condXor_length h3, condXor_length h2,
    condXor_length h1] at this
  exact List.length_eq_zero_iff.1 this.symm

theorem condXorWords_returns (c : List Byte) (x y : W32) : condXorWords c x y ≠ .diverge := by
  simp only [condXorWords]
  iterate 7 refine Exec.bind_returns (condXor_returns _ _ _) fun _ _ => ?_
  exact condXor_returns _ _ _

theorem copyMax_returns (p : List Byte) : copyMax p ≠ .diverge := by
  simp only [copyMax]; split
  · simp
  · split
    · simp
    · exact load64_returns _ _

theorem overwrite8_returns (p e : List Byte) : overwrite8 p e ≠ .diverge := by
  simp only [overwrite8]; split <;> simp

theorem ofBytes_returns (p : List Byte) : BlkRaw.ofBytes p ≠ .diverge := by
  simp only [BlkRaw.ofBytes]
  refine Exec.bind_returns (load32_returns _ _) fun _ _ => Exec.bind_returns (load32_returns _ _) fun _ _ => ?_
  simp

theorem ofBytes_value_returns {m : Machine} {p : List Byte} {b : Blk} (h : BlkRaw.ofBytes p = .ok b) :
    b.value m ≠ .diverge := by
  simp only [BlkRaw.ofBytes] at h
  cases h1 : load32 p 0 with
  | ok x =>
    rw [h1] at h
    simp only [Exec.ok_bind] at h
    cases h2 : load32 p 4 with
    | ok y => rw [h2] at h; cases h; simp [Blk.value]
    | throw e => rw [h2] at h; cases h
    | ub u => rw [h2] at h; cases h
    | diverge => rw [h2] at h; cases h
  | throw e => rw [h1] at h; cases h
  | ub u => rw [h1] at h; cases h
  | diverge => rw [h1] at h; cases h

theorem base_returns {key : Key} (hk : ReturningKey key) (x : W64) : EncryptionBase.transform key x ≠ .diverge := by
  simp only [EncryptionBase.transform]
  iterate 32 refine Exec.bind_returns (hk _ _) fun _ _ => ?_
  simp

variable {W σ τ : Type}

theorem ECBSink.loop_returns {wr : τ → List Byte → Io W τ} (hw : ReturningSink wr) {key : Key} (hk : ReturningKey key)
    (data : List Byte) : ∀ (p : List Byte) (s : τ) (w : W), (ECBSink.loop wr key data p s w).1 ≠ .diverge := by
  induction data with
  | nil =>
    intro p s w
    simp only [ECBSink.loop]
    split <;> simp [Io.lift, pure]
  | cons b data ih =>
    intro p s w
    simp only [ECBSink.loop]
    split
    · refine Io.bind_returns (Io.lift_returns (load64_returns _ _)) fun _ _ _ => ?_
      refine Io.bind_returns (Io.lift_returns (base_returns hk _)) fun _ _ _ => ?_
      refine Io.bind_returns (Io.lift_returns (overwrite8_returns _ _)) fun _ _ _ => ?_
      exact Io.bind_returns (hw _ _ _) fun _ _ _ => ih _ _ _
    · exact ih _ _ _

theorem CFBSink.loop_returns (m : Machine) {wr : τ → List Byte → Io W τ} (hw : ReturningSink wr) {key : Key}
    (hk : ReturningKey key) (data : List Byte) : ∀ (s : τ) (p : List Byte) (rl rr : W64) (w : W),
    (CFBSink.loop m wr key data s p rl rr w).1 ≠ .diverge := by
  induction data with
  | nil => intro s p rl rr w; simp [CFBSink.loop, pure]
  | cons b data ih =>
    intro s p rl rr w
    simp only [CFBSink.loop]
    split
    · refine Io.bind_returns (Io.lift_returns (encrypted_returns (ofU64_returns _ _) (asLazy_returning hk)))
        fun _ _ _ => ?_
      refine Io.bind_returns (Io.lift_returns (xorWords_returns _ _ _)) fun _ _ _ => ?_
      refine Io.bind_returns (hw _ _ _) fun _ _ _ => ?_
      exact Io.bind_returns (Io.lift_returns (load64_returns _ _)) fun _ _ _ => ih _ _ _ _ _
    · exact ih _ _ _ _ _

theorem gost89_sink_returns (m : Machine) {wr : τ → List Byte → Io W τ} (hw : ReturningSink wr) {key : Key}
    (hk : ReturningKey key) (data : List Byte) : ∀ (s : τ) (p : List Byte) (l : W64) (w : W),
    (Gost89.CFBSink.loop m wr key data s p l w).1 ≠ .diverge := by
  induction data with
  | nil => intro s p l w; simp [Gost89.CFBSink.loop, pure]
  | cons b data ih =>
    intro s p l w
    simp only [Gost89.CFBSink.loop]
    split
    · refine Io.bind_returns (Io.lift_returns (encrypted_returns (ofU64_returns _ _) (asLazy_returning hk)))
        fun _ _ _ => ?_
      refine Io.bind_returns (Io.lift_returns (xorWords_returns _ _ _)) fun _ _ _ => ?_
      refine Io.bind_returns (hw _ _ _) fun _ _ _ => ?_
      exact Io.bind_returns (Io.lift_returns (load64_returns _ _)) fun _ _ _ => ih _ _ _ _
    · exact ih _ _ _ _

theorem pure_returns {α : Type} (a : α) (w : W) : ((pure a : Io W α) w).1 ≠ .diverge := by simp [pure]

/-- What the loop of a `CFBSource` needs of its budget. -/
theorem round_budget {size : Nat} {p res : List Byte} {fuel : Nat} (h : size - res.length + (if p = [] then 1 else 0) ≤
    fuel + 1) (hfull : (drain size p res).2.length ≠ size) {q : List Byte} (hq : q ≠ []) (hlt : res.length < size) :
    1 ≤ fuel ∧ size - (drain size p res).2.length + (if q = [] then 1 else 0) ≤ fuel := by
  rw [drain_eq] at hfull ⊢
  simp only [List.length_append, List.length_take] at hfull ⊢
  rw [if_neg hq]
  by_cases e : p = []
  · subst e; simp at hfull h ⊢; omega
  · have := List.length_pos_iff.2 e
    rw [if_neg e] at h
    omega

theorem CFBSource.loop_returns (m : Machine) {rd : σ → Nat → Io W (List Byte × σ)} (hr : ReturningSource rd) {key : Key}
    (hk : ReturningKey key) (size : Nat) (fuel : Nat) : ∀ (s : σ) (p : List Byte) (rl rr : W64) (res : List Byte) (w : W),
    1 ≤ fuel → size - res.length + (if p = [] then 1 else 0) ≤ fuel →
    (CFBSource.loop m rd key size fuel s p rl rr res w).1 ≠ .diverge := by
  induction fuel with
  | zero => intro s p rl rr res w h; omega
  | succ fuel ih =>
    intro s p rl rr res w _ h
    unfold CFBSource.loop
    split
    · rename_i hlt
      simp only
      split
      · exact pure_returns _ _
      · rename_i hfull
        refine Io.bind_returns (Io.lift_returns (encrypted_returns (ofU64_returns _ _) (asLazy_returning hk)))
          fun e _ _ => ?_
        refine Io.bind_returns (hr _ _ _) fun x _ _ => ?_
        split
        · exact pure_returns _ _
        · rename_i hx
          refine Io.bind_returns (Io.lift_returns (copyMax_returns _)) fun _ _ _ => ?_
          refine Io.bind_returns (Io.lift_returns (condXorWords_returns _ _ _)) fun q w1 hq => ?_
          by_cases hne : q = []
          · subst hne
            -- the vector keeps its length
            exfalso
            have hq1 : condXorWords x.1 e.1 e.2 = .ok [] := congrArg Prod.fst hq
            exact hx (condXorWords_nil hq1)
          · obtain ⟨h1, h2⟩ := round_budget h hfull hne hlt
            exact ih _ _ _ _ _ _ h1 h2
    · exact pure_returns _ _

theorem gost89_source_returns (m : Machine) {rd : σ → Nat → Io W (List Byte × σ)} (hr : ReturningSource rd) {key : Key}
    (hk : ReturningKey key) (size : Nat) (fuel : Nat) : ∀ (s : σ) (p : List Byte) (r : W64) (res : List Byte) (w : W),
    1 ≤ fuel → size - res.length + (if p = [] then 1 else 0) ≤ fuel →
    (Gost89.CFBSource.loop m rd key size fuel s p r res w).1 ≠ .diverge := by
  induction fuel with
  | zero => intro s p r res w h; omega
  | succ fuel ih =>
    intro s p r res w _ h
    unfold Gost89.CFBSource.loop
    split
    · rename_i hlt
      simp only
      split
      · exact pure_returns _ _
      · rename_i hfull
        refine Io.bind_returns (Io.lift_returns (encrypted_returns (ofU64_returns _ _) (asLazy_returning hk)))
          fun e _ _ => ?_
        refine Io.bind_returns (hr _ _ _) fun x _ _ => ?_
        split
        · exact pure_returns _ _
        · rename_i hx
          refine Io.bind_returns (Io.lift_returns (copyMax_returns _)) fun _ _ _ => ?_
          refine Io.bind_returns (Io.lift_returns (condXorWords_returns _ _ _)) fun q w1 hq => ?_
          by_cases hne : q = []
          · subst hne
            have hq1 : condXorWords x.1 e.1 e.2 = .ok [] := congrArg Prod.fst hq
            exact absurd (condXorWords_nil hq1) hx
          · obtain ⟨h1, h2⟩ := round_budget h hfull hne hlt
            exact ih _ _ _ _ _ h1 h2
    · exact pure_returns _ _

theorem dataImit_returns (m : Machine) {key : Option Key} (hk : ∀ k, key = some k → ReturningKey k) :
    ∀ (n : Nat) (data state : List Byte), data.length ≤ n → Gost89.DataImit.loop m key data state ≠ .diverge := by
  intro n
  induction n with
  | zero =>
    intro data state h
    obtain rfl := List.length_eq_zero_iff.1 (Nat.le_zero.1 h)
    simp [Gost89.DataImit.loop]
  | succ n ih =>
    intro data state h
    rw [Gost89.DataImit.loop.eq_def]
    split
    · refine Exec.bind_returns (ofBytes_returns _) fun raw hraw => ?_
      refine Exec.bind_returns ?_ fun r hr => ?_
      · simp only [Gost89.ImitedBlock.value, BlkRaw.ofBlock, Blk.value]
        refine Exec.bind_returns (ofBytes_value_returns hraw) fun _ _ => ?_
        refine Exec.bind_returns (Exec.bind_returns ?_ fun _ _ => forwardRounds_returns hk _) fun _ _ => by simp
        exact Exec.bind_returns (by simp [BlkRaw.ofPair, Blk.value]) fun _ _ => forwardRounds_returns hk _
      · refine Exec.bind_returns ?_ fun b _ => ?_
        · simp only [Gost89.ImitedBlock.value, BlkRaw.ofBlock] at hr
          obtain ⟨a, -, hr⟩ := Exec.bind_ok hr
          obtain ⟨c, -, hr⟩ := Exec.bind_ok hr
          cases hr
          simp [BlkRaw.ofPair, Blk.value]
        · refine Exec.bind_returns (overwrite8_returns _ _) fun _ _ => ih _ _ ?_
          simp only [List.length_cons] at h; omega
    · simp
    · simp

theorem loadPartial_eq {b : List Byte} (h : b.length = 8) : ∃ v, Imit.loadPartial b = .ok v := by
  have hne : b ≠ [] := by rintro rfl; cases h
  simp only [Imit.loadPartial, copyInto, if_neg hne, if_pos (Nat.le_of_eq h)]
  simp only [Exec.ok_bind]
  have hb : ∀ i, i < 8 → ∃ x, vget (b ++ List.replicate (8 - b.length) 0) i = .ok x := by
    intro i hi
    simp only [vget]
    rw [List.getElem?_append_left (by omega), List.getElem?_eq_getElem (by omega)]
    exact ⟨_, rfl⟩
  simp only [load64]
  obtain ⟨x0, h0⟩ := hb 0 (by omega)
  obtain ⟨x1, h1⟩ := hb 1 (by omega)
  obtain ⟨x2, h2⟩ := hb 2 (by omega)
  obtain ⟨x3, h3⟩ := hb 3 (by omega)
  obtain ⟨x4, h4⟩ := hb 4 (by omega)
  obtain ⟨x5, h5⟩ := hb 5 (by omega)
  obtain ⟨x6, h6⟩ := hb 6 (by omega)
  obtain ⟨x7, h7⟩ := hb 7 (by omega)
  simp only [Nat.zero_add, h0, h1, h2, h3, h4, h5, h6, h7, Exec.ok_bind]
  exact ⟨_, rfl⟩

theorem loadPartial_returns (b : List Byte) : Imit.loadPartial b ≠ .diverge := by
  simp only [Imit.loadPartial]
  refine Exec.bind_returns ?_ fun _ _ => load64_returns _ _
  simp only [copyInto]
  split
  · simp
  · split <;> simp

theorem loadPartial_long {b : List Byte} {v : W64} (h : Imit.loadPartial b = .ok v) : b.length ≤ 8 := by
  simp only [Imit.loadPartial] at h
  obtain ⟨a, h, -⟩ := Exec.bind_ok h
  simp only [copyInto] at h
  split at h
  · cases h
  · split at h
    · assumption
    · cases h

/-- The loop goes on for ever over an endless source. -/
theorem Imit.loop_endless {rd : σ → Nat → Io W (List Byte × σ)} (key : Option Key) (fuel : Nat) :
    ∀ (s : σ) (b : List Byte) (block : Blk) (w : W), b.length = 8 → EndlessSource rd s w →
      (Imit.loop rd key fuel s b block w).1 = .diverge := by
  induction fuel with
  | zero => intros; rfl
  | succ fuel ih =>
    intro s b block w hb ⟨R, h0, hR⟩
    obtain ⟨v, hv⟩ := loadPartial_eq hb
    obtain ⟨x, s', w', h1, h2, h3⟩ := hR s w h0
    have hx : x ≠ [] := by rintro rfl; cases h2
    simp only [Imit.loop, hv, Io.lift_ok_bind]
    rw [if_neg (by omega), Io.bind_def]
    simp only [Io.bind, h1, if_neg hx]
    exact ih _ _ _ _ h2 ⟨R, h3, hR⟩

/-- If the loop does not end with any budget, the source is endless. -/
theorem Imit.endless_of_loop {rd : σ → Nat → Io W (List Byte × σ)} (hr : ReturningSource rd) (key : Option Key) (s : σ)
    (b : List Byte) (block : Blk) (w : W) (h : ∀ fuel, (Imit.loop rd key fuel s b block w).1 = .diverge) :
    b.length = 8 ∧ EndlessSource rd s w := by
  have one : ∀ s b block w, (∀ fuel, (Imit.loop rd key fuel s b block w).1 = .diverge) → b.length = 8 ∧
      ∃ x s' w' block', rd s 8 w = (.ok (x, s'), w') ∧
        ∀ fuel, (Imit.loop rd key fuel s' x block' w').1 = .diverge := by
    intro s b block w h
    have h1 := h
    have hv : ∃ v, Imit.loadPartial b = .ok v := by
      have h1 := h 1
      simp only [Imit.loop] at h1
      cases hv : Imit.loadPartial b with
      | ok v => exact ⟨v, rfl⟩
      | throw e => rw [hv] at h1; cases h1
      | ub u => rw [hv] at h1; cases h1
      | diverge => exact absurd hv (loadPartial_returns b)
    obtain ⟨v, hv⟩ := hv
    have hle := loadPartial_long hv
    have hge : ¬ b.length < 8 := by
      intro hlt
      have h1 := h 1
      simp only [Imit.loop, hv, Io.lift_ok_bind, if_pos hlt] at h1
      cases h1
    refine ⟨by omega, ?_⟩
    have step : ∀ fuel, ((do
        let x ← rd s 8
        if x.1 = [] then pure (Blk.xored block (BlkRaw.ofU64 v), BlkImitFinalKey key b.length)
        else Imit.loop rd key fuel x.2 x.1 (BlkEncrypted (Blk.xored block (BlkRaw.ofU64 v)) key) :
          Io W (Blk × Blk)) w).1 = .diverge := by
      intro fuel
      have h1 := h (fuel + 1)
      simp only [Imit.loop, hv, Io.lift_ok_bind, if_neg hge] at h1
      exact h1
    rcases hx : rd s 8 w with ⟨r, w'⟩
    simp only [Io.bind_def, Io.bind, hx] at step
    cases r with
    | ok x =>
      by_cases e : x.1 = []
      · have := step 0
        simp only [if_pos e] at this
        cases this
      · refine ⟨x.1, x.2, w', BlkEncrypted (Blk.xored block (BlkRaw.ofU64 v)) key, rfl, fun fuel => ?_⟩
        have := step fuel
        simp only [if_neg e] at this
        exact this
    | throw e => have := step 0; cases this
    | ub u => have := step 0; cases this
    | diverge => exact absurd (congrArg Prod.fst hx) (hr s 8 w)
  refine ⟨(one s b block w h).1, fun s w => ∃ b block, ∀ fuel, (Imit.loop rd key fuel s b block w).1 = .diverge,
    ⟨b, block, h⟩, ?_⟩
  rintro s w ⟨b, block, h⟩
  obtain ⟨-, x, s', w', block', h1, h2⟩ := one s b block w h
  exact ⟨x, s', w', h1, (one _ _ _ _ h2).1, x, block', h2⟩

/-- A loop that has ended does so with the same outcome for every larger budget. -/
theorem Imit.loop_more (rd : σ → Nat → Io W (List Byte × σ)) (key : Option Key) (fuel : Nat) :
    ∀ (more : Nat) (s : σ) (b : List Byte) (block : Blk) (w : W), (Imit.loop rd key fuel s b block w).1 ≠ .diverge →
      Imit.loop rd key (fuel + more) s b block w = Imit.loop rd key fuel s b block w := by
  induction fuel with
  | zero => intro more s b block w h; exact absurd rfl h
  | succ fuel ih =>
    intro more s b block w h
    rw [Nat.add_right_comm]
    simp only [Imit.loop] at h ⊢
    cases hv : Imit.loadPartial b with
    | ok v =>
      simp only [hv, Io.lift_ok_bind] at h ⊢
      split
      · rfl
      · rename_i hlt
        rw [if_neg hlt] at h
        simp only [Io.bind_def, Io.bind] at h ⊢
        rcases hx : rd s 8 w with ⟨r, w'⟩
        rw [hx] at h
        cases r with
        | ok x =>
          simp only at h ⊢
          split
          · rfl
          · rename_i hne
            rw [if_neg hne] at h
            exact ih _ _ _ _ _ h
        | throw e => rfl
        | ub u => rfl
        | diverge => rfl
    | throw e => simp
    | ub u => simp
    | diverge => simp

/-- The blocks that the loop gives can be evaluated. -/
theorem Imit.loop_blocks (m : Machine) {rd : σ → Nat → Io W (List Byte × σ)} {key : Option Key}
    (hk : ∀ k, key = some k → ReturningKey k) (fuel : Nat) :
    ∀ (s : σ) (b : List Byte) (block : Blk) (w w' : W) (x k : Blk), block.value m ≠ .diverge →
      Imit.loop rd key fuel s b block w = (.ok (x, k), w') → x.value m ≠ .diverge ∧ k.value m ≠ .diverge := by
  induction fuel with
  | zero => intro s b block w w' x k _ h; cases h
  | succ fuel ih =>
    intro s b block w w' x k hb h
    simp only [Imit.loop] at h
    cases hv : Imit.loadPartial b with
    | ok v =>
      simp only [hv, Io.lift_ok_bind] at h
      have hx := xored_returns hb (ofU64_returns m v)
      split at h
      · cases h; exact ⟨hx, finalKey_returns hk _⟩
      · simp only [Io.bind_def, Io.bind] at h
        rcases hr : rd s 8 w with ⟨r, w1⟩
        rw [hr] at h
        cases r with
        | ok y =>
          simp only at h
          split at h
          · cases h; exact ⟨hx, finalKey_returns hk _⟩
          · exact ih _ _ _ _ _ _ _ (encrypted_returns hx hk) h
        | throw e => cases h
        | ub u => cases h
        | diverge => cases h
    | throw e => rw [hv] at h; cases h
    | ub u => rw [hv] at h; cases h
    | diverge => rw [hv] at h; cases h

end Magma
end Goost
