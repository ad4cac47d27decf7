import Verif.Spec.Scarce
import Verif.Lemmas.Sinks
import Verif.Lemmas.Reads
import Verif.Lemmas.Reuse
/-
Helper lemmas: running out of memory.
-/
namespace Goost.Scarce
open Goost.Magma Spec Spec.Magma Spec.Modes
variable {W σ τ α β : Type}

theorem UO.alloc {R : W → W → Prop} (hR : ∀ w, R w w) {x : Io (Nat × W) α} {y : Io W α}
    (h : UnlessOut R x y) : UnlessOut R (alloc >>= fun _ => x) y := by
  intro w
  obtain ⟨N, h1, h2⟩ := h w
  refine ⟨N + 1, fun n => ?_, fun n hn => ?_⟩
  · have e : N + 1 + n = (N + n) + 1 := by omega
    rw [e]
    exact h1 n
  · cases n with
    | zero => exact ⟨w, rfl, hR w⟩
    | succ n => exact h2 n (by omega)

theorem UO.lift (R : W → W → Prop) (e : Exec α) : UnlessOut R (Io.lift e) (Io.lift e) :=
  fun _ => ⟨0, fun n => by rw [Nat.zero_add]; rfl, fun n h => by omega⟩

theorem UO.pure (R : W → W → Prop) (a : α) : UnlessOut R (Pure.pure a) (Pure.pure a) := UO.lift R (.ok a)

theorem UO.below (R : W → W → Prop) (z : Io W α) : UnlessOut R (below z) z :=
  fun _ => ⟨0, fun n => by rw [Nat.zero_add]; rfl, fun n h => by omega⟩

theorem UO.lift_bind {R : W → W → Prop} {e : Exec α} {f : α → Io (Nat × W) β} {g : α → Io W β}
    (h : ∀ a, e = .ok a → UnlessOut R (f a) (g a)) :
    UnlessOut R (Io.lift e >>= f) (Io.lift e >>= g) := by
  cases e with
  | ok a => exact h a rfl
  | throw e => exact UO.lift R _
  | ub u => exact UO.lift R _
  | diverge => exact UO.lift R _

theorem bind_run_diverge {x : Io W α} {f : α → Io W β} {w w' : W} (h : x w = (.diverge, w')) :
    (x >>= f) w = (.diverge, w') := by
  simp only [Io.bind_def, Io.bind, h]

theorem UO.bind {R R1 : W → W → Prop} {R' : α → W → W → Prop} {x : Io (Nat × W) α} {y : Io W α}
    {f : α → Io (Nat × W) β} {g : α → Io W β} (hx : UnlessOut R1 x y)
    (h : ∀ w a w1, y w = (.ok a, w1) → UnlessOut (R' a) (f a) (g a))
    (hR1 : ∀ w w', R1 w w' → R w w')
    (hR : ∀ w a w1 w2, y w = (.ok a, w1) → R' a w1 w2 → R w w2) :
    UnlessOut R (x >>= f) (y >>= g) := by
  intro w
  obtain ⟨N, h1, h2⟩ := hx w
  have bad : ∀ n, n < N → ∃ w', (x >>= f) (n, w) = (.throw .badAlloc, (0, w')) ∧ R w w' := by
    intro n hn
    obtain ⟨w', e, hr⟩ := h2 n hn
    exact ⟨w', bind_run_throw e, hR1 _ _ hr⟩
  rcases hy : y w with ⟨r, w1⟩
  simp only [hy] at h1
  cases r with
  | ok a =>
    obtain ⟨N', k1, k2⟩ := h w a w1 hy w1
    rw [Io.bind_run_ok hy]
    refine ⟨N + N', fun n => ?_, fun n hn => ?_⟩
    · rw [Nat.add_assoc, Io.bind_run_ok (h1 _), k1]
    · by_cases hn' : n < N
      · exact bad n hn'
      · obtain ⟨w', e, hr⟩ := k2 (n - N) (by omega)
        refine ⟨w', ?_, hR _ _ _ _ hy hr⟩
        have := h1 (n - N)
        rw [Nat.add_sub_cancel' (by omega)] at this
        rw [Io.bind_run_ok this, e]
  | throw e =>
    rw [bind_run_throw hy]
    exact ⟨N, fun n => bind_run_throw (h1 n), bad⟩
  | ub u =>
    rw [bind_run_ub hy]
    exact ⟨N, fun n => bind_run_ub (h1 n), bad⟩
  | diverge =>
    rw [bind_run_diverge hy]
    exact ⟨N, fun n => bind_run_diverge (h1 n), bad⟩

theorem UO.below_bind {R : W → W → Prop} {R' : α → W → W → Prop} {z : Io W α}
    {f : α → Io (Nat × W) β} {g : α → Io W β} (h : ∀ a, UnlessOut (R' a) (f a) (g a))
    (hR : ∀ w a w1 w2, z w = (.ok a, w1) → R' a w1 w2 → R w w2) :
    UnlessOut R (Scarce.below z >>= f) (z >>= g) :=
  UO.bind (R1 := R) (UO.below R z) (fun _ a _ _ => h a) (fun _ _ h => h) hR

/-! ### Sinks -/

theorem Sent.none (wr : τ → List Byte → Io W τ) (s : τ) (P : List (List Byte)) (w : W) : Sent wr s P w w :=
  ⟨0, s, by simp [writeAll]; rfl⟩

theorem Sent.cons {wr : τ → List Byte → Io W τ} {s s1 : τ} {c : List Byte} {P : List (List Byte)}
    {w w1 w2 : W} (h : wr s c w = (.ok s1, w1)) (hs : Sent wr s1 P w1 w2) : Sent wr s (c :: P) w w2 := by
  obtain ⟨k, s', hk⟩ := hs
  refine ⟨k + 1, s', ?_⟩
  rw [List.take_succ_cons, writeAll_cons, Io.bind_run_ok h, hk]

theorem ECBSink_loop_unless (wr : τ → List Byte → Io W τ) {key : Key} {f} (h : Computes key f)
    (d p : List Byte) (hp : p.length < 8) (s : τ) :
    UnlessOut (Sent wr s (ecbPieces f (p ++ d))) (ECBSink.loop wr key d p s)
      (Magma.ECBSink.loop wr key d p s) := by
  induction d generalizing p s with
  | nil =>
    unfold ECBSink.loop Magma.ECBSink.loop
    refine UO.alloc (fun w => Sent.none ..) ?_
    split
    · exact UO.lift _ _
    · exact UO.pure _ _
  | cons b d ih =>
    unfold ECBSink.loop Magma.ECBSink.loop
    refine UO.alloc (fun w => Sent.none ..) ?_
    have e : p ++ b :: d = (p ++ [b]) ++ d := by simp
    simp only
    by_cases h8 : (p ++ [b]).length = 8
    · rw [if_pos h8, if_pos h8, load64_eq h8, Io.lift_ok_bind, Io.lift_ok_bind]
      refine UO.alloc (fun w => Sent.none ..) ?_
      rw [EncryptionBase_eq h, Io.lift_ok_bind, Io.lift_ok_bind, overwrite8_eq h8, Io.lift_ok_bind,
        Io.lift_ok_bind, e, ecbPieces_append f h8, bytes64_eq_spec]
      exact UO.below_bind (fun s => ih [] (by simp) s) (fun _ _ _ _ h1 h2 => Sent.cons h1 h2)
    · rw [if_neg h8, if_neg h8, e]
      refine ih _ ?_ s
      simp only [List.length_append, List.length_cons, List.length_nil] at h8 ⊢
      omega

theorem CFBSink_loop_unless (m : Machine) (wr : τ → List Byte → Io W τ) {key : Key} {f}
    (h : Computes key f) (hl : key.isLazy = true) (d p : List Byte) (hp : p.length < 8) (s : τ)
    (rl rr : W64) :
    UnlessOut (Sent wr s ((cfbEnc (encF f) [rl, rr] (blocks64 (p ++ d))).map bytesOf64))
      (CFBSink.loop m wr key d s p rl rr) (Magma.CFBSink.loop m wr key d s p rl rr) := by
  induction d generalizing p s rl rr with
  | nil =>
    unfold CFBSink.loop Magma.CFBSink.loop
    exact UO.alloc (fun w => Sent.none ..) (UO.pure _ _)
  | cons b d ih =>
    unfold CFBSink.loop Magma.CFBSink.loop
    refine UO.alloc (fun w => Sent.none ..) ?_
    have e : p ++ b :: d = (p ++ [b]) ++ d := by simp
    simp only
    by_cases h8 : (p ++ [b]).length = 8
    · obtain ⟨v, hv, hx⟩ := BlkEncrypted_ofU64 h m rl
      rw [if_pos h8, if_pos h8, asLazy_of hl, hv, e, blocks64_append h8]
      refine UO.alloc (fun w => Sent.none ..) ?_
      rw [Io.lift_ok_bind, Io.lift_ok_bind]
      refine UO.alloc (fun w => Sent.none ..) ?_
      rw [xorWords_eq h8, Io.lift_ok_bind, Io.lift_ok_bind, hx]
      simp only [cfbEnc, List.cons_append, List.nil_append, List.map_cons]
      refine UO.below_bind (fun s => ?_) (fun _ _ _ _ h1 h2 => Sent.cons h1 h2)
      rw [load64_eq (by simp), Io.lift_ok_bind, Io.lift_ok_bind, block64_bytesOf64]
      exact ih [] (by simp) s rr _
    · rw [if_neg h8, if_neg h8, e]
      refine ih _ ?_ s _ _
      simp only [List.length_append, List.length_cons, List.length_nil] at h8 ⊢
      omega

theorem gost89_CFBSink_loop_unless (m : Machine) (wr : τ → List Byte → Io W τ) {key : Key} {f}
    (h : Computes key f) (hl : key.isLazy = true) (d p : List Byte) (hp : p.length < 8) (s : τ)
    (r : W64) :
    UnlessOut (Sent wr s ((cfbEnc (encF f) [r] (blocks64 (p ++ d))).map bytesOf64))
      (Gost89.CFBSink.loop m wr key d s p r) (Goost.Gost89.CFBSink.loop m wr key d s p r) := by
  induction d generalizing p s r with
  | nil =>
    unfold Gost89.CFBSink.loop Goost.Gost89.CFBSink.loop
    exact UO.alloc (fun w => Sent.none ..) (UO.pure _ _)
  | cons b d ih =>
    unfold Gost89.CFBSink.loop Goost.Gost89.CFBSink.loop
    refine UO.alloc (fun w => Sent.none ..) ?_
    have e : p ++ b :: d = (p ++ [b]) ++ d := by simp
    simp only
    by_cases h8 : (p ++ [b]).length = 8
    · obtain ⟨v, hv, hx⟩ := BlkEncrypted_ofU64 h m r
      rw [if_pos h8, if_pos h8, asLazy_of hl, hv, e, blocks64_append h8]
      refine UO.alloc (fun w => Sent.none ..) ?_
      rw [Io.lift_ok_bind, Io.lift_ok_bind]
      refine UO.alloc (fun w => Sent.none ..) ?_
      rw [xorWords_eq h8, Io.lift_ok_bind, Io.lift_ok_bind, hx]
      simp only [cfbEnc, List.nil_append, List.map_cons]
      refine UO.below_bind (fun s => ?_) (fun _ _ _ _ h1 h2 => Sent.cons h1 h2)
      rw [load64_eq (by simp), Io.lift_ok_bind, Io.lift_ok_bind, block64_bytesOf64]
      exact ih [] (by simp) s _
    · rw [if_neg h8, if_neg h8, e]
      refine ih _ ?_ s _
      simp only [List.length_append, List.length_cons, List.length_nil] at h8 ⊢
      omega

/-! ### Sources -/

theorem Took.read {rd : σ → Nat → Io W (List Byte × σ)} {s : σ} {w w1 w2 : W} {a : List Byte × σ}
    (h : rd s 8 w = (.ok a, w1)) (t : Took rd a.2 w1 w2) : Took rd s w w2 :=
  .one s a.2 w w1 w2 a.1 h t

theorem CFBSource_loop_unless (m : Machine) (rd : σ → Nat → Io W (List Byte × σ)) (key : Key)
    (size fuel : Nat) (s : σ) (p : List Byte) (rl rr : W64) (res : List Byte) :
    UnlessOut (Took rd s) (CFBSource.loop m rd key size fuel s p rl rr res)
      (Magma.CFBSource.loop m rd key size fuel s p rl rr res) := by
  induction fuel generalizing s p rl rr res with
  | zero => exact UO.lift _ _
  | succ fuel ih =>
    unfold CFBSource.loop Magma.CFBSource.loop
    split
    · refine UO.alloc (fun w => .none ..) ?_
      rcases drain size p res with ⟨p', res'⟩
      simp only
      split
      · exact UO.alloc (fun w => .none ..) (UO.pure _ _)
      · refine UO.alloc (fun w => .none ..) (UO.lift_bind fun e _ => ?_)
        refine UO.below_bind (R' := fun a => Took rd a.2) (fun a => ?_) (fun _ _ _ _ h1 h2 => Took.read h1 h2)
        rcases a with ⟨q, s'⟩
        simp only
        split
        · exact UO.alloc (fun w => .none ..) (UO.pure _ _)
        · exact UO.lift_bind fun _ _ => UO.lift_bind fun _ _ => ih _ _ _ _ _
    · exact UO.alloc (fun w => .none ..) (UO.pure _ _)

theorem gost89_CFBSource_loop_unless (m : Machine) (rd : σ → Nat → Io W (List Byte × σ)) (key : Key)
    (size fuel : Nat) (s : σ) (p : List Byte) (r : W64) (res : List Byte) :
    UnlessOut (Took rd s) (Gost89.CFBSource.loop m rd key size fuel s p r res)
      (Goost.Gost89.CFBSource.loop m rd key size fuel s p r res) := by
  induction fuel generalizing s p r res with
  | zero => exact UO.lift _ _
  | succ fuel ih =>
    unfold Gost89.CFBSource.loop Goost.Gost89.CFBSource.loop
    split
    · refine UO.alloc (fun w => .none ..) ?_
      rcases drain size p res with ⟨p', res'⟩
      simp only
      split
      · exact UO.alloc (fun w => .none ..) (UO.pure _ _)
      · refine UO.alloc (fun w => .none ..) (UO.lift_bind fun e _ => ?_)
        refine UO.below_bind (R' := fun a => Took rd a.2) (fun a => ?_) (fun _ _ _ _ h1 h2 => Took.read h1 h2)
        rcases a with ⟨q, s'⟩
        simp only
        split
        · exact UO.alloc (fun w => .none ..) (UO.pure _ _)
        · exact UO.lift_bind fun _ _ => UO.lift_bind fun _ _ => ih _ _ _ _
    · exact UO.alloc (fun w => .none ..) (UO.pure _ _)

theorem Imit_loop_unless (rd : σ → Nat → Io W (List Byte × σ)) (key : Option Key) (fuel : Nat) (s : σ)
    (b : List Byte) (block : Blk) :
    UnlessOut (Took rd s) (Imit.loop rd key fuel s b block) (Magma.Imit.loop rd key fuel s b block) := by
  induction fuel generalizing s b block with
  | zero => exact UO.lift _ _
  | succ fuel ih =>
    unfold Imit.loop Magma.Imit.loop
    refine UO.alloc (fun w => .none ..) (UO.lift_bind fun v _ => ?_)
    simp only
    split
    · exact UO.pure _ _
    · refine UO.below_bind (R' := fun a => Took rd a.2) (fun a => ?_) (fun _ _ _ _ h1 h2 => Took.read h1 h2)
      rcases a with ⟨q, s'⟩
      simp only
      split
      · exact UO.pure _ _
      · exact UO.alloc (fun w => .none ..) (ih _ _ _)

theorem Imit_loop_took (rd : σ → Nat → Io W (List Byte × σ)) (key : Option Key) (fuel : Nat) (s : σ)
    (b : List Byte) (block : Blk) (w w' : W) (r : Blk × Blk)
    (h : Magma.Imit.loop rd key fuel s b block w = (.ok r, w')) : Took rd s w w' := by
  induction fuel generalizing s b block w with
  | zero => simp [Magma.Imit.loop, Io.lift] at h
  | succ fuel ih =>
    unfold Magma.Imit.loop at h
    simp only at h
    cases hv : Imit.loadPartial b with
    | ok v =>
      rw [hv, Io.lift_ok_bind] at h
      split at h
      · injection h with _ h
        rw [← h]; exact .none ..
      · rcases hr : rd s 8 w with ⟨x, w1⟩
        cases x with
        | ok a =>
          rw [Io.bind_run_ok hr] at h
          rcases a with ⟨q, s'⟩
          simp only at h
          split at h
          · injection h with _ h
            rw [← h]; exact .one s s' w w1 w1 q hr (.none ..)
          · exact .one s s' w w1 w' q hr (ih _ _ _ _ h)
        | throw e => rw [bind_run_throw hr] at h; simp at h
        | ub u => rw [bind_run_ub hr] at h; simp at h
        | diverge => rw [bind_run_diverge hr] at h; simp at h
    | throw e => rw [hv] at h; simp [Io.lift] at h
    | ub u => rw [hv] at h; simp [Io.lift] at h
    | diverge => rw [hv] at h; simp [Io.lift] at h

theorem DataImit_loop_unless (m : Machine) (key : Option Key) (d state : List Byte) :
    UnlessOut (fun w w' : W => w' = w) (Gost89.DataImit.loop m key d state)
      (Io.lift (Goost.Gost89.DataImit.loop m key d state)) := by
  fun_induction Goost.Gost89.DataImit.loop m key d state with
  | case1 b0 b1 b2 b3 b4 b5 b6 b7 rest state state' ih =>
    unfold Gost89.DataImit.loop
    refine UO.alloc (R := fun w w' : W => w' = w) (fun w => rfl) ?_
    rw [Io.lift_bind]
    refine UO.lift_bind fun raw _ => ?_
    rw [Io.lift_bind]
    refine UO.lift_bind fun r _ => ?_
    rw [Io.lift_bind]
    refine UO.lift_bind fun b _ => ?_
    rw [Io.lift_bind]
    exact UO.lift_bind fun st _ => ih st
  | case2 state => unfold Gost89.DataImit.loop; exact UO.pure _ _
  | case3 d state h1 h2 =>
    have : (Gost89.DataImit.loop m key d state : Io (Nat × W) _) = Io.lift (.ub .oobRead) := by
      unfold Gost89.DataImit.loop
      split
      · exact absurd rfl (h1 _ _ _ _ _ _ _ _ _)
      · exact absurd rfl h2
      · rfl
    rw [this]
    exact UO.lift _ _

/-! ### Many writes -/

theorem Sent.append_left {wr : τ → List Byte → Io W τ} {s : τ} {P Q : List (List Byte)} {w w' : W}
    (h : Sent wr s P w w') : Sent wr s (P ++ Q) w w' := by
  obtain ⟨k, s', hk⟩ := h
  refine ⟨min k P.length, s', ?_⟩
  rw [List.take_append_of_le_length (by omega), ← List.take_eq_take_min, hk]

theorem Sent.take {wr : τ → List Byte → Io W τ} {s : τ} {P : List (List Byte)} {n : Nat} {w w' : W}
    (h : Sent wr s (P.take n) w w') : Sent wr s P w w' := by
  obtain ⟨k, s', hk⟩ := h
  exact ⟨min k n, s', by rw [← hk, List.take_take]⟩

theorem Sent.append_right {wr : τ → List Byte → Io W τ} {s s1 : τ} {P Q : List (List Byte)} {w w1 w' : W}
    (h1 : writeAll wr s P w = (.ok s1, w1)) (h : Sent wr s1 Q w1 w') : Sent wr s (P ++ Q) w w' := by
  obtain ⟨k, s', hk⟩ := h
  refine ⟨P.length + k, s', ?_⟩
  rw [List.take_append, List.take_of_length_le (by omega), Nat.add_sub_cancel_left, writeAll_append,
    Io.bind_run_ok h1, hk]

theorem ECBSink_write_split (wr : τ → List Byte → Io W τ) {key : Key} {f} (h : Computes key f)
    (d : List Byte) (s : τ) (t : Magma.ECBSink τ) (w w1 : W)
    (hw : Magma.ECBSink.write wr ⟨s, key⟩ d w = (.ok t, w1)) :
    t.key = key ∧ writeAll wr s (ecbPieces f d) w = (.ok t.sink, w1) := by
  rw [ECBSink_write_eq wr h] at hw
  rcases hz : writeAll wr s (ecbPieces f d) w with ⟨x, w2⟩
  cases x with
  | ok s' =>
    rw [Io.bind_run_ok hz] at hw
    split at hw
    · injection hw with h1 h2
      injection h1 with h1
      rw [← h1, ← h2]; exact ⟨rfl, rfl⟩
    · simp [Io.lift] at hw
  | throw e => rw [bind_run_throw hz] at hw; simp at hw
  | ub u => rw [bind_run_ub hz] at hw; simp at hw
  | diverge => rw [bind_run_diverge hz] at hw; simp at hw

theorem ECBSink_writes_unless (wr : τ → List Byte → Io W τ) {key : Key} {f} (h : Computes key f)
    (ds : List (List Byte)) (s : τ) :
    UnlessOut (Sent wr s (ds.flatMap (ecbPieces f))) (writeAll (ECBSink.write wr) ⟨s, key⟩ ds)
      (writeAll (Magma.ECBSink.write wr) ⟨s, key⟩ ds) := by
  induction ds generalizing s with
  | nil => exact UO.pure _ _
  | cons d ds ih =>
    rw [writeAll_cons, writeAll_cons, List.flatMap_cons]
    refine UO.bind (R' := fun t => Sent wr t.sink (ds.flatMap (ecbPieces f)))
      (ECBSink_loop_unless wr h d [] (by simp) s) ?_ ?_ ?_
    · intro w t w1 ht
      obtain ⟨h1, h2⟩ := ECBSink_write_split wr h d s t w w1 ht
      obtain ⟨s', k⟩ := t
      obtain rfl : k = key := h1
      exact ih s'
    · intro w w' hs
      exact Sent.append_left hs
    · intro w t w1 w2 ht hs
      obtain ⟨h1, h2⟩ := ECBSink_write_split wr h d s t w w1 ht
      exact Sent.append_right h2 hs

/-- The pieces that a `CFBSink` in any state has still to write when it is given `d`. -/
def cfbPieces (f : Fin 8 → W32 → W32) (R : List W64) (d : List Byte) : List (List Byte) :=
  (cfbEnc (encF f) R (blocks64 d)).map bytesOf64

theorem cfbPieces_take (f : Fin 8 → W32 → W32) (R : List W64) (a e : List Byte) :
    cfbPieces f R a = (cfbPieces f R (a ++ e)).take (a.length / 8) := by
  have h1 : blocks64 a = (blocks64 (a ++ e)).take (a.length / 8) := by
    rw [← blocks64_take, List.take_append_of_le_length (by omega), blocks64_take,
      List.take_of_length_le (by rw [blocks64_length]; omega)]
  rw [cfbPieces, cfbPieces, ← List.map_take, ← cfbEnc_take, ← h1]

theorem CFBSink_loop_split (m : Machine) (wr : τ → List Byte → Io W τ) {key : Key} {f} (h : Computes key f)
    (hl : key.isLazy = true) (d p : List Byte) (hp : p.length < 8) (s : τ) (rl rr : W64)
    (t : Magma.CFBSink τ) (w w1 : W) (hw : Magma.CFBSink.loop m wr key d s p rl rr w = (.ok t, w1)) :
    t.key = key ∧ t.plain.length < 8 ∧ ∃ P, writeAll wr s P w = (.ok t.sink, w1) ∧
      ∀ e, cfbPieces f [rl, rr] (p ++ d ++ e) = P ++ cfbPieces f [t.ivl, t.ivr] (t.plain ++ e) := by
  induction d generalizing p s rl rr w with
  | nil =>
    unfold Magma.CFBSink.loop at hw
    injection hw with h1 h2
    injection h1 with h1
    rw [← h1, ← h2]
    exact ⟨rfl, hp, [], rfl, fun e => by rw [List.append_nil]; rfl⟩
  | cons b d ih =>
    unfold Magma.CFBSink.loop at hw
    have e : p ++ b :: d = (p ++ [b]) ++ d := by simp
    simp only at hw
    rw [e]
    by_cases h8 : (p ++ [b]).length = 8
    · obtain ⟨v, hv, hx⟩ := BlkEncrypted_ofU64 h m rl
      rw [if_pos h8, asLazy_of hl, hv, Io.lift_ok_bind, xorWords_eq h8, Io.lift_ok_bind, hx] at hw
      rcases hz : wr s (bytesOf64 (block64 (p ++ [b]) ^^^ encF f rl)) w with ⟨x, w2⟩
      cases x with
      | ok s' =>
        rw [Io.bind_run_ok hz, load64_eq (by simp), Io.lift_ok_bind, block64_bytesOf64] at hw
        obtain ⟨h1, h2, P, h3, h4⟩ := ih [] (by simp) s' rr _ _ hw
        refine ⟨h1, h2, bytesOf64 (block64 (p ++ [b]) ^^^ encF f rl) :: P, ?_, fun e' => ?_⟩
        · rw [writeAll_cons, Io.bind_run_ok hz, h3]
        · have := h4 e'
          rw [List.nil_append] at this
          rw [List.append_assoc, cfbPieces, blocks64_append h8]
          simp only [cfbEnc, List.cons_append, List.nil_append, List.map_cons]
          rw [← this]; rfl
      | throw e => rw [bind_run_throw hz] at hw; simp at hw
      | ub u => rw [bind_run_ub hz] at hw; simp at hw
      | diverge => rw [bind_run_diverge hz] at hw; simp at hw
    · rw [if_neg h8] at hw
      refine ih _ ?_ s _ _ _ hw
      simp only [List.length_append, List.length_cons, List.length_nil] at h8 ⊢
      omega

theorem CFBSink_writes_unless (m : Machine) (wr : τ → List Byte → Io W τ) {key : Key} {f}
    (h : Computes key f) (hl : key.isLazy = true) (ds : List (List Byte)) (s : τ) (p : List Byte)
    (hp : p.length < 8) (rl rr : W64) :
    UnlessOut (Sent wr s (cfbPieces f [rl, rr] (p ++ ds.flatten)))
      (writeAll (CFBSink.write m wr) ⟨s, key, rl, rr, p⟩ ds)
      (writeAll (Magma.CFBSink.write m wr) ⟨s, key, rl, rr, p⟩ ds) := by
  induction ds generalizing s p rl rr with
  | nil => exact UO.pure _ _
  | cons d ds ih =>
    rw [writeAll_cons, writeAll_cons, List.flatten_cons, ← List.append_assoc]
    refine UO.bind (R' := fun t => Sent wr t.sink (cfbPieces f [t.ivl, t.ivr] (t.plain ++ ds.flatten)))
      (UO.alloc (fun w => Sent.none ..) (CFBSink_loop_unless m wr h hl d p hp s rl rr)) ?_ ?_ ?_
    · intro w t w1 ht
      obtain ⟨h1, h2, P, h3, h4⟩ := CFBSink_loop_split m wr h hl d p hp s rl rr t w w1 ht
      obtain ⟨s', k, a, b, q⟩ := t
      obtain rfl : k = key := h1
      exact ih s' q h2 a b
    · intro w w' hs
      rw [← cfbPieces, cfbPieces_take f _ (p ++ d) ds.flatten] at hs
      exact Sent.take hs
    · intro w t w1 w2 ht hs
      obtain ⟨h1, h2, P, h3, h4⟩ := CFBSink_loop_split m wr h hl d p hp s rl rr t w w1 ht
      rw [h4]
      exact Sent.append_right h3 hs

theorem gost89_CFBSink_loop_split (m : Machine) (wr : τ → List Byte → Io W τ) {key : Key} {f}
    (h : Computes key f) (hl : key.isLazy = true) (d p : List Byte) (hp : p.length < 8) (s : τ) (r : W64)
    (t : Goost.Gost89.CFBSink τ) (w w1 : W)
    (hw : Goost.Gost89.CFBSink.loop m wr key d s p r w = (.ok t, w1)) :
    t.key = key ∧ t.plain.length < 8 ∧ ∃ P, writeAll wr s P w = (.ok t.sink, w1) ∧
      ∀ e, cfbPieces f [r] (p ++ d ++ e) = P ++ cfbPieces f [t.iv] (t.plain ++ e) := by
  induction d generalizing p s r w with
  | nil =>
    unfold Goost.Gost89.CFBSink.loop at hw
    injection hw with h1 h2
    injection h1 with h1
    rw [← h1, ← h2]
    exact ⟨rfl, hp, [], rfl, fun e => by rw [List.append_nil]; rfl⟩
  | cons b d ih =>
    unfold Goost.Gost89.CFBSink.loop at hw
    have e : p ++ b :: d = (p ++ [b]) ++ d := by simp
    simp only at hw
    rw [e]
    by_cases h8 : (p ++ [b]).length = 8
    · obtain ⟨v, hv, hx⟩ := BlkEncrypted_ofU64 h m r
      rw [if_pos h8, asLazy_of hl, hv, Io.lift_ok_bind, xorWords_eq h8, Io.lift_ok_bind, hx] at hw
      rcases hz : wr s (bytesOf64 (block64 (p ++ [b]) ^^^ encF f r)) w with ⟨x, w2⟩
      cases x with
      | ok s' =>
        rw [Io.bind_run_ok hz, load64_eq (by simp), Io.lift_ok_bind, block64_bytesOf64] at hw
        obtain ⟨h1, h2, P, h3, h4⟩ := ih [] (by simp) s' _ _ hw
        refine ⟨h1, h2, bytesOf64 (block64 (p ++ [b]) ^^^ encF f r) :: P, ?_, fun e' => ?_⟩
        · rw [writeAll_cons, Io.bind_run_ok hz, h3]
        · have := h4 e'
          rw [List.nil_append] at this
          rw [List.append_assoc, cfbPieces, blocks64_append h8]
          simp only [cfbEnc, List.nil_append, List.map_cons]
          rw [List.cons_append, ← this]; rfl
      | throw e => rw [bind_run_throw hz] at hw; simp at hw
      | ub u => rw [bind_run_ub hz] at hw; simp at hw
      | diverge => rw [bind_run_diverge hz] at hw; simp at hw
    · rw [if_neg h8] at hw
      refine ih _ ?_ s _ _ hw
      simp only [List.length_append, List.length_cons, List.length_nil] at h8 ⊢
      omega

theorem gost89_CFBSink_writes_unless (m : Machine) (wr : τ → List Byte → Io W τ) {key : Key} {f}
    (h : Computes key f) (hl : key.isLazy = true) (ds : List (List Byte)) (s : τ) (p : List Byte)
    (hp : p.length < 8) (r : W64) :
    UnlessOut (Sent wr s (cfbPieces f [r] (p ++ ds.flatten)))
      (writeAll (Gost89.CFBSink.write m wr) ⟨s, key, r, p⟩ ds)
      (writeAll (Goost.Gost89.CFBSink.write m wr) ⟨s, key, r, p⟩ ds) := by
  induction ds generalizing s p r with
  | nil => exact UO.pure _ _
  | cons d ds ih =>
    rw [writeAll_cons, writeAll_cons, List.flatten_cons, ← List.append_assoc]
    refine UO.bind (R' := fun t => Sent wr t.sink (cfbPieces f [t.iv] (t.plain ++ ds.flatten)))
      (UO.alloc (fun w => Sent.none ..) (gost89_CFBSink_loop_unless m wr h hl d p hp s r)) ?_ ?_ ?_
    · intro w t w1 ht
      obtain ⟨h1, h2, P, h3, h4⟩ := gost89_CFBSink_loop_split m wr h hl d p hp s r t w w1 ht
      obtain ⟨s', k, a, q⟩ := t
      obtain rfl : k = key := h1
      exact ih s' q h2 a
    · intro w w' hs
      rw [← cfbPieces, cfbPieces_take f _ (p ++ d) ds.flatten] at hs
      exact Sent.take hs
    · intro w t w1 w2 ht hs
      obtain ⟨h1, h2, P, h3, h4⟩ := gost89_CFBSink_loop_split m wr h hl d p hp s r t w w1 ht
      rw [h4]
      exact Sent.append_right h3 hs

/-! ### At the last moment -/

theorem alloc_granted {x : Io (Nat × W) α} {n : Nat} {w : W} {r : Exec α × Nat × W} (h : x (n, w) = r) :
    (alloc >>= fun _ => x) (n + 1, w) = r := h

theorem ECBSink_loop_last (wr : τ → List Byte → Io W τ) {key : Key} {f} (h : Computes key f)
    (d p : List Byte) (hp : p.length < 8) (s s' : τ) (w w' : W)
    (hw : writeAll wr s (ecbPieces f (p ++ d)) w = (.ok s', w')) :
    ∃ n, ECBSink.loop wr key d p s (n, w) = (.throw .badAlloc, (0, w')) := by
  induction d generalizing p s w with
  | nil =>
    rw [List.append_nil, ecbPieces_short f hp, writeAll_nil] at hw
    injection hw with _ hw
    exact ⟨0, by rw [← hw]; rfl⟩
  | cons b d ih =>
    have e : p ++ b :: d = (p ++ [b]) ++ d := by simp
    rw [e] at hw
    unfold ECBSink.loop
    simp only
    by_cases h8 : (p ++ [b]).length = 8
    · rw [ecbPieces_append f h8, writeAll_cons] at hw
      rcases hz : wr s (bytesOf64 (encF f (block64 (p ++ [b])))) w with ⟨x, w1⟩
      cases x with
      | ok s1 =>
        rw [Io.bind_run_ok hz] at hw
        obtain ⟨n, hn⟩ := ih [] (by simp) s1 w1 hw
        refine ⟨n + 1 + 1, alloc_granted ?_⟩
        rw [if_pos h8, load64_eq h8, Io.lift_ok_bind]
        refine alloc_granted ?_
        rw [EncryptionBase_eq h, Io.lift_ok_bind, overwrite8_eq h8, Io.lift_ok_bind, bytes64_eq_spec]
        have hb : below (wr s (bytesOf64 (encF f (block64 (p ++ [b]))))) (n, w) = (.ok s1, (n, w1)) := by
          simp [below, hz]
        rw [Io.bind_run_ok hb, hn]
      | throw e => rw [bind_run_throw hz] at hw; simp at hw
      | ub u => rw [bind_run_ub hz] at hw; simp at hw
      | diverge => rw [bind_run_diverge hz] at hw; simp at hw
    · have hp' : (p ++ [b]).length < 8 := by
        simp only [List.length_append, List.length_cons, List.length_nil] at h8 ⊢
        omega
      obtain ⟨n, hn⟩ := ih _ hp' s w hw
      refine ⟨n + 1, alloc_granted ?_⟩
      rw [if_neg h8, hn]

theorem CFBSink_loop_last (m : Machine) (wr : τ → List Byte → Io W τ) {key : Key} {f} (h : Computes key f)
    (hl : key.isLazy = true) (d p : List Byte) (hp : p.length < 8) (s s' : τ) (rl rr : W64) (w w' : W)
    (hw : writeAll wr s (cfbPieces f [rl, rr] (p ++ d)) w = (.ok s', w')) :
    ∃ n, CFBSink.loop m wr key d s p rl rr (n, w) = (.throw .badAlloc, (0, w')) := by
  induction d generalizing p s rl rr w with
  | nil =>
    rw [List.append_nil, cfbPieces, blocks64_short hp] at hw
    injection hw with _ hw
    exact ⟨0, by rw [← hw]; rfl⟩
  | cons b d ih =>
    have e : p ++ b :: d = (p ++ [b]) ++ d := by simp
    rw [e] at hw
    unfold CFBSink.loop
    simp only
    by_cases h8 : (p ++ [b]).length = 8
    · rw [cfbPieces, blocks64_append h8] at hw
      simp only [cfbEnc, List.cons_append, List.nil_append, List.map_cons] at hw
      rw [writeAll_cons] at hw
      obtain ⟨v, hv, hx⟩ := BlkEncrypted_ofU64 h m rl
      rcases hz : wr s (bytesOf64 (block64 (p ++ [b]) ^^^ encF f rl)) w with ⟨x, w1⟩
      cases x with
      | ok s1 =>
        rw [Io.bind_run_ok hz] at hw
        obtain ⟨n, hn⟩ := ih [] (by simp) s1 rr _ w1 hw
        refine ⟨n + 1 + 1 + 1, alloc_granted ?_⟩
        rw [if_pos h8]
        refine alloc_granted ?_
        rw [asLazy_of hl, hv, Io.lift_ok_bind]
        refine alloc_granted ?_
        rw [xorWords_eq h8, Io.lift_ok_bind, hx]
        have hb : below (wr s (bytesOf64 (block64 (p ++ [b]) ^^^ encF f rl))) (n, w) = (.ok s1, (n, w1)) := by
          simp [below, hz]
        rw [Io.bind_run_ok hb, load64_eq (by simp), Io.lift_ok_bind, block64_bytesOf64, hn]
      | throw e => rw [bind_run_throw hz] at hw; simp at hw
      | ub u => rw [bind_run_ub hz] at hw; simp at hw
      | diverge => rw [bind_run_diverge hz] at hw; simp at hw
    · have hp' : (p ++ [b]).length < 8 := by
        simp only [List.length_append, List.length_cons, List.length_nil] at h8 ⊢
        omega
      obtain ⟨n, hn⟩ := ih _ hp' s rl rr w hw
      refine ⟨n + 1, alloc_granted ?_⟩
      rw [if_neg h8, hn]

end Goost.Scarce
