import Verif.Spec.OldObjects
import Verif.Lemmas.Growing
import Verif.Lemmas.Sinks
/-
Lemmas about several calls on the same object.
-/
namespace Goost
open Goost.Magma Spec Spec.Magma Spec.Modes
variable {W σ τ : Type}

theorem writeAll_file (xs : List (List Byte)) (file : List Byte) :
    writeAll fileWrite () xs file = (.ok (), file ++ xs.flatten) := by
  obtain ⟨s', w', e1, e2⟩ := fileWrite_collects.writeAll xs () file
  rw [e1, ← e2]

theorem writeAll_single (wr : τ → List Byte → Io W τ) (s : τ) (d : List Byte) :
    writeAll wr s [d] = wr s d := by
  rw [writeAll_cons]
  simp

/-- One write to a fresh `CFBSink` over a file. -/
theorem CFBSink_write_file (m : Machine) {key : Key} {f} (h : Computes key f) (hl : key.isLazy = true)
    (ivl ivr : W64) (d file : List Byte) :
    ∃ t, CFBSink.write m fileWrite (CFBSink.new () key ivl ivr) d file =
      (.ok t, file ++ unblocks64 (cfbEnc (encF f) [ivl, ivr] (blocks64 d))) := by
  rw [← writeAll_single (CFBSink.write m fileWrite), CFBSink_writes_eq m fileWrite h hl [d] () ivl ivr _ rfl,
    Io.bind_run_ok (writeAll_file _ file)]
  simp only [List.flatten_cons, List.flatten_nil, List.append_nil]
  exact ⟨_, rfl⟩

theorem gost89_CFBSink_write_file (m : Machine) {key : Key} {f} (h : Computes key f)
    (hl : key.isLazy = true) (iv : W64) (d file : List Byte) :
    ∃ t, Gost89.CFBSink.write m fileWrite (Gost89.CFBSink.new () key iv) d file =
      (.ok t, file ++ unblocks64 (cfbEnc (encF f) [iv] (blocks64 d))) := by
  rw [← writeAll_single (Gost89.CFBSink.write m fileWrite), gost89_CFBSink_writes_eq m fileWrite h hl [d] () iv _ rfl,
    Io.bind_run_ok (writeAll_file _ file)]
  simp only [List.flatten_cons, List.flatten_nil, List.append_nil]
  exact ⟨_, rfl⟩

theorem writeEach_file (wr : τ → List Byte → Io (List Byte) τ) (t : τ) (out : List Byte → List Byte)
    (ds : List (List Byte))
    (h : ∀ d ∈ ds, ∀ file, ∃ t', wr t d file = (.ok t', file ++ out d)) (file : List Byte) :
    writeEach wr t ds file = (.ok (), file ++ (ds.map out).flatten) := by
  induction ds generalizing file with
  | nil => simp only [writeEach, List.map_nil, List.flatten_nil, List.append_nil]; rfl
  | cons d ds ih =>
    obtain ⟨t', e⟩ := h d (by simp) file
    rw [writeEach, Io.bind_run_ok e, ih fun x hx => h x (by simp [hx])]
    simp

/-- Reading whole blocks from a pipe. -/
theorem pipe_readsBlocks (c : List W64) (rest : List Byte) :
    ReadsBlocks pipeRead () (unblocks64 c ++ rest) c () rest := by
  induction c with
  | nil => exact ⟨rfl, rfl⟩
  | cons x c ih =>
    refine ⟨(), unblocks64 c ++ rest, ?_, ih⟩
    have h8 := bytesOf64_length x
    simp only [pipeRead, unblocks64_cons, List.append_assoc]
    rw [List.take_left' h8, List.drop_left' h8]

theorem cfbEnc_eq_iff (E : W64 → W64) (hE : ∀ x y, E x = E y → x = y) (p : List W64) (R R' : List W64)
    (hR : R ≠ []) (hl : R.length = R'.length) :
    cfbEnc E R p = cfbEnc E R' p ↔ R.take p.length = R'.take p.length := by
  induction p generalizing R R' with
  | nil => simp [cfbEnc]
  | cons x p ih =>
    match R, R' with
    | r :: R, r' :: R' =>
      simp only [List.length_cons, Nat.add_right_cancel_iff] at hl
      simp only [cfbEnc, List.cons.injEq, List.length_cons, List.take_succ_cons]
      constructor
      · rintro ⟨h1, h2⟩
        rw [h1, ih _ _ (by simp) (by simp [hl])] at h2
        refine ⟨hE _ _ ?_, ?_⟩
        · have := congrArg (x ^^^ ·) h1
          simpa [← BitVec.xor_assoc] using this
        · rcases Nat.lt_or_ge R.length p.length with h | h
          · rw [List.take_of_length_le (by simp; omega), List.take_of_length_le (by simp; omega)] at h2
            rw [List.append_cancel_right h2]
          · rwa [List.take_append_of_le_length h, List.take_append_of_le_length (by omega)] at h2
      · rintro ⟨rfl, h2⟩
        refine ⟨rfl, ?_⟩
        rw [ih _ _ (by simp) (by simp [hl])]
        rcases Nat.lt_or_ge R.length p.length with h | h
        · rw [List.take_of_length_le (by omega), List.take_of_length_le (by omega)] at h2
          rw [h2]
        · rwa [List.take_append_of_le_length h, List.take_append_of_le_length (by omega)]

theorem cfbDec_eq_iff (E : W64 → W64) (hE : ∀ x y, E x = E y → x = y) (p : List W64) (R R' : List W64)
    (hR : R ≠ []) (hl : R.length = R'.length) :
    cfbDec E R p = cfbDec E R' p ↔ R.take p.length = R'.take p.length := by
  induction p generalizing R R' with
  | nil => simp [cfbDec]
  | cons x p ih =>
    match R, R' with
    | r :: R, r' :: R' =>
      simp only [List.length_cons, Nat.add_right_cancel_iff] at hl
      simp only [cfbDec, List.cons.injEq, List.length_cons, List.take_succ_cons]
      constructor
      · rintro ⟨h1, h2⟩
        rw [ih _ _ (by simp) (by simp [hl])] at h2
        refine ⟨hE _ _ ?_, ?_⟩
        · have := congrArg (x ^^^ ·) h1
          simpa [← BitVec.xor_assoc] using this
        · rcases Nat.lt_or_ge R.length p.length with h | h
          · rw [List.take_of_length_le (by simp; omega), List.take_of_length_le (by simp; omega)] at h2
            rw [List.append_cancel_right h2]
          · rwa [List.take_append_of_le_length h, List.take_append_of_le_length (by omega)] at h2
      · rintro ⟨rfl, h2⟩
        refine ⟨rfl, ?_⟩
        rw [ih _ _ (by simp) (by simp [hl])]
        rcases Nat.lt_or_ge R.length p.length with h | h
        · rw [List.take_of_length_le (by omega), List.take_of_length_le (by omega)] at h2
          rw [h2]
        · rwa [List.take_append_of_le_length h, List.take_append_of_le_length (by omega)]

/-- A computation that leaves the world as it is. -/
def Quiet {α : Type} (x : Io W α) : Prop := ∀ w, (x w).2 = w

theorem Quiet.lift {α : Type} (x : Exec α) : Quiet (Io.lift x : Io W α) := fun _ => rfl
theorem Quiet.pure {α : Type} (a : α) : Quiet (Pure.pure a : Io W α) := fun _ => rfl
theorem Quiet.bind {α β : Type} {x : Io W α} {k : α → Io W β} (hx : Quiet x) (hk : ∀ a, Quiet (k a)) :
    Quiet (x >>= k) := by
  intro w
  have h := hx w
  rw [Io.bind_def, Io.bind]
  rcases e : x w with ⟨r, w'⟩
  rw [e] at h
  simp only at h
  subst h
  cases r with
  | ok a => exact hk a _
  | throw _ => rfl
  | ub _ => rfl
  | diverge => rfl

theorem CFBSource_loop_quiet (m : Machine) (rd : σ → Nat → Io W (List Byte × σ))
    (hr : ∀ s n, Quiet (rd s n)) (key : Key) (size fuel : Nat) (s : σ) (p : List Byte) (rl rr : W64)
    (res : List Byte) : Quiet (CFBSource.loop m rd key size fuel s p rl rr res) := by
  induction fuel generalizing s p rl rr res with
  | zero => exact Quiet.lift _
  | succ fuel ih =>
    unfold CFBSource.loop
    simp only
    split
    · split
      · exact Quiet.pure _
      · refine Quiet.bind (Quiet.lift _) fun e => Quiet.bind (hr _ _) fun x => ?_
        split
        · exact Quiet.pure _
        · exact Quiet.bind (Quiet.lift _) fun _ => Quiet.bind (Quiet.lift _) fun _ => ih _ _ _ _ _
    · exact Quiet.pure _

theorem gost89_CFBSource_loop_quiet (m : Machine) (rd : σ → Nat → Io W (List Byte × σ))
    (hr : ∀ s n, Quiet (rd s n)) (key : Key) (size fuel : Nat) (s : σ) (p : List Byte) (r : W64)
    (res : List Byte) : Quiet (Gost89.CFBSource.loop m rd key size fuel s p r res) := by
  induction fuel generalizing s p r res with
  | zero => exact Quiet.lift _
  | succ fuel ih =>
    unfold Gost89.CFBSource.loop
    simp only
    split
    · split
      · exact Quiet.pure _
      · refine Quiet.bind (Quiet.lift _) fun e => Quiet.bind (hr _ _) fun x => ?_
        split
        · exact Quiet.pure _
        · exact Quiet.bind (Quiet.lift _) fun _ => Quiet.bind (Quiet.lift _) fun _ => ih _ _ _ _
    · exact Quiet.pure _

theorem ECBSource_read_quiet (m : Machine) (rd : σ → Nat → Io W (List Byte × σ))
    (hr : ∀ s n, Quiet (rd s n)) (t : ECBSource σ) (n : Nat) : Quiet (ECBSource.read m rd t n) := by
  cases t with
  | bare s => exact Quiet.bind (hr _ _) fun _ => Quiet.pure _
  | ecb s key =>
    simp only [ECBSource.read]
    split
    · exact Quiet.lift _
    · refine Quiet.bind (hr _ _) fun x => ?_
      split
      · exact Quiet.pure _
      · exact Quiet.bind (Quiet.lift _) fun _ => Quiet.bind (Quiet.lift _) fun _ =>
          Quiet.bind (Quiet.lift _) fun _ => Quiet.pure _

theorem readEach_quiet (rd : σ → Nat → Io W (List Byte × σ)) (s : σ) (hq : ∀ n, Quiet (rd s n))
    (n k : Nat) (w : W) (x : List Byte) (s' : σ) (h : (rd s n w).1 = .ok (x, s')) :
    readEach rd s (List.replicate k n) w = (.ok (List.replicate k x), w) := by
  have e : rd s n w = (.ok (x, s'), w) := Prod.ext h (hq n w)
  induction k with
  | zero => rfl
  | succ k ih =>
    rw [List.replicate_succ, readEach, Io.bind_run_ok e]
    simp only
    rw [Io.bind_run_ok ih]
    rfl

end Goost
