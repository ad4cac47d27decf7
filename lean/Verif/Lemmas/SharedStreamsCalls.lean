import Verif.Lemmas.SharedStreams
import Verif.Spec.Streams
/-
Calls of streams, one after the other: the stream that a call returns has the same key.
-/
namespace Goost.Conc
open Spec Goost.Magma

variable {W σ τ : Type}

theorem ecbSink_key (wr : τ → List Byte → Io W τ) (key : Key) (data p : List Byte) (s : τ) (w w' : W) (t : ECBSink τ)
    (h : ECBSink.loop wr key data p s w = (.ok t, w')) : t.key = key := by
  induction data generalizing p s w with
  | nil =>
    simp only [ECBSink.loop] at h
    split at h <;> cases h
    rfl
  | cons b data ih =>
    simp only [ECBSink.loop] at h
    split at h
    · obtain ⟨_, _, -, h⟩ := io_ok h
      obtain ⟨_, _, -, h⟩ := io_ok h
      obtain ⟨_, _, -, h⟩ := io_ok h
      obtain ⟨_, _, -, h⟩ := io_ok h
      exact ih _ _ _ h
    · exact ih _ _ _ h

theorem cfbSink_key (m : Machine) (wr : τ → List Byte → Io W τ) (key : Key) (data : List Byte) (s : τ)
    (p : List Byte) (rl rr : W64) (w w' : W) (t : CFBSink τ)
    (h : CFBSink.loop m wr key data s p rl rr w = (.ok t, w')) : t.key = key := by
  induction data generalizing p s rl rr w with
  | nil => simp only [CFBSink.loop] at h; cases h; rfl
  | cons b data ih =>
    simp only [CFBSink.loop] at h
    split at h
    · obtain ⟨_, _, -, h⟩ := io_ok h
      obtain ⟨_, _, -, h⟩ := io_ok h
      obtain ⟨_, _, -, h⟩ := io_ok h
      obtain ⟨_, _, -, h⟩ := io_ok h
      exact ih _ _ _ _ _ h
    · exact ih _ _ _ _ _ h

theorem gost89CfbSink_key (m : Machine) (wr : τ → List Byte → Io W τ) (key : Key) (data : List Byte) (s : τ)
    (p : List Byte) (l : W64) (w w' : W) (t : Gost89.CFBSink τ)
    (h : Gost89.CFBSink.loop m wr key data s p l w = (.ok t, w')) : t.key = key := by
  induction data generalizing p s l w with
  | nil => simp only [Gost89.CFBSink.loop] at h; cases h; rfl
  | cons b data ih =>
    simp only [Gost89.CFBSink.loop] at h
    split at h
    · obtain ⟨_, _, -, h⟩ := io_ok h
      obtain ⟨_, _, -, h⟩ := io_ok h
      obtain ⟨_, _, -, h⟩ := io_ok h
      obtain ⟨_, _, -, h⟩ := io_ok h
      exact ih _ _ _ _ h
    · exact ih _ _ _ _ h

theorem cfbSource_key (m : Machine) (rd : σ → Nat → Io W (List Byte × σ)) (key : Key) (size fuel : Nat) (s : σ)
    (p : List Byte) (rl rr : W64) (res : List Byte) (w w' : W) (r : List Byte × CFBSource σ)
    (h : CFBSource.loop m rd key size fuel s p rl rr res w = (.ok r, w')) : r.2.key = key := by
  induction fuel generalizing s p rl rr res w with
  | zero => cases h
  | succ fuel ih =>
    simp only [CFBSource.loop] at h
    split at h
    · split at h
      · cases h; rfl
      · obtain ⟨_, _, -, h⟩ := io_ok h
        obtain ⟨_, _, -, h⟩ := io_ok h
        split at h
        · cases h; rfl
        · obtain ⟨_, _, -, h⟩ := io_ok h
          obtain ⟨_, _, -, h⟩ := io_ok h
          exact ih _ _ _ _ _ _ h
    · cases h; rfl

theorem gost89CfbSource_key (m : Machine) (rd : σ → Nat → Io W (List Byte × σ)) (key : Key) (size fuel : Nat) (s : σ)
    (p : List Byte) (l : W64) (res : List Byte) (w w' : W) (r : List Byte × Gost89.CFBSource σ)
    (h : Gost89.CFBSource.loop m rd key size fuel s p l res w = (.ok r, w')) : r.2.key = key := by
  induction fuel generalizing s p l res w with
  | zero => cases h
  | succ fuel ih =>
    simp only [Gost89.CFBSource.loop] at h
    split at h
    · split at h
      · cases h; rfl
      · obtain ⟨_, _, -, h⟩ := io_ok h
        obtain ⟨_, _, -, h⟩ := io_ok h
        split at h
        · cases h; rfl
        · obtain ⟨_, _, -, h⟩ := io_ok h
          obtain ⟨_, _, -, h⟩ := io_ok h
          exact ih _ _ _ _ _ h
    · cases h; rfl

theorem ecbSource_key (m : Machine) (rd : σ → Nat → Io W (List Byte × σ)) (key : Key) (t : ECBSource σ)
    (ht : ∀ s k, t = .ecb s k → k = key) (size : Nat) (w w' : W) (r : List Byte × ECBSource σ)
    (h : ECBSource.read m rd t size w = (.ok r, w')) : ∀ s k, r.2 = .ecb s k → k = key := by
  cases t with
  | bare s =>
    simp only [ECBSource.read] at h
    obtain ⟨_, _, -, h⟩ := io_ok h
    cases h
    intro s k e; cases e
  | ecb s k =>
    obtain rfl := ht s k rfl
    simp only [ECBSource.read] at h
    split at h
    · cases h
    · obtain ⟨_, _, -, h⟩ := io_ok h
      split at h
      · cases h; intro s k e; cases e
      · obtain ⟨_, _, -, h⟩ := io_ok h
        obtain ⟨_, _, -, h⟩ := io_ok h
        obtain ⟨_, _, -, h⟩ := io_ok h
        cases h
        intro s' k' e; cases e; rfl

theorem io_bind_congr {α β : Type} (x : Io W α) (f g : α → Io W β) (w : W)
    (h : ∀ a w', x w = (.ok a, w') → f a w' = g a w') : (x >>= f) w = (x >>= g) w := by
  show Io.bind x f w = Io.bind x g w
  unfold Io.bind
  split
  · next a w' e => exact h a w' e
  all_goals rfl

/-- Writes with the mutex locked. -/
theorem writes_alone {S : Type} (kd : KeyData) (ask : S → List Byte → AskKey W S) (wr : S → List Byte → Io W S)
    (Q : S → Prop) (h : ∀ s d, Q s → aloneIo kd (ask s d) = wr s d)
    (hq : ∀ s d w s' w', Q s → wr s d w = (.ok s', w') → Q s') (ds : List (List Byte)) (s : S) (hs : Q s) (w : W) :
    callsAlone kd (ds.map fun d s => ask s d) s w = writeAll wr s ds w := by
  induction ds generalizing s w with
  | nil => rfl
  | cons d ds ih =>
    simp only [List.map_cons, callsAlone, writeAll, List.foldlM_cons, h s d hs]
    exact io_bind_congr _ _ _ _ fun s' w' e => ih s' (hq s d w s' w' hs e) w'

/-- Reads with the mutex locked. -/
theorem reads_alone {S : Type} (kd : KeyData) (ask : S → Nat → AskKey W (List Byte × S))
    (rd : S → Nat → Io W (List Byte × S)) (Q : S → Prop) (h : ∀ s n, Q s → aloneIo kd (ask s n) = rd s n)
    (hq : ∀ s n w r w', Q s → rd s n w = (.ok r, w') → Q r.2) (ns : List Nat) (got : List (List Byte)) (s : S)
    (hs : Q s) (w : W) :
    callsAlone kd (ns.map fun n => readCall ask n) (got, s) w =
      (readAll rd s ns >>= fun r => pure (got ++ r.1, r.2)) w := by
  induction ns generalizing got s w with
  | nil =>
    show _ = (Exec.ok (got ++ [], s), w)
    rw [List.append_nil]
    rfl
  | cons n ns ih =>
    simp only [List.map_cons, callsAlone, List.foldlM_cons, readAll, readCall, aloneIo_bind, aloneIo_pure, h s n hs,
      bind_assoc, pure_bind]
    refine io_bind_congr _ _ _ _ fun r w' e => ?_
    have := ih (got ++ [r.1]) r.2 (hq s n w r w' hs e) w'
    simp only [callsAlone, List.append_assoc, List.singleton_append] at this
    exact this

end Goost.Conc
