import Verif.Lemmas.Growing
import Verif.Props.Failures
/-
Properties C70, C72: decrypting sources over data that keep arriving, and how much they take.
-/
namespace Goost.Props
open Goost.Magma Spec Spec.Magma Spec.Modes
variable {W σ τ : Type}

/-! ### C70 -/

/-- C70. A file of ciphertext grows while a `CFBSource` reads it, in any order of arrivals and reads and
with any sizes. No read fails, each returns as many bytes as it asked for or all that have arrived, and
the pieces together are the beginning of the decryption of everything that arrives. -/
theorem C70_growing_file (m : Machine) (key : Key) (f : Fin 8 → BitVec 32 → BitVec 32)
    (h : Computes key f) (hl : key.isLazy = true) (ivl ivr : BitVec 64) (evs : List GrowEvent) :
    ∃ pieces t, runGrowing (CFBSource.read m fileRead) (CFBSource.new 0 key ivl ivr) evs [] =
        (.ok (pieces, t), unblocks64 (arrived evs)) ∧
      pieces.map List.length = idealSizes 0 evs ∧
      pieces.flatten = (unblocks64 (cfbDec (encF f) [ivl, ivr] (arrived evs))).take
        (idealSizes 0 evs).sum := by
  suffices H : ∀ (evs : List GrowEvent) (c : List W64) (n : Nat) (t : CFBSource Nat),
      CFBSourceAt key f ivl ivr c n t →
      ∃ pieces t', runGrowing (CFBSource.read m fileRead) t evs (unblocks64 c) =
          (.ok (pieces, t'), unblocks64 (c ++ arrived evs)) ∧
        pieces.map List.length = idealSizes (8 * c.length - n) evs ∧
        pieces.flatten = ((unblocks64 (cfbDec (encF f) [ivl, ivr] (c ++ arrived evs))).drop n).take
          (idealSizes (8 * c.length - n) evs).sum by
    exact H evs [] 0 _ (CFBSourceAt_new key f ivl ivr)
  intro evs
  induction evs with
  | nil =>
    intro c n t _
    refine ⟨[], t, ?_, rfl, by simp [idealSizes]⟩
    simp only [arrived, List.append_nil]
    rfl
  | cons ev evs ih =>
    intro c n t ht
    cases ev with
    | grow g =>
      obtain ⟨pieces, t', e1, e2, e3⟩ := ih (c ++ g) n t (CFBSourceAt_grow ht g)
      have hn := ht.1
      have ez : 8 * (c ++ g).length - n = 8 * c.length - n + 8 * g.length := by
        rw [List.length_append]; omega
      simp only [List.append_assoc] at e1 e3
      rw [ez] at e2 e3
      refine ⟨pieces, t', ?_, e2, e3⟩
      simp only [runGrowing]
      rw [← unblocks64_append]
      exact e1
    | read k =>
      obtain ⟨t1, r1, ht1⟩ := CFBSourceAt_read h hl m ht k
      obtain ⟨pieces, t', e1, e2, e3⟩ := ih c _ t1 ht1
      have hn := ht.1
      have ez : 8 * c.length - (n + min k (8 * c.length - n)) =
          8 * c.length - n - min k (8 * c.length - n) := by omega
      rw [ez] at e2 e3
      have hPl : (unblocks64 (cfbDec (encF f) [ivl, ivr] c)).length = 8 * c.length := by
        rw [unblocks64_length, cfbDec_length _ _ _ (by simp)]
      have hpre : ((unblocks64 (cfbDec (encF f) [ivl, ivr] c)).drop n).take k =
          ((unblocks64 (cfbDec (encF f) [ivl, ivr] (c ++ arrived evs))).drop n).take
            (min k (8 * c.length - n)) := by
        have e : cfbDec (encF f) [ivl, ivr] c =
            (cfbDec (encF f) [ivl, ivr] (c ++ arrived evs)).take c.length := by
          rw [← cfbDec_take]; simp
        rw [e, unblocks64_take, List.drop_take, List.take_take]
      refine ⟨((unblocks64 (cfbDec (encF f) [ivl, ivr] c)).drop n).take k :: pieces, t', ?_, ?_, ?_⟩
      · simp only [runGrowing]
        rw [Io.bind_run_ok r1]
        simp only
        rw [Io.bind_run_ok e1]
        rfl
      · simp only [List.map_cons, idealSizes, e2, List.length_take, List.length_drop, hPl]
      · simp only [List.flatten_cons, idealSizes, List.sum_cons, arrived]
        rw [e3, hpre, ← List.drop_drop, ← List.take_add]

example (m : Machine) := C70_growing_file m _ _ sampleKey_computes rfl 1 2
  [.read 5, .grow [1, 2], .read 11, .read 11, .grow [3], .read 20]

/-- C70 for the `gost89::CFBSource`. -/
theorem C70_gost89_growing_file (m : Machine) (key : Key) (f : Fin 8 → BitVec 32 → BitVec 32)
    (h : Computes key f) (hl : key.isLazy = true) (iv : BitVec 64) (evs : List GrowEvent) :
    ∃ pieces t, runGrowing (Gost89.CFBSource.read m fileRead) (Gost89.CFBSource.new 0 key iv) evs [] =
        (.ok (pieces, t), unblocks64 (arrived evs)) ∧
      pieces.map List.length = idealSizes 0 evs ∧
      pieces.flatten = (unblocks64 (cfbDec (encF f) [iv] (arrived evs))).take
        (idealSizes 0 evs).sum := by
  suffices H : ∀ (evs : List GrowEvent) (c : List W64) (n : Nat) (t : Gost89.CFBSource Nat),
      gost89_CFBSourceAt key f iv c n t →
      ∃ pieces t', runGrowing (Gost89.CFBSource.read m fileRead) t evs (unblocks64 c) =
          (.ok (pieces, t'), unblocks64 (c ++ arrived evs)) ∧
        pieces.map List.length = idealSizes (8 * c.length - n) evs ∧
        pieces.flatten = ((unblocks64 (cfbDec (encF f) [iv] (c ++ arrived evs))).drop n).take
          (idealSizes (8 * c.length - n) evs).sum by
    exact H evs [] 0 _ (gost89_CFBSourceAt_new key f iv)
  intro evs
  induction evs with
  | nil =>
    intro c n t _
    refine ⟨[], t, ?_, rfl, by simp [idealSizes]⟩
    simp only [arrived, List.append_nil]
    rfl
  | cons ev evs ih =>
    intro c n t ht
    cases ev with
    | grow g =>
      obtain ⟨pieces, t', e1, e2, e3⟩ := ih (c ++ g) n t (gost89_CFBSourceAt_grow ht g)
      have hn := ht.1
      have ez : 8 * (c ++ g).length - n = 8 * c.length - n + 8 * g.length := by
        rw [List.length_append]; omega
      simp only [List.append_assoc] at e1 e3
      rw [ez] at e2 e3
      refine ⟨pieces, t', ?_, e2, e3⟩
      simp only [runGrowing]
      rw [← unblocks64_append]
      exact e1
    | read k =>
      obtain ⟨t1, r1, ht1⟩ := gost89_CFBSourceAt_read h hl m ht k
      obtain ⟨pieces, t', e1, e2, e3⟩ := ih c _ t1 ht1
      have hn := ht.1
      have ez : 8 * c.length - (n + min k (8 * c.length - n)) =
          8 * c.length - n - min k (8 * c.length - n) := by omega
      rw [ez] at e2 e3
      have hPl : (unblocks64 (cfbDec (encF f) [iv] c)).length = 8 * c.length := by
        rw [unblocks64_length, cfbDec_length _ _ _ (by simp)]
      have hpre : ((unblocks64 (cfbDec (encF f) [iv] c)).drop n).take k =
          ((unblocks64 (cfbDec (encF f) [iv] (c ++ arrived evs))).drop n).take
            (min k (8 * c.length - n)) := by
        have e : cfbDec (encF f) [iv] c =
            (cfbDec (encF f) [iv] (c ++ arrived evs)).take c.length := by
          rw [← cfbDec_take]; simp
        rw [e, unblocks64_take, List.drop_take, List.take_take]
      refine ⟨((unblocks64 (cfbDec (encF f) [iv] c)).drop n).take k :: pieces, t', ?_, ?_, ?_⟩
      · simp only [runGrowing]
        rw [Io.bind_run_ok r1]
        simp only
        rw [Io.bind_run_ok e1]
        rfl
      · simp only [List.map_cons, idealSizes, e2, List.length_take, List.length_drop, hPl]
      · simp only [List.flatten_cons, idealSizes, List.sum_cons, arrived]
        rw [e3, hpre, ← List.drop_drop, ← List.take_add]

/-- A reader that is ahead of the file at first, then behind it: the sizes it gets. -/
example : idealSizes 0 [.read 5, .grow [1, 2], .read 11, .read 11, .grow [3], .read 20] =
    [0, 11, 5, 8] := by decide

/-! ### C72 -/

/-- C72. A read of `n` bytes of a `CFBSource` takes only the blocks it needs from the underlying source
and leaves it right behind them: with `c` the ⌈n/8⌉ blocks the source has next, the source object and the
world afterwards are the ones after exactly these blocks. In particular, data that follow the ciphertext
in the same stream can still be read from it. -/
theorem C72_reads_only_what_it_needs (m : Machine) (rd : σ → Nat → Io W (List Byte × σ)) (s s' : σ)
    (key : Key) (f : Fin 8 → BitVec 32 → BitVec 32) (h : Computes key f) (hl : key.isLazy = true)
    (ivl ivr : BitVec 64) (n : Nat) (c : List (BitVec 64)) (hn : c.length = (n + 7) / 8) (w w' : W)
    (h1 : ReadsBlocks rd s w c s' w') :
    ∃ t, CFBSource.read m rd (CFBSource.new s key ivl ivr) n w =
      (.ok ((unblocks64 (cfbDec (encF f) [ivl, ivr] c)).take n, t), w') ∧ t.source = s' := by
  have := (CFBSource_read_fetch m rd (CFBSource.new s key ivl ivr) h hl n c s' w w' h1 (by
      intro hne
      have := List.length_pos_iff.2 hne
      simp only [CFBSource.new, List.length_nil]; omega)).1
    (by simp only [CFBSource.new, List.length_nil]; omega)
  exact ⟨_, this, rfl⟩

example (m : Machine) := C72_reads_only_what_it_needs m fileRead 0 8 _ _ sampleKey_computes rfl 1 2 5 [7] (by decide)
  (unblocks64 [7, 8]) (unblocks64 [7, 8]) ⟨8, _, by decide, rfl, rfl⟩

/-- C72 for the `gost89::CFBSource`. -/
theorem C72_gost89_reads_only_what_it_needs (m : Machine) (rd : σ → Nat → Io W (List Byte × σ))
    (s s' : σ) (key : Key) (f : Fin 8 → BitVec 32 → BitVec 32) (h : Computes key f)
    (hl : key.isLazy = true) (iv : BitVec 64) (n : Nat) (c : List (BitVec 64))
    (hn : c.length = (n + 7) / 8) (w w' : W) (h1 : ReadsBlocks rd s w c s' w') :
    ∃ t, Gost89.CFBSource.read m rd (Gost89.CFBSource.new s key iv) n w =
      (.ok ((unblocks64 (cfbDec (encF f) [iv] c)).take n, t), w') ∧ t.source = s' := by
  have := (gost89_CFBSource_read_fetch m rd (Gost89.CFBSource.new s key iv) h hl n c s' w w' h1 (by
      intro hne
      have := List.length_pos_iff.2 hne
      simp only [Gost89.CFBSource.new, List.length_nil]; omega)).1
    (by simp only [Gost89.CFBSource.new, List.length_nil]; omega)
  exact ⟨_, this, rfl⟩

example (m : Machine) := C72_gost89_reads_only_what_it_needs m fileRead 0 8 _ _ sampleKey_computes rfl 1 5 [7] (by decide)
  (unblocks64 [7, 8]) (unblocks64 [7, 8]) ⟨8, _, by decide, rfl, rfl⟩

/-- The reads that `C72` is about, over a file. -/
theorem fileRead_takes (c rest : List W64) :
    ReadsBlocks fileRead 0 (unblocks64 (c ++ rest)) c (8 * c.length) (unblocks64 (c ++ rest)) := by
  have := fileRead_blocks (c ++ rest) 0 c.length (by simp)
  simpa using this

/-- C72 over a file in which other data follow the ciphertext: after `n` bytes have been read from the
`CFBSource`, the file is positioned right behind the blocks they are in. -/
theorem C72_trailing_data (m : Machine) (key : Key) (f : Fin 8 → BitVec 32 → BitVec 32)
    (h : Computes key f) (hl : key.isLazy = true) (ivl ivr : BitVec 64) (c rest : List (BitVec 64)) :
    ∃ t, CFBSource.read m fileRead (CFBSource.new 0 key ivl ivr) (8 * c.length)
        (unblocks64 (c ++ rest)) =
      (.ok (unblocks64 (cfbDec (encF f) [ivl, ivr] c), t), unblocks64 (c ++ rest)) ∧
      fileRead t.source (8 * rest.length) (unblocks64 (c ++ rest)) =
        (.ok (unblocks64 rest, 8 * (c.length + rest.length)), unblocks64 (c ++ rest)) := by
  obtain ⟨t, e, hs⟩ := C72_reads_only_what_it_needs m fileRead 0 (8 * c.length) key f h hl ivl ivr
    (8 * c.length) c (by omega) _ _ (fileRead_takes c rest)
  rw [List.take_of_length_le (by rw [unblocks64_length, cfbDec_length _ _ _ (by simp)]; omega)] at e
  refine ⟨t, e, ?_⟩
  rw [hs]
  simp only [fileRead]
  rw [unblocks64_drop, List.drop_left, List.take_of_length_le (by rw [unblocks64_length]; omega),
    unblocks64_length, ← Nat.mul_add]

example (m : Machine) := C72_trailing_data m _ _ sampleKey_computes rfl 1 2 [5, 6] [7]

end Goost.Props
