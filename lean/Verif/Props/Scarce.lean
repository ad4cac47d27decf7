import Verif.Lemmas.Scarce
import Verif.Lemmas.Sources
import Verif.Props.Cfb
/-
Property C108: running out of memory. `UnlessOut`, `Sent` and `Took` are in Spec/Scarce.
-/
namespace Goost.Props
open Goost.Magma Spec Spec.Magma Spec.Modes
variable {W σ τ : Type}

/-! ### What holds without restriction -/

/-- C108. Writes to an `ECBSink`, any number of them: whichever request for memory is refused, the caller
gets `bad_alloc`, and what has been handed down is a beginning of the ciphertext, in whole blocks; if none is
refused everything is as with unlimited memory. -/
theorem C108_ecb_sink (wr : τ → List Byte → Io W τ) (s : τ) (key : Key) (f : Fin 8 → BitVec 32 → BitVec 32)
    (h : Computes key f) (ds : List (List Byte)) :
    UnlessOut (Sent wr s (ds.flatMap fun d => (ecb (encF f) (blocks64 d)).map bytesOf64))
      (writeAll (Scarce.ECBSink.write wr) ⟨s, key⟩ ds) (writeAll (ECBSink.write wr) ⟨s, key⟩ ds) :=
  Scarce.ECBSink_writes_unless wr h ds s

/-- C108 for a `CFBSink`. -/
theorem C108_cfb_sink (m : Machine) (wr : τ → List Byte → Io W τ) (s : τ) (key : Key)
    (f : Fin 8 → BitVec 32 → BitVec 32) (h : Computes key f) (hl : key.isLazy = true) (ivl ivr : BitVec 64)
    (ds : List (List Byte)) :
    UnlessOut (Sent wr s ((cfbEnc (encF f) [ivl, ivr] (blocks64 ds.flatten)).map bytesOf64))
      (writeAll (Scarce.CFBSink.write m wr) (CFBSink.new s key ivl ivr) ds)
      (writeAll (CFBSink.write m wr) (CFBSink.new s key ivl ivr) ds) :=
  Scarce.CFBSink_writes_unless m wr h hl ds s [] (by simp) ivl ivr

/-- C108 for a `gost89::CFBSink`. -/
theorem C108_gost89_cfb_sink (m : Machine) (wr : τ → List Byte → Io W τ) (s : τ) (key : Key)
    (f : Fin 8 → BitVec 32 → BitVec 32) (h : Computes key f) (hl : key.isLazy = true) (iv : BitVec 64)
    (ds : List (List Byte)) :
    UnlessOut (Sent wr s ((cfbEnc (encF f) [iv] (blocks64 ds.flatten)).map bytesOf64))
      (writeAll (Scarce.Gost89.CFBSink.write m wr) (Gost89.CFBSink.new s key iv) ds)
      (writeAll (Gost89.CFBSink.write m wr) (Gost89.CFBSink.new s key iv) ds) :=
  Scarce.gost89_CFBSink_writes_unless m wr h hl ds s [] (by simp) iv

/-- C108 for `finalize`, of a `CFBSink` in any state and with any key: all or nothing. If memory runs out
nothing has been written, so the call can be repeated. -/
theorem C108_finalize (m : Machine) (wr : τ → List Byte → Io W τ) (t : CFBSink τ) :
    UnlessOut (fun w w' => w' = w) (Scarce.CFBSink.finalize m wr t) (CFBSink.finalize m wr t) := by
  unfold Scarce.CFBSink.finalize CFBSink.finalize
  split
  · refine Scarce.UO.alloc (R := fun w w' : W => w' = w) (fun _ => rfl) (Scarce.UO.lift_bind fun e _ => ?_)
    exact Scarce.UO.alloc (R := fun w w' : W => w' = w) (fun _ => rfl)
      (Scarce.UO.lift_bind fun c _ => Scarce.UO.below _ _)
  · exact Scarce.UO.pure _ _

/-- C108 for `finalize` of a `gost89::CFBSink`. -/
theorem C108_gost89_finalize (m : Machine) (wr : τ → List Byte → Io W τ) (t : Gost89.CFBSink τ) :
    UnlessOut (fun w w' => w' = w) (Scarce.Gost89.CFBSink.finalize m wr t)
      (Gost89.CFBSink.finalize m wr t) := by
  unfold Scarce.Gost89.CFBSink.finalize Gost89.CFBSink.finalize
  split
  · refine Scarce.UO.alloc (R := fun w w' : W => w' = w) (fun _ => rfl) (Scarce.UO.lift_bind fun e _ => ?_)
    exact Scarce.UO.alloc (R := fun w w' : W => w' = w) (fun _ => rfl)
      (Scarce.UO.lift_bind fun c _ => Scarce.UO.below _ _)
  · exact Scarce.UO.pure _ _

/-- C108 for reading from an `ECBSource`, with any key and any source: the data of unlimited memory, or
`bad_alloc`; never other data. -/
theorem C108_ecb_source (m : Machine) (rd : σ → Nat → Io W (List Byte × σ)) (s : σ) (key : Key) (n : Nat) :
    UnlessOut (Took rd s) (Scarce.ECBSource.read m rd (.ecb s key) n) (ECBSource.read m rd (.ecb s key) n) := by
  simp only [Scarce.ECBSource.read, ECBSource.read]
  split
  · exact Scarce.UO.alloc (fun _ => .none ..) (Scarce.UO.lift _ _)
  · refine Scarce.UO.below_bind (R' := fun a : List Byte × σ => Took rd a.2) (fun a => ?_)
      (fun _ _ _ _ h1 h2 => Scarce.Took.read h1 h2)
    rcases a with ⟨p, s'⟩
    simp only
    split
    · exact Scarce.UO.pure _ _
    · refine Scarce.UO.alloc (fun _ => .none ..) (Scarce.UO.lift_bind fun b _ => ?_)
      refine Scarce.UO.lift_bind fun e _ => Scarce.UO.lift_bind fun q _ => ?_
      exact Scarce.UO.alloc (fun _ => .none ..) (Scarce.UO.pure _ _)

/-- C108 for reading from a `CFBSource` in any state, with any key and any source. -/
theorem C108_cfb_source (m : Machine) (rd : σ → Nat → Io W (List Byte × σ)) (t : CFBSource σ) (n : Nat) :
    UnlessOut (Took rd t.source) (Scarce.CFBSource.read m rd t n) (CFBSource.read m rd t n) :=
  Scarce.UO.alloc (fun _ => .none ..) (Scarce.CFBSource_loop_unless _ _ _ _ _ _ _ _ _ _)

/-- C108 for reading from a `gost89::CFBSource`. -/
theorem C108_gost89_cfb_source (m : Machine) (rd : σ → Nat → Io W (List Byte × σ)) (t : Gost89.CFBSource σ)
    (n : Nat) :
    UnlessOut (Took rd t.source) (Scarce.Gost89.CFBSource.read m rd t n) (Gost89.CFBSource.read m rd t n) :=
  Scarce.UO.alloc (fun _ => .none ..) (Scarce.gost89_CFBSource_loop_unless _ _ _ _ _ _ _ _ _)

/-- C108 for the authentication code of a source: the code, or `bad_alloc`; never another code. -/
theorem C108_mac (m : Machine) (rd : σ → Nat → Io W (List Byte × σ)) (fuel : Nat) (s : σ)
    (key : Option Key) :
    UnlessOut (Took rd s) (Scarce.Imit.value m rd fuel s key) (Imit.value m rd fuel s key) := by
  unfold Scarce.Imit.value Imit.value Imit.build
  refine Scarce.UO.alloc (fun _ => .none ..) ?_
  rw [bind_assoc]
  refine Scarce.UO.below_bind (R' := fun a : List Byte × σ => Took rd a.2) (fun a => ?_)
    (fun _ _ _ _ h1 h2 => Scarce.Took.read h1 h2)
  rcases a with ⟨b, s'⟩
  simp only
  rw [bind_assoc]
  refine Scarce.UO.bind (R' := fun _ w w' => w' = w) (Scarce.Imit_loop_unless rd key fuel s' b _) ?_
    (fun _ _ h => h) ?_
  · intro w a w1 _
    rcases a with ⟨block, k⟩
    exact Scarce.UO.alloc (R := fun w w' : W => w' = w) (fun _ => rfl) (Scarce.UO.lift _ _)
  · intro w a w1 w2 ha h2
    rw [h2]
    exact Scarce.Imit_loop_took rd key fuel s' b _ w w1 a ha

/-- C108 for the authentication code of GOST 28147-89. -/
theorem C108_data_mac (m : Machine) (data : List Byte) (key : Option Key) :
    UnlessOut (fun w w' : W => w' = w) (Scarce.Gost89.DataImit.value m data key)
      (Io.lift (Gost89.DataImit.value m data key)) :=
  Scarce.UO.alloc (R := fun w w' : W => w' = w) (fun _ => rfl) (Scarce.DataImit_loop_unless _ _ _ _)

/-! ### A failed call may leave traces -/

/-- C108 is false of the code for `ECBSink::write`: whatever has been written, memory may run out after all
of it has been handed down. The caller sees the same exception as if nothing had happened. -/
theorem C108_ecb_sink_leaves_traces (wr : τ → List Byte → Io W τ) (s s' : τ) (key : Key)
    (f : Fin 8 → BitVec 32 → BitVec 32) (h : Computes key f) (d : List Byte) (w w' : W)
    (hw : writeAll wr s ((ecb (encF f) (blocks64 d)).map bytesOf64) w = (.ok s', w')) :
    ∃ n, Scarce.ECBSink.write wr ⟨s, key⟩ d (n, w) = (.throw .badAlloc, (0, w')) :=
  Scarce.ECBSink_loop_last wr h d [] (by simp) s s' w w' hw

/-- C108 is false of the code for `CFBSink::write`. -/
theorem C108_cfb_sink_leaves_traces (m : Machine) (wr : τ → List Byte → Io W τ) (s s' : τ) (key : Key)
    (f : Fin 8 → BitVec 32 → BitVec 32) (h : Computes key f) (hl : key.isLazy = true) (ivl ivr : BitVec 64)
    (d : List Byte) (w w' : W)
    (hw : writeAll wr s ((cfbEnc (encF f) [ivl, ivr] (blocks64 d)).map bytesOf64) w = (.ok s', w')) :
    ∃ n, Scarce.CFBSink.write m wr (CFBSink.new s key ivl ivr) d (n, w) = (.throw .badAlloc, (0, w')) := by
  obtain ⟨n, hn⟩ := Scarce.CFBSink_loop_last m wr h hl d [] (by simp) s s' ivl ivr w w' hw
  exact ⟨n + 1, hn⟩

/-- A write to a file that is repeated after such a failure: the data are in the file twice. -/
theorem C108_written_twice : ∃ n, ∃ file t,
    Scarce.ECBSink.write fileWrite ⟨(), LazyKey.ofString sampleKeyText⟩ (sampleData.take 8) (n, []) =
      (.throw .badAlloc, (0, file)) ∧
    ECBSink.write fileWrite ⟨(), LazyKey.ofString sampleKeyText⟩ (sampleData.take 8) file =
      (.ok t, file ++ file) ∧ file.length = 8 := by
  have hc := ECBSink_write_eq (W := List Byte) fileWrite sampleKey_computes (sampleData.take 8) ()
  obtain ⟨x, hx⟩ : ∃ x, blocks64 (sampleData.take 8) = [x] := ⟨_, rfl⟩
  obtain ⟨n, hn⟩ := C108_ecb_sink_leaves_traces (W := List Byte) fileWrite () () _ _ sampleKey_computes
    (sampleData.take 8) [] _ (by rw [hx]; rfl)
  refine ⟨n, _, ⟨(), LazyKey.ofString sampleKeyText⟩, hn, ?_, ?_⟩
  · rw [hc, ecbPieces, hx]
    rfl
  · simp

/-- C108 is false of the code for reading: memory may run out after the data have been taken from the source
below. If they cannot be read again they are lost. -/
theorem C108_ecb_source_leaves_traces (m : Machine) (rd : σ → Nat → Io W (List Byte × σ)) (s s' : σ)
    (key : Key) (n : Nat) (hn : 8 ≤ n) (p : List Byte) (hp : p ≠ []) (w w' : W)
    (hr : rd s 8 w = (.ok (p, s'), w')) :
    Scarce.ECBSource.read m rd (.ecb s key) n (0, w) = (.throw .badAlloc, (0, w')) := by
  have hb : Scarce.below (rd s 8) (0, w) = (.ok (p, s'), (0, w')) := by simp [Scarce.below, hr]
  simp only [Scarce.ECBSource.read]
  rw [if_neg (by omega), Io.bind_run_ok hb]
  simp only [if_neg hp]
  rfl

/-! ### Streams without effects -/

/-- C108, what is true of reading: over a source whose reads change nothing but the object (the position is a
part of it) a read that runs out of memory leaves no trace, and can be repeated. -/
theorem C108_source_no_traces_partial (m : Machine) (rd : σ → Nat → Io W (List Byte × σ))
    (hrd : ∀ s w r w', rd s 8 w = (.ok r, w') → w' = w) (t : CFBSource σ) (s : σ) (key : Key) (n : Nat) :
    UnlessOut (fun w w' => w' = w) (Scarce.CFBSource.read m rd t n) (CFBSource.read m rd t n) ∧
    UnlessOut (fun w w' => w' = w) (Scarce.ECBSource.read m rd (.ecb s key) n)
      (ECBSource.read m rd (.ecb s key) n) := by
  have ht : ∀ s w w', Took rd s w w' → w' = w := by
    intro s w w' h
    induction h with
    | none => rfl
    | one s s' w w1 w2 p h _ ih => rw [ih, hrd _ _ _ _ h]
  constructor
  · intro w
    obtain ⟨N, h1, h2⟩ := C108_cfb_source m rd t n w
    exact ⟨N, h1, fun n hn => (h2 n hn).imp fun w' h => ⟨h.1, ht _ _ _ h.2⟩⟩
  · intro w
    obtain ⟨N, h1, h2⟩ := C108_ecb_source m rd s key n w
    exact ⟨N, h1, fun n hn => (h2 n hn).imp fun w' h => ⟨h.1, ht _ _ _ h.2⟩⟩

/-- C108, what is true of writing: over a sink whose writes change nothing but the object that is returned
(as in C93) a write that runs out of memory leaves no trace, and can be repeated. -/
theorem C108_sink_no_traces_partial (m : Machine) (wr : τ → List Byte → Io W τ)
    (hwr : ∀ s x w r w', wr s x w = (.ok r, w') → w' = w) (s : τ) (key : Key)
    (f : Fin 8 → BitVec 32 → BitVec 32) (h : Computes key f) (hl : key.isLazy = true) (ivl ivr : BitVec 64)
    (ds : List (List Byte)) :
    UnlessOut (fun w w' => w' = w) (writeAll (Scarce.CFBSink.write m wr) (CFBSink.new s key ivl ivr) ds)
      (writeAll (CFBSink.write m wr) (CFBSink.new s key ivl ivr) ds) ∧
    UnlessOut (fun w w' => w' = w) (writeAll (Scarce.ECBSink.write wr) ⟨s, key⟩ ds)
      (writeAll (ECBSink.write wr) ⟨s, key⟩ ds) := by
  have hs : ∀ (P : List (List Byte)) s w s' w', writeAll wr s P w = (.ok s', w') → w' = w := by
    intro P
    induction P with
    | nil => intro s w s' w' h; injection h with _ h; exact h.symm
    | cons c P ih =>
      intro s w s' w' h
      rw [writeAll_cons] at h
      rcases hz : wr s c w with ⟨x, w1⟩
      cases x with
      | ok s1 =>
        rw [Io.bind_run_ok hz] at h
        rw [ih _ _ _ _ h, hwr _ _ _ _ _ hz]
      | throw e => rw [bind_run_throw hz] at h; simp at h
      | ub u => rw [bind_run_ub hz] at h; simp at h
      | diverge => rw [Scarce.bind_run_diverge hz] at h; simp at h
  constructor
  · intro w
    obtain ⟨N, h1, h2⟩ := C108_cfb_sink m wr s key f h hl ivl ivr ds w
    exact ⟨N, h1, fun n hn => (h2 n hn).imp fun w' ⟨e, _, _, h⟩ => ⟨e, hs _ _ _ _ _ h⟩⟩
  · intro w
    obtain ⟨N, h1, h2⟩ := C108_ecb_sink wr s key f h ds w
    exact ⟨N, h1, fun n hn => (h2 n hn).imp fun w' ⟨e, _, _, h⟩ => ⟨e, hs _ _ _ _ _ h⟩⟩

/-- The sinks and sources in memory are without effects. -/
example : (∀ s x (w : Unit) r w', memWrite s x w = (.ok r, w') → w' = w) ∧
    (∀ s (w : Unit) r w', memRead s 8 w = (.ok r, w') → w' = w) :=
  ⟨fun _ _ _ _ _ _ => rfl, fun _ _ _ _ _ => rfl⟩

/-- The key is as required. -/
example : ∃ f, Computes (LazyKey.ofString sampleKeyText) f ∧
    (LazyKey.ofString sampleKeyText).isLazy = true := ⟨_, sampleKey_computes, rfl⟩

/-- Seven bytes for a `CFBSink` need nine requests; if the ninth is refused nothing has been written. -/
example (m : Machine) (key : Key) :
    Scarce.CFBSink.write m fileWrite (CFBSink.new () key 1 2) [1, 2, 3, 4, 5, 6, 7] (8, []) =
      (.throw .badAlloc, (0, [])) ∧
    Scarce.CFBSink.write m fileWrite (CFBSink.new () key 1 2) [1, 2, 3, 4, 5, 6, 7] (9, []) =
      (.ok ⟨(), key, 1, 2, [1, 2, 3, 4, 5, 6, 7]⟩, (0, [])) := ⟨rfl, rfl⟩

/-! The theorems at the key of the standard's example, and a file or memory. -/

example := C108_ecb_sink fileWrite () _ _ sampleKey_computes [sampleData.take 9, sampleData]

example (m : Machine) := C108_cfb_sink m fileWrite () _ _ sampleKey_computes rfl 1 2 [sampleData.take 9, sampleData]

example (m : Machine) := C108_gost89_cfb_sink m fileWrite () _ _ sampleKey_computes rfl 1 [sampleData.take 9, sampleData]

example := C108_ecb_sink_leaves_traces (memWrite (W := Unit)) [] _ _ _ sampleKey_computes sampleData () _ rfl

example (m : Machine) := C108_cfb_sink_leaves_traces m (memWrite (W := Unit)) [] _ _ _ sampleKey_computes rfl 1 2 sampleData () _ rfl

example (m : Machine) (key : Key) := C108_ecb_source_leaves_traces m (memRead (W := Unit)) sampleData _ key 8 (by decide) _
  (by decide) () () rfl

example (m : Machine) := C108_source_no_traces_partial m (memRead (W := Unit)) (fun _ _ _ _ _ => rfl)

end Goost.Props
