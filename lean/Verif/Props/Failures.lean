import Verif.Lemmas.Reads
import Verif.Props.Cfb
import Verif.Props.Mac
/-
Properties C68, C69, C71: sinks and sources that fail, repeated calls.
-/
namespace Goost.Props
open Goost.Magma Spec Spec.Magma Spec.Modes
variable {W σ τ : Type}

/-! ### C68 -/

theorem writeAll_fails {wr : τ → List Byte → Io W τ} {s s1 : τ} {w w1 w2 : W} {e : Exn}
    {pre post : List (BitVec 64)} {x : BitVec 64}
    (h1 : writeAll wr s (pre.map bytesOf64) w = (.ok s1, w1))
    (h2 : wr s1 (bytesOf64 x) w1 = (.throw e, w2)) :
    writeAll wr s ((pre ++ x :: post).map bytesOf64) w = (.throw e, w2) := by
  rw [List.map_append, writeAll_append, Io.bind_run_ok h1, List.map_cons, writeAll_cons,
    bind_run_throw h2]

/-- C68. If the underlying sink accepts the first blocks of the ciphertext and throws at the next one,
the write of the `CFBSink` throws the same exception, and nothing is written after that: the world is as
the failing call left it. `ds` are the data of all writes. -/
theorem C68_cfbsink_failure (m : Machine) (wr : τ → List Byte → Io W τ) (s s1 : τ) (key : Key)
    (f : Fin 8 → BitVec 32 → BitVec 32) (h : Computes key f) (hl : key.isLazy = true)
    (ivl ivr : BitVec 64) (ds : List (List Byte)) (pre post : List (BitVec 64)) (x : BitVec 64)
    (hc : cfbEnc (encF f) [ivl, ivr] (blocks64 ds.flatten) = pre ++ x :: post) (w w1 w2 : W) (e : Exn)
    (h1 : writeAll wr s (pre.map bytesOf64) w = (.ok s1, w1))
    (h2 : wr s1 (bytesOf64 x) w1 = (.throw e, w2)) :
    writeAll (CFBSink.write m wr) (CFBSink.new s key ivl ivr) ds w = (.throw e, w2) := by
  rw [C18_state m wr s key f h hl ivl ivr ds _ rfl, hc]
  exact bind_run_throw (writeAll_fails h1 h2)

example (m : Machine) := C68_cfbsink_failure m flakyWrite () () _ _ sampleKey_computes rfl 1 2
  [sampleData.take 3, sampleData.drop 3] [_] _ _ rfl ⟨[], [false, true]⟩ _ _ _ rfl rfl

/-- C68 for the `gost89::CFBSink`. -/
theorem C68_gost89_cfbsink_failure (m : Machine) (wr : τ → List Byte → Io W τ) (s s1 : τ) (key : Key)
    (f : Fin 8 → BitVec 32 → BitVec 32) (h : Computes key f) (hl : key.isLazy = true)
    (iv : BitVec 64) (ds : List (List Byte)) (pre post : List (BitVec 64)) (x : BitVec 64)
    (hc : cfbEnc (encF f) [iv] (blocks64 ds.flatten) = pre ++ x :: post) (w w1 w2 : W) (e : Exn)
    (h1 : writeAll wr s (pre.map bytesOf64) w = (.ok s1, w1))
    (h2 : wr s1 (bytesOf64 x) w1 = (.throw e, w2)) :
    writeAll (Gost89.CFBSink.write m wr) (Gost89.CFBSink.new s key iv) ds w = (.throw e, w2) := by
  rw [gost89_CFBSink_writes_eq m wr h hl ds s iv _ rfl, hc]
  exact bind_run_throw (writeAll_fails h1 h2)

example (m : Machine) := C68_gost89_cfbsink_failure m flakyWrite () () _ _ sampleKey_computes rfl 1
  [sampleData.take 3, sampleData.drop 3] [_] _ _ rfl ⟨[], [false, true]⟩ _ _ _ rfl rfl

/-- C68 for the `ECBSink`, for data of any length. -/
theorem C68_ecbsink_failure (wr : τ → List Byte → Io W τ) (s s1 : τ) (key : Key)
    (f : Fin 8 → BitVec 32 → BitVec 32) (h : Computes key f) (d : List Byte)
    (pre post : List (BitVec 64)) (x : BitVec 64)
    (hc : ecb (encF f) (blocks64 d) = pre ++ x :: post) (w w1 w2 : W) (e : Exn)
    (h1 : writeAll wr s (pre.map bytesOf64) w = (.ok s1, w1))
    (h2 : wr s1 (bytesOf64 x) w1 = (.throw e, w2)) :
    ECBSink.write wr ⟨s, key⟩ d w = (.throw e, w2) := by
  rw [ECBSink_write_eq wr h, ecbPieces, hc]
  exact bind_run_throw (writeAll_fails h1 h2)

example := C68_ecbsink_failure flakyWrite () () _ _ sampleKey_computes sampleData [_] _ _ rfl ⟨[], [false, true]⟩ _ _ _ rfl rfl

/-- C68. If the underlying source returns the blocks `c` and throws then, a read of a `CFBSource` that
needs more than these throws the same exception; a read that needs no more than these returns their
decryption and does not meet the failure. -/
theorem C68_cfbsource_failure (m : Machine) (rd : σ → Nat → Io W (List Byte × σ)) (s s1 : σ)
    (key : Key) (f : Fin 8 → BitVec 32 → BitVec 32) (h : Computes key f) (hl : key.isLazy = true)
    (ivl ivr : BitVec 64) (c : List (BitVec 64)) (w w1 w2 : W) (e : Exn) (n : Nat)
    (h1 : ReadsBlocks rd s w c s1 w1) (h2 : rd s1 8 w1 = (.throw e, w2)) :
    (8 * c.length < n → CFBSource.read m rd (CFBSource.new s key ivl ivr) n w = (.throw e, w2)) ∧
    (n ≤ 8 * c.length → ∃ t w', CFBSource.read m rd (CFBSource.new s key ivl ivr) n w =
      (.ok ((unblocks64 (cfbDec (encF f) [ivl, ivr] c)).take n, t), w')) := by
  constructor
  · intro hn
    have := (CFBSource_read_fetch m rd (CFBSource.new s key ivl ivr) h hl n c s1 w w1 h1
      (by intro _; simp only [CFBSource.new, List.length_nil]; omega)).2.2
    exact this (by simpa [CFBSource.new] using hn) e w2 h2
  · intro hn
    obtain ⟨s', w', h'⟩ := ReadsBlocks_take rd c ((n + 7) / 8) s s1 w w1 h1
    have hlen : (c.take ((n + 7) / 8)).length = (n + 7) / 8 := by
      rw [List.length_take]; omega
    have := (CFBSource_read_fetch m rd (CFBSource.new s key ivl ivr) h hl n (c.take ((n + 7) / 8))
      s' w w' h' (by
        intro hne
        have := List.length_pos_iff.2 hne
        simp only [CFBSource.new, List.length_nil]; omega)).1
      (by simp only [CFBSource.new, List.length_nil]; omega)
    simp only [CFBSource.new, List.nil_append] at this
    rw [cfbDec_take, unblocks64_take, List.take_take, Nat.min_eq_left (by omega)] at this
    exact ⟨_, _, this⟩

example (m : Machine) (n : Nat) := C68_cfbsource_failure m flakyRead () () _ _ sampleKey_computes rfl 1 2 [5]
  ⟨unblocks64 [5, 6], [false, true]⟩ ⟨unblocks64 [6], [true]⟩ _ _ n ⟨(), _, by decide, rfl, rfl⟩ rfl

/-- C68 for the `gost89::CFBSource`. -/
theorem C68_gost89_cfbsource_failure (m : Machine) (rd : σ → Nat → Io W (List Byte × σ)) (s s1 : σ)
    (key : Key) (f : Fin 8 → BitVec 32 → BitVec 32) (h : Computes key f) (hl : key.isLazy = true)
    (iv : BitVec 64) (c : List (BitVec 64)) (w w1 w2 : W) (e : Exn) (n : Nat)
    (h1 : ReadsBlocks rd s w c s1 w1) (h2 : rd s1 8 w1 = (.throw e, w2)) :
    (8 * c.length < n → Gost89.CFBSource.read m rd (Gost89.CFBSource.new s key iv) n w =
      (.throw e, w2)) ∧
    (n ≤ 8 * c.length → ∃ t w', Gost89.CFBSource.read m rd (Gost89.CFBSource.new s key iv) n w =
      (.ok ((unblocks64 (cfbDec (encF f) [iv] c)).take n, t), w')) := by
  constructor
  · intro hn
    have := (gost89_CFBSource_read_fetch m rd (Gost89.CFBSource.new s key iv) h hl n c s1 w w1 h1
      (by intro _; simp only [Gost89.CFBSource.new, List.length_nil]; omega)).2.2
    exact this (by simpa [Gost89.CFBSource.new] using hn) e w2 h2
  · intro hn
    obtain ⟨s', w', h'⟩ := ReadsBlocks_take rd c ((n + 7) / 8) s s1 w w1 h1
    have hlen : (c.take ((n + 7) / 8)).length = (n + 7) / 8 := by
      rw [List.length_take]; omega
    have := (gost89_CFBSource_read_fetch m rd (Gost89.CFBSource.new s key iv) h hl n
      (c.take ((n + 7) / 8)) s' w w' h' (by
        intro hne
        have := List.length_pos_iff.2 hne
        simp only [Gost89.CFBSource.new, List.length_nil]; omega)).1
      (by simp only [Gost89.CFBSource.new, List.length_nil]; omega)
    simp only [Gost89.CFBSource.new, List.nil_append] at this
    rw [cfbDec_take, unblocks64_take, List.take_take, Nat.min_eq_left (by omega)] at this
    exact ⟨_, _, this⟩

example (m : Machine) (n : Nat) := C68_gost89_cfbsource_failure m flakyRead () () _ _ sampleKey_computes rfl 1 [5]
  ⟨unblocks64 [5, 6], [false, true]⟩ ⟨unblocks64 [6], [true]⟩ _ _ n ⟨(), _, by decide, rfl, rfl⟩ rfl

/-- C68 for the `ECBSource`, with any key. -/
theorem C68_ecbsource_failure (m : Machine) (rd : σ → Nat → Io W (List Byte × σ)) (s : σ) (key : Key)
    (n : Nat) (hn : 8 ≤ n) (w w' : W) (e : Exn) (hr : rd s 8 w = (.throw e, w')) :
    ECBSource.read m rd (.ecb s key) n w = (.throw e, w') := by
  rw [ECBSource_read_ecb m rd s key n hn, bind_run_throw hr]

example (m : Machine) (key : Key) := C68_ecbsource_failure m flakyRead () key 9 (by decide) ⟨[1, 2], [true]⟩ _ _ rfl

/-- C68 for the authentication code: wherever in the data the source throws, `value()` throws the same
exception; there is never a code for the first part of the data. -/
theorem C68_mac_failure (m : Machine) (rd : σ → Nat → Io W (List Byte × σ)) (s s1 : σ)
    (key : Option Key) (c : List (BitVec 64)) (w w1 w2 : W) (e : Exn) (fuel : Nat)
    (hf : c.length < fuel) (h1 : ReadsBlocks rd s w c s1 w1) (h2 : rd s1 8 w1 = (.throw e, w2)) :
    Imit.value m rd fuel s key w = (.throw e, w2) := by
  have loop : ∀ (c : List W64) (fuel : Nat), c.length < fuel → ∀ (s : σ) (w : W) (x : W64) (block : Blk),
      ReadsBlocks rd s w c s1 w1 →
      Imit.loop rd key fuel s (bytesOf64 x) block w = (.throw e, w2) := by
    intro c
    induction c with
    | nil =>
      intro fuel hf s w x block h
      obtain ⟨fuel, rfl⟩ : ∃ k, fuel = k + 1 := ⟨fuel - 1, by simp at hf; omega⟩
      obtain ⟨rfl, rfl⟩ := h
      unfold Imit.loop
      simp only
      rw [loadPartial_eq (bytesOf64_ne x) (by simp), Io.lift_ok_bind, if_neg (by simp), bind_run_throw h2]
    | cons y c ih =>
      intro fuel hf s w x block h
      obtain ⟨fuel, rfl⟩ : ∃ k, fuel = k + 1 := ⟨fuel - 1, by simp at hf; omega⟩
      obtain ⟨s0, w0, e0, h⟩ := h
      unfold Imit.loop
      simp only
      rw [loadPartial_eq (bytesOf64_ne x) (by simp), Io.lift_ok_bind, if_neg (by simp), Io.bind_run_ok e0]
      simp only
      rw [if_neg (bytesOf64_ne y)]
      exact ih fuel (by simp at hf; omega) s0 w0 y _ h
  unfold Imit.value Imit.build
  cases c with
  | nil =>
    obtain ⟨rfl, rfl⟩ := h1
    rw [bind_assoc, bind_run_throw h2]
  | cons y c =>
    obtain ⟨s0, w0, e0, h⟩ := h1
    rw [bind_assoc, Io.bind_run_ok e0]
    simp only
    rw [bind_assoc, bind_run_throw (loop c fuel (by simp at hf; omega) s0 w0 y _ h)]

/-- A file that fails at its third operation. -/
example : ReadsBlocks flakyRead () ⟨unblocks64 [1, 2, 3], [false, false, true]⟩ [1, 2] ()
      ⟨unblocks64 [3], [true]⟩ ∧
    flakyRead () 8 ⟨unblocks64 [3], [true]⟩ = (.throw (.user 1), ⟨unblocks64 [3], []⟩) ∧
    writeAll flakyWrite () ([7, 8].map bytesOf64) ⟨[], [false, false, true]⟩ =
      (.ok (), ⟨unblocks64 [7, 8], [true]⟩) ∧
    flakyWrite () (bytesOf64 9) ⟨unblocks64 [7, 8], [true]⟩ =
      (.throw (.user 1), ⟨unblocks64 [7, 8], []⟩) := by
  refine ⟨⟨(), ⟨unblocks64 [2, 3], [false, true]⟩, ?_, (), _, ?_, rfl, rfl⟩, ?_, ?_, ?_⟩ <;>
    decide +kernel

/-! ### C69 -/

theorem flakyWrite_all (pieces : List (List Byte)) (file : List Byte) (fs : List Bool) :
    writeAll flakyWrite () pieces ⟨file, List.replicate pieces.length false ++ fs⟩ =
      (.ok (), ⟨file ++ pieces.flatten, fs⟩) := by
  induction pieces generalizing file with
  | nil => simp; rfl
  | cons x xs ih =>
    have h : flakyWrite () x ⟨file, List.replicate (x :: xs).length false ++ fs⟩ =
        (.ok (), ⟨file ++ x, List.replicate xs.length false ++ fs⟩) := rfl
    rw [writeAll_cons, Io.bind_run_ok h, ih]
    simp

theorem flakyWrite_all' (pieces : List (List Byte)) (file : List Byte) :
    writeAll flakyWrite () pieces ⟨file, []⟩ = (.ok (), ⟨file ++ pieces.flatten, []⟩) := by
  induction pieces generalizing file with
  | nil => simp; rfl
  | cons x xs ih =>
    have h : flakyWrite () x ⟨file, []⟩ = (.ok (), ⟨file ++ x, []⟩) := rfl
    rw [writeAll_cons, Io.bind_run_ok h, ih]
    simp

/-- C69, what a retry does: the write of `d` fails at its `j`-th operation (counted from 0) on the file,
and is called again on the same object. Then the file has got the first `j` blocks of the ciphertext and
after them the whole ciphertext. -/
theorem C69_sink_retry (m : Machine) (key : Key) (f : Fin 8 → BitVec 32 → BitVec 32)
    (h : Computes key f) (hl : key.isLazy = true) (ivl ivr : BitVec 64) (d file : List Byte)
    (j : Nat) (hj : j < d.length / 8) :
    ∃ t, retry (CFBSink.write m flakyWrite (CFBSink.new () key ivl ivr) d)
        ⟨file, List.replicate j false ++ [true]⟩ =
      (.ok t, ⟨file ++ unblocks64 ((cfbEnc (encF f) [ivl, ivr] (blocks64 d)).take j) ++
        unblocks64 (cfbEnc (encF f) [ivl, ivr] (blocks64 d)), []⟩) := by
  have hlen : (cfbEnc (encF f) [ivl, ivr] (blocks64 d)).length = d.length / 8 := by
    rw [cfbEnc_length _ _ _ (by simp), blocks64_length]
  have hd : ∀ w, CFBSink.write m flakyWrite (CFBSink.new () key ivl ivr) d w =
      writeAll (CFBSink.write m flakyWrite) (CFBSink.new () key ivl ivr) [d] w := by
    intro w; rw [CFBSink_writes]; simp
  generalize hc : cfbEnc (encF f) [ivl, ivr] (blocks64 d) = c at hlen ⊢
  have hsplit : c = c.take j ++ c[j]'(by omega) :: c.drop (j + 1) := by
    rw [List.getElem_cons_drop, List.take_append_drop]
  have h1 := flakyWrite_all ((c.take j).map bytesOf64) file [true]
  rw [List.length_map, List.length_take, Nat.min_eq_left (by omega)] at h1
  have first := C68_cfbsink_failure m flakyWrite () () key f h hl ivl ivr [d] (c.take j)
    (c.drop (j + 1)) (c[j]'(by omega)) (by rw [List.flatten_singleton, hc]; exact hsplit) _ _
    ⟨file ++ unblocks64 (c.take j), []⟩ (.user 1) h1 rfl
  unfold retry
  rw [hd, first]
  simp only
  rw [hd, C18_state m flakyWrite () key f h hl ivl ivr [d] c (by simp [hc]),
    Io.bind_run_ok (flakyWrite_all' _ _)]
  exact ⟨_, rfl⟩

example (m : Machine) := C69_sink_retry m _ _ sampleKey_computes rfl 1 2 sampleData [9] 1 (by decide)

/-- C69, the part that holds: if the first operation of the call on the underlying sink fails, a retry
leaves the file as a call does that does not fail. -/
theorem C69_sink_first_operation_partial (m : Machine) (key : Key) (h : Usable key)
    (hl : key.isLazy = true) (ivl ivr : BitVec 64) (d file : List Byte) (h8 : 8 ≤ d.length) :
    (retry (CFBSink.write m flakyWrite (CFBSink.new () key ivl ivr) d) ⟨file, [true]⟩).2 =
      (CFBSink.write m flakyWrite (CFBSink.new () key ivl ivr) d ⟨file, []⟩).2 := by
  obtain ⟨f, hf⟩ := h.computes
  obtain ⟨t, e⟩ := C69_sink_retry m key f hf hl ivl ivr d file 0 (by omega)
  have hd := CFBSink_writes m flakyWrite (CFBSink.new () key ivl ivr) [d]
  rw [C18_state m flakyWrite () key f hf hl ivl ivr [d] _ rfl] at hd
  simp only [List.flatten_singleton] at hd
  have e' : retry (CFBSink.write m flakyWrite (CFBSink.new () key ivl ivr) d) ⟨file, [true]⟩ = _ := e
  rw [e', ← hd, Io.bind_run_ok (flakyWrite_all' _ _)]
  simp only [List.take_zero, unblocks64_nil, List.append_nil]
  rfl

example (m : Machine) := C69_sink_first_operation_partial m _ sampleKey_computes.usable rfl 1 2 sampleData [9] (by decide)

/-- C69 is false of the code: if a later operation of the call fails, a retry leaves blocks twice in the
file: it is longer than the ciphertext. -/
theorem C69_sink_retry_duplicates (m : Machine) (key : Key) (h : Usable key) (hl : key.isLazy = true)
    (ivl ivr : BitVec 64) (d file : List Byte) (j : Nat) (hj0 : 0 < j) (hj : j < d.length / 8) :
    ∃ t w' t0 w0, retry (CFBSink.write m flakyWrite (CFBSink.new () key ivl ivr) d)
        ⟨file, List.replicate j false ++ [true]⟩ = (.ok t, w') ∧
      CFBSink.write m flakyWrite (CFBSink.new () key ivl ivr) d ⟨file, []⟩ = (.ok t0, w0) ∧
      w'.content.length = w0.content.length + 8 * j ∧ w' ≠ w0 := by
  obtain ⟨f, hf⟩ := h.computes
  obtain ⟨t, e⟩ := C69_sink_retry m key f hf hl ivl ivr d file j hj
  have hd := CFBSink_writes m flakyWrite (CFBSink.new () key ivl ivr) [d]
  rw [C18_state m flakyWrite () key f hf hl ivl ivr [d] _ rfl] at hd
  simp only [List.flatten_singleton] at hd
  refine ⟨t, _, _, _, e, by rw [← hd, Io.bind_run_ok (flakyWrite_all' _ _)]; rfl, ?_⟩
  suffices hs : ∀ a b : Flaky, a.content.length = b.content.length + 8 * j →
      a.content.length = b.content.length + 8 * j ∧ a ≠ b by
    apply hs
    have hlen : (cfbEnc (encF f) [ivl, ivr] (blocks64 d)).length = d.length / 8 := by
      rw [cfbEnc_length _ _ _ (by simp), blocks64_length]
    have e2 : ((cfbEnc (encF f) [ivl, ivr] (blocks64 d)).map bytesOf64).flatten =
      unblocks64 (cfbEnc (encF f) [ivl, ivr] (blocks64 d)) := rfl
    simp only [List.length_append, unblocks64_length, List.length_take, hlen, e2]
    omega
  rintro a b hab
  refine ⟨hab, ?_⟩
  rintro rfl
  omega

example (m : Machine) := C69_sink_retry_duplicates m _ sampleKey_computes.usable rfl 1 2 sampleData [9] 1 (by decide) (by decide)

theorem flakyRead_blocks (a b : List (BitVec 64)) (fs : List Bool) :
    ReadsBlocks flakyRead () ⟨unblocks64 (a ++ b), List.replicate a.length false ++ fs⟩ a ()
      ⟨unblocks64 b, fs⟩ := by
  induction a with
  | nil => exact ⟨rfl, rfl⟩
  | cons x a ih =>
    refine ⟨(), ⟨unblocks64 (a ++ b), List.replicate a.length false ++ fs⟩, ?_, ih⟩
    have h8 : (bytesOf64 x).length = 8 := by simp
    simp only [flakyRead, Flaky.run, List.cons_append, List.length_cons, List.replicate_succ,
      unblocks64_cons, List.take_left' h8, List.drop_left' h8]
    rfl

theorem flakyRead_supplies (d : List Byte) : Supplies flakyRead () ⟨d, []⟩ d := by
  refine ⟨fun _ w d => w = ⟨d, []⟩, rfl, ?_⟩
  rintro s w d rfl n
  exact ⟨(), ⟨d.drop n, []⟩, rfl, rfl⟩

/-- C69, what a retry does to a source over a file from which bytes are taken: the read fails at its
`j`-th operation on the file and is called again on the same object. Then it returns the decryption of
what is left of the ciphertext, beginning with block `j`, as if it were the beginning. -/
theorem C69_source_retry (m : Machine) (key : Key) (f : Fin 8 → BitVec 32 → BitVec 32)
    (h : Computes key f) (hl : key.isLazy = true) (ivl ivr : BitVec 64) (c : List (BitVec 64))
    (j n : Nat) (hj : j ≤ c.length) (hn : 8 * j < n) :
    ∃ t w', retry (CFBSource.read m flakyRead (CFBSource.new () key ivl ivr) n)
        ⟨unblocks64 c, List.replicate j false ++ [true]⟩ =
      (.ok ((unblocks64 (cfbDec (encF f) [ivl, ivr] (c.drop j))).take n, t), w') := by
  have h1 := flakyRead_blocks (c.take j) (c.drop j) [true]
  have hlen : (c.take j).length = j := by rw [List.length_take]; omega
  rw [List.take_append_drop, hlen] at h1
  have first := (C68_cfbsource_failure m flakyRead () () key f h hl ivl ivr (c.take j) _ _
    ⟨unblocks64 (c.drop j), []⟩ (.user 1) n h1 rfl).1 (by omega)
  unfold retry
  rw [first]
  simp only
  obtain ⟨R, h0, hR⟩ := C22_magma_supplies m flakyRead () ⟨unblocks64 (c.drop j), []⟩ key f h hl ivl ivr
    (c.drop j) (flakyRead_supplies _).blocks
  obtain ⟨t, w', e, -⟩ := hR _ _ _ h0 n
  exact ⟨t, w', e⟩

example (m : Machine) := C69_source_retry m _ _ sampleKey_computes rfl 1 2 [5, 6, 7] 2 20 (by decide) (by decide)

/-- C69 is false of the code for sources: blocks that had been read before the failure are lost. Asked
for the whole data, the retry returns `8 * j` bytes less. -/
theorem C69_source_retry_loses (m : Machine) (key : Key) (h : Usable key) (hl : key.isLazy = true)
    (ivl ivr : BitVec 64) (c : List (BitVec 64)) (j : Nat) (hj0 : 0 < j) (hj : j < c.length) :
    ∃ x t w', retry (CFBSource.read m flakyRead (CFBSource.new () key ivl ivr) (8 * c.length))
        ⟨unblocks64 c, List.replicate j false ++ [true]⟩ = (.ok (x, t), w') ∧
      x.length = 8 * c.length - 8 * j ∧ x.length < 8 * c.length := by
  obtain ⟨f, hf⟩ := h.computes
  obtain ⟨t, w', e⟩ := C69_source_retry m key f hf hl ivl ivr c j (8 * c.length) (by omega) (by omega)
  have hx : ((unblocks64 (cfbDec (encF f) [ivl, ivr] (c.drop j))).take (8 * c.length)).length =
      8 * c.length - 8 * j := by
    rw [List.length_take, unblocks64_length, cfbDec_length _ _ _ (by simp), List.length_drop]
    omega
  exact ⟨_, t, w', e, hx, by rw [hx]; omega⟩

example (m : Machine) := C69_source_retry_loses m _ sampleKey_computes.usable rfl 1 2 [5, 6, 7] 2 (by decide) (by decide)

theorem flakyReadAt_blocks (pre a b : List (BitVec 64)) (fs : List Bool) :
    ReadsBlocks flakyReadAt (8 * pre.length)
      ⟨unblocks64 (pre ++ (a ++ b)), List.replicate a.length false ++ fs⟩ a
      (8 * (pre ++ a).length) ⟨unblocks64 (pre ++ (a ++ b)), fs⟩ := by
  induction a generalizing pre with
  | nil => exact ⟨by simp, rfl⟩
  | cons x a ih =>
    have e : pre ++ (x :: a ++ b) = (pre ++ [x]) ++ (a ++ b) := by simp
    have e' : pre ++ x :: a = (pre ++ [x]) ++ a := by simp
    refine ⟨8 * (pre ++ [x]).length, ⟨unblocks64 ((pre ++ [x]) ++ (a ++ b)),
      List.replicate a.length false ++ fs⟩, ?_, ?_⟩
    · have h8 : (bytesOf64 x).length = 8 := by simp
      have hp : (unblocks64 pre).length = 8 * pre.length := unblocks64_length pre
      have hd : (unblocks64 (pre ++ (x :: a ++ b))).drop (8 * pre.length) =
          bytesOf64 x ++ unblocks64 (a ++ b) := by
        rw [unblocks64_append, List.drop_left' hp]; rfl
      simp only [flakyReadAt, Flaky.run, List.length_cons, List.replicate_succ, List.cons_append]
      rw [← List.cons_append, hd, List.take_left' h8, h8, ← e]
      simp only [List.drop_one, List.tail_cons, List.length_append, List.length_cons, List.length_nil]
      rw [Nat.mul_add]
    · rw [e, e']
      exact ih (pre ++ [x])

theorem flakyReadAt_supplies (d : List Byte) : Supplies flakyReadAt 0 ⟨d, []⟩ d := by
  refine ⟨fun pos w x => w = ⟨d, []⟩ ∧ x = d.drop pos, ⟨rfl, rfl⟩, ?_⟩
  rintro s w x ⟨rfl, rfl⟩ n
  refine ⟨s + ((d.drop s).take n).length, ⟨d, []⟩, rfl, rfl, ?_⟩
  rw [List.drop_drop, List.length_take]
  by_cases hle : n ≤ (d.drop s).length
  · rw [Nat.min_eq_left hle]
  · rw [Nat.min_eq_right (by omega)]
    rw [List.length_drop] at hle
    rw [List.length_drop, List.drop_of_length_le (by omega), List.drop_of_length_le (by omega)]

/-- C69, the part that holds for sources: if the position is kept in the source object, then a read that
fails at any operation and is called again on the same object returns what it would have returned. -/
theorem C69_source_position_in_object_partial (m : Machine) (key : Key)
    (f : Fin 8 → BitVec 32 → BitVec 32) (h : Computes key f) (hl : key.isLazy = true)
    (ivl ivr : BitVec 64) (c : List (BitVec 64)) (j n : Nat) (hj : j ≤ c.length) (hn : 8 * j < n) :
    ∃ t w', retry (CFBSource.read m flakyReadAt (CFBSource.new 0 key ivl ivr) n)
        ⟨unblocks64 c, List.replicate j false ++ [true]⟩ =
      (.ok ((unblocks64 (cfbDec (encF f) [ivl, ivr] c)).take n, t), w') := by
  have h1 := flakyReadAt_blocks [] (c.take j) (c.drop j) [true]
  have hlen : (c.take j).length = j := by rw [List.length_take]; omega
  rw [List.take_append_drop, hlen, List.nil_append, List.nil_append] at h1
  have first := (C68_cfbsource_failure m flakyReadAt 0 _ key f h hl ivl ivr (c.take j) _ _
    ⟨unblocks64 c, []⟩ (.user 1) n h1 rfl).1 (by omega)
  unfold retry
  rw [first]
  simp only
  obtain ⟨R, h0, hR⟩ := C22_magma_supplies m flakyReadAt 0 ⟨unblocks64 c, []⟩ key f h hl ivl ivr
    c (flakyReadAt_supplies _).blocks
  obtain ⟨t, w', e, -⟩ := hR _ _ _ h0 n
  exact ⟨t, w', e⟩

example : (1 : Nat) < sampleData.length / 8 ∧ Usable (LazyKey.ofString sampleKeyText) :=
  ⟨by decide, sampleKey_computes.usable⟩

/-! ### C71 -/

/-- C71, the part that holds: over a source that does not act on the world (its position is kept in the
source object) `value()` can be called again and gives the same. -/
theorem C71_repeatable_partial (m : Machine) (rd : σ → Nat → Io W (List Byte × σ))
    (hrd : ∀ s n w, (rd s n w).2 = w) (s : σ) (key : Option Key) (fuel : Nat) (w : W) :
    (Imit.value m rd fuel s key w).2 = w ∧
    Imit.value m rd fuel s key (Imit.value m rd fuel s key w).2 = Imit.value m rd fuel s key w := by
  have bindW : ∀ {α β : Type} (x : Io W α) (g : α → Io W β), (∀ w, (x w).2 = w) →
      (∀ a w, (g a w).2 = w) → ∀ w, ((x >>= g) w).2 = w := by
    intro α β x g hx hg w
    have h1 := hx w
    simp only [Io.bind_def, Io.bind]
    rcases e : x w with ⟨r, w'⟩
    rw [e] at h1
    simp only at h1
    subst h1
    cases r with
    | ok a => exact hg a w'
    | throw => rfl
    | ub => rfl
    | diverge => rfl
  have loop : ∀ fuel s b block w, (Imit.loop rd key fuel s b block w).2 = w := by
    intro fuel
    induction fuel with
    | zero => intro s b block w; rfl
    | succ fuel ih =>
      intro s b block w
      unfold Imit.loop
      refine bindW _ _ (fun _ => rfl) (fun v w => ?_) w
      simp only
      split
      · rfl
      · refine bindW _ _ (hrd s 8) (fun x w => ?_) w
        split
        · rfl
        · exact ih _ _ _ _
  have value : ∀ w, (Imit.value m rd fuel s key w).2 = w := by
    intro w
    unfold Imit.value Imit.build
    refine bindW _ _ (fun w => ?_) (fun _ _ => rfl) w
    refine bindW _ _ (hrd s 8) (fun x w => ?_) w
    exact bindW _ _ (loop _ _ _ _) (fun _ _ => rfl) w
  exact ⟨value w, by rw [value w]⟩

/-- A source that reads memory changes nothing outside. -/
example (m : Machine) (key : Option Key) := C71_repeatable_partial m (memRead (W := Nat)) (fun _ _ _ => rfl) (unblocks64 [5, 6]) key 3 7

/-- C71 is false of the code: over a source from which the data are taken, the first `value()` gives the
code and the second call reads outside of an empty vector. -/
theorem C71_second_call_undefined (key : Key) (h : Usable key) (d : List Byte) (h0 : d ≠ [])
    (fuel : Nat) (hf : d.length ≤ 8 * fuel) :
    ∃ v, Imit.value .x86 pipeRead fuel () (some key) d = (.ok v, []) ∧
      Imit.value .x86 pipeRead fuel () (some key) [] = (.ub .oobRead, []) := by
  have hsup : ∀ d, SuppliesBlocks pipeRead () d d := fun d =>
    ⟨fun _ w d => w = d, rfl, by rintro s w d rfl; exact ⟨(), w.drop 8, rfl, rfl⟩⟩
  have loop : ∀ fuel b block (w : List Byte) r w', (b.length < 8 → w = []) →
      Imit.loop pipeRead (some key) fuel () b block w = (.ok r, w') → w' = [] := by
    intro fuel
    induction fuel with
    | zero => intro b block w r w' _ e; cases e
    | succ fuel ih =>
      intro b block w r w' hb e
      unfold Imit.loop at e
      simp only at e
      rcases hv : Imit.loadPartial b with v | _ | _ | _ <;> rw [hv] at e
      · rw [Io.lift_ok_bind] at e
        split at e
        · cases e; exact hb ‹_›
        · have hp : pipeRead () 8 w = (.ok (w.take 8, ()), w.drop 8) := rfl
          rw [Io.bind_run_ok hp] at e
          simp only at e
          split at e
          · rename_i hw
            cases e
            rw [List.take_eq_nil_iff] at hw
            simp at hw
            simp [hw]
          · refine ih _ _ _ _ _ ?_ e
            intro hlt
            rw [List.length_take] at hlt
            exact List.drop_of_length_le (by omega)
      all_goals cases e
  have hfuel : 0 < fuel := by
    have := List.length_pos_iff.2 h0
    omega
  obtain ⟨v, w', e⟩ := C33_defined_on_x86_partial key h pipeRead () d d h0 (hsup d) fuel hf
  have hw : w' = [] := by
    unfold Imit.value Imit.build at e
    have hp : pipeRead () 8 d = (.ok (d.take 8, ()), d.drop 8) := rfl
    rw [bind_assoc, Io.bind_run_ok hp] at e
    simp only [bind_assoc] at e
    rcases hb : Imit.loop pipeRead (some key) fuel () (d.take 8) BlkRaw.zero (d.drop 8) with ⟨r, w1⟩
    cases r with
    | ok r =>
      have := loop fuel _ _ _ _ _ (by
        intro hlt
        rw [List.length_take] at hlt
        exact List.drop_of_length_le (by omega)) hb
      rw [Io.bind_run_ok hb] at e
      have e2 : _ = w' := congrArg Prod.snd e
      rw [← e2, ← this]
      rfl
    | throw x => rw [bind_run_throw hb] at e; cases e
    | ub u => rw [bind_run_ub hb] at e; cases e
    | diverge =>
      simp only [Io.bind_def, Io.bind, hb] at e
      cases e
  subst hw
  refine ⟨v, e, ?_⟩
  obtain ⟨w1, e1⟩ := C33_empty_message_undefined .x86 (some key) pipeRead () [] (hsup []) fuel hfuel
  rw [e1]
  obtain ⟨k, rfl⟩ : ∃ k, fuel = k + 1 := ⟨fuel - 1, by omega⟩
  have e2 : _ = w1 := congrArg Prod.snd e1
  rw [← e2]
  rfl

example : ∀ s n (w : Unit), ((memRead s n : Io Unit _) w).2 = w := fun _ _ _ => rfl
example : sampleData ≠ [] ∧ sampleData.length ≤ 8 * sampleData.length := by decide

end Goost.Props
