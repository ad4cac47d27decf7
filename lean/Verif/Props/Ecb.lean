import Verif.Lemmas.Sources
import Verif.Props.MagmaCipher
/-
Properties C12 – C17, C59: ECB streams. The theorems hold for gost89::ECBSink and gost89::ECBSource
too, which are aliases of the magma classes.
-/
namespace Goost.Props
open Goost.Magma Spec Spec.Magma Spec.Modes
variable {W σ τ : Type}

/-- 24 bytes used in the examples. -/
def sampleData : List Byte := (List.range 24).map (BitVec.ofNat 8 <| 7 * ·)

theorem sampleKey_computes : Computes (LazyKey.ofString sampleKeyText)
    fun i => g pi (keyWord (BitVec.ofNat 256 (hexNat sampleKeyText)) i) :=
  LazyKey_ofString_computes (by decide) (by decide)

/-! ### C12 -/

/-- C12. Writing whole blocks to an `ECBSink` does to the underlying sink (any sink, also a failing
one) what writing the encrypted blocks one by one does, and gives an `ECBSink` over the result. -/
theorem C12_aligned_write (wr : τ → List Byte → Io W τ) (s : τ) (key : Key)
    (f : Fin 8 → BitVec 32 → BitVec 32) (h : Computes key f) (d : List Byte)
    (hd : d.length % 8 = 0) :
    ECBSink.write wr ⟨s, key⟩ d =
      writeAll wr s ((ecb (encF f) (blocks64 d)).map bytesOf64) >>= fun s' => pure ⟨s', key⟩ := by
  rw [ECBSink_write_eq wr h]
  simp only [hd, if_true]
  rfl

example := C12_aligned_write (memWrite (W := Unit)) [] _ _ sampleKey_computes sampleData (by decide)

/-- C12 for a key given by 64 hexadecimal digits: the encrypted blocks are those of
GOST R 34.12-2015. -/
theorem C12_conforms (wr : τ → List Byte → Io W τ) (s : τ) (k : List Char) (hk : IsHex k)
    (hl : k.length = 64) (d : List Byte) (hd : d.length % 8 = 0) :
    ECBSink.write wr ⟨s, LazyKey.ofString k⟩ d =
      writeAll wr s ((ecb (Spec.Magma.enc (BitVec.ofNat 256 (hexNat k))) (blocks64 d)).map bytesOf64)
        >>= fun s' => pure ⟨s', LazyKey.ofString k⟩ :=
  C12_aligned_write wr s _ _ (LazyKey_ofString_computes hk hl) d hd

example : sampleData.length % 8 = 0 := by decide

/-! ### C13 -/

/-- C13, the part that holds: data shorter than one block is rejected and nothing is written, with any
key and any sink. -/
theorem C13_short_write_rejected_partial (wr : τ → List Byte → Io W τ) (t : ECBSink τ)
    (d : List Byte) (h0 : d ≠ []) (h8 : d.length < 8) :
    ECBSink.write wr t d = Io.lift (.throw (.runtimeError "Unaligned ECB encryption")) := by
  have : ∀ (d p : List Byte), (p ++ d).length < 8 → p ++ d ≠ [] → ∀ s,
      ECBSink.loop wr t.key d p s =
        Io.lift (.throw (.runtimeError "Unaligned ECB encryption")) := by
    intro d
    induction d with
    | nil =>
      intro p _ hne s
      rw [List.append_nil] at hne
      simp [ECBSink.loop, hne]
    | cons b d ih =>
      intro p hlt _ s
      have e : p ++ b :: d = (p ++ [b]) ++ d := by simp
      rw [e] at hlt
      unfold ECBSink.loop
      simp only
      rw [if_neg (by rw [List.length_append] at hlt; omega)]
      exact ih _ hlt (by simp) s
  exact this d [] h8 h0 t.sink

example := C13_short_write_rejected_partial (memWrite (W := Unit)) ⟨[], LazyKey.ofString sampleKeyText⟩ [1, 2, 3] (by decide)
  (by decide)

/-- C13, what happens in general: the complete blocks are encrypted and written first, then the
exception is thrown. -/
theorem C13_unaligned_write (wr : τ → List Byte → Io W τ) (s : τ) (key : Key)
    (f : Fin 8 → BitVec 32 → BitVec 32) (h : Computes key f) (d : List Byte)
    (hd : d.length % 8 ≠ 0) :
    ECBSink.write wr ⟨s, key⟩ d =
      writeAll wr s ((ecb (encF f) (blocks64 d)).map bytesOf64) >>= fun _ =>
        Io.lift (.throw (.runtimeError "Unaligned ECB encryption")) := by
  rw [ECBSink_write_eq wr h]
  simp only [hd, if_false]
  rfl

example := C13_unaligned_write (memWrite (W := Unit)) [] _ _ sampleKey_computes (sampleData.take 13) (by decide)

/-- C13 is false of the code. A sink that appends to a file (the world is the file): every write of
unaligned data of more than 8 bytes throws, and the file has got the encrypted complete blocks. -/
theorem C13_blocks_written_before_throw (key : Key) (h : Usable key) (d : List Byte)
    (hd : d.length % 8 ≠ 0) (h8 : 8 < d.length) (file : List Byte) :
    ∃ c, ECBSink.write fileWrite ⟨(), key⟩ d file =
        (.throw (.runtimeError "Unaligned ECB encryption"), file ++ c) ∧
      c.length = 8 * (d.length / 8) ∧ c ≠ [] := by
  obtain ⟨f, hf⟩ := h.computes
  rw [C13_unaligned_write _ _ _ f hf d hd]
  obtain ⟨s', w', e1, e2⟩ := fileWrite_collects.writeAll ((ecb (encF f) (blocks64 d)).map bytesOf64) () file
  have hl : ((ecb (encF f) (blocks64 d)).map bytesOf64).flatten.length = 8 * (d.length / 8) := by
    show (unblocks64 _).length = _
    rw [unblocks64_length, ecb, List.length_map, blocks64_length]
  refine ⟨_, ?_, hl, ?_⟩
  · rw [Io.bind_run_ok e1, ← e2]; rfl
  · intro e
    rw [e] at hl
    simp at hl
    omega

example : Usable (LazyKey.ofString sampleKeyText) := sampleKey_computes.usable
example : ((sampleData.take 13).length % 8 ≠ 0 ∧ 8 < (sampleData.take 13).length) ∧
    ((sampleData.take 5).length < 8 ∧ sampleData.take 5 ≠ []) := by decide

/-! ### C14 -/

/-- C14. After whole blocks, writing more is the same as writing all at once, for every key (also a
failing one) and every sink. -/
theorem C14_split_write (wr : τ → List Byte → Io W τ) (t : ECBSink τ) (d1 d2 : List Byte)
    (h : d1.length % 8 = 0) :
    ECBSink.write wr t (d1 ++ d2) =
      ECBSink.write wr t d1 >>= fun t => ECBSink.write wr t d2 :=
  ECBSink_write_append wr t d1 d2 h

example := C14_split_write (memWrite (W := Unit)) ⟨[], LazyKey.ofString sampleKeyText⟩ sampleData [1, 2, 3] (by decide)

/-- C14 for any number of writes of whole blocks. -/
theorem C14_any_split (wr : τ → List Byte → Io W τ) (t : ECBSink τ) (ds : List (List Byte))
    (h : ∀ d ∈ ds, d.length % 8 = 0) :
    writeAll (ECBSink.write wr) t ds = ECBSink.write wr t ds.flatten := by
  induction ds generalizing t with
  | nil => rfl
  | cons d ds ih =>
    rw [writeAll_cons, List.flatten_cons, ECBSink_write_append wr t d _ (h d (by simp))]
    congr 1
    funext t
    exact ih t fun x hx => h x (by simp [hx])

example : (∀ d ∈ [sampleData.take 16, [], sampleData.drop 16], d.length % 8 = 0) := by decide

/-! ### C15 -/

/-- C15. What a collecting sink has got from an `ECBSink` after any number of writes of whole blocks,
supplied by any source, is read back by an `ECBSource` with the same key: it supplies the original
bytes, a block per read, and then nothing. -/
theorem C15_round_trip {W' : Type} (m : Machine) (key : Key) (h : Usable key)
    (hl : key.isLazy = true) (wr : τ → List Byte → Io W τ) (content : τ → W → List Byte)
    (hw : Collects wr content) (s : τ) (w : W) (hs : content s w = []) (ds : List (List Byte))
    (hd : ∀ d ∈ ds, d.length % 8 = 0) :
    ∃ t w', writeAll (ECBSink.write wr) ⟨s, key⟩ ds w = (.ok t, w') ∧
      ∀ (rd : σ → Nat → Io W' (List Byte × σ)) (src : σ) (v : W'),
        SuppliesBlocks rd src v (content t.sink w') →
        SuppliesBlocks (ECBSource.read m rd) (.ecb src key) v ds.flatten := by
  obtain ⟨f, hf⟩ := h.computes
  have hdl : ds.flatten.length % 8 = 0 := by
    clear hs hw
    induction ds with
    | nil => rfl
    | cons d ds ih =>
      have h1 := hd d (by simp)
      have h2 := ih fun x hx => hd x (by simp [hx])
      rw [List.flatten_cons, List.length_append]
      omega
  rw [C14_any_split wr _ ds hd, C12_aligned_write wr s key f hf _ hdl]
  obtain ⟨s', w', e1, e2⟩ := hw.writeAll ((ecb (encF f) (blocks64 ds.flatten)).map bytesOf64) s w
  refine ⟨⟨s', key⟩, w', by rw [Io.bind_run_ok e1]; rfl, ?_⟩
  intro rd src v hsrc
  have hc : content s' w' = unblocks64 (ecb (encF f) (blocks64 ds.flatten)) := by
    rw [e2, hs]; rfl
  simp only [hc] at hsrc
  have := ECBSource_supplies hf hl m rd src v _ hsrc (by rw [unblocks64_length]; omega)
  rw [ecbPlain, blocks64_unblocks64, ecb, ecb, List.map_map] at this
  have e : (decF f ∘ encF f) = id := funext fun x => decF_encF f x
  rw [e, List.map_id, unblocks64_blocks64_whole hdl] at this
  exact this

/-- A memory sink and source, 24 bytes in two writes. -/
example (m : Machine) : ∃ t, writeAll (ECBSink.write memWrite) ⟨[], LazyKey.ofString sampleKeyText⟩
      [sampleData.take 16, sampleData.drop 16] () = (.ok t, ()) ∧
    SuppliesBlocks (ECBSource.read m memRead) (.ecb t.sink (LazyKey.ofString sampleKeyText)) ()
      sampleData := by
  obtain ⟨t, w', e, h⟩ := C15_round_trip (σ := List Byte) (W' := Unit) m
    (LazyKey.ofString sampleKeyText) sampleKey_computes.usable rfl memWrite _ memWrite_collects
    [] () rfl [sampleData.take 16, sampleData.drop 16] (by decide)
  exact ⟨t, e, h memRead t.sink () (memRead_supplies _ ()).blocks⟩

/-! ### C16 -/

/-- C16. Asking for fewer than 8 bytes throws, and the underlying source is not touched: no read of
it, so any source and any key do. -/
theorem C16_small_read_rejected (m : Machine) (rd : σ → Nat → Io W (List Byte × σ)) (s : σ)
    (key : Key) (n : Nat) (hn : n < 8) :
    ECBSource.read m rd (.ecb s key) n =
      Io.lift (.throw (.runtimeError "Unaligned ECB decryption")) := by
  simp only [ECBSource.read]
  rw [if_pos hn]

example (m : Machine) := C16_small_read_rejected m (memRead (W := Unit)) sampleData (LazyKey.ofString sampleKeyText) 7 (by decide)

/-- C16. Asking for 8 bytes or more reads 8 bytes from the underlying source, once. Whole block: the
result is its decryption, 8 bytes, and an `ECBSource` over the new source. End of data: the result is
empty. -/
theorem C16_read_one_block (m : Machine) (rd : σ → Nat → Io W (List Byte × σ)) (s s' : σ)
    (key : Key) (f : Fin 8 → BitVec 32 → BitVec 32) (h : Computes key f) (hl : key.isLazy = true)
    (n : Nat) (hn : 8 ≤ n) (w w' : W) (p : List Byte) (hr : rd s 8 w = (.ok (p, s'), w')) :
    (p.length = 8 → ECBSource.read m rd (.ecb s key) n w =
      (.ok (bytesOf64 (decF f (block64 p)), .ecb s' key), w')) ∧
    (p = [] → ECBSource.read m rd (.ecb s key) n w = (.ok ([], .bare s'), w')) :=
  ⟨fun hp => ECBSource_block h hl m rd s s' n hn w w' p hr hp,
   fun hp => ECBSource_end m rd s s' key n hn w w' (by rw [hr, hp])⟩

example (m : Machine) := C16_read_one_block m (memRead (W := Unit)) sampleData _ _ _ sampleKey_computes rfl 20 (by decide) () ()
  (sampleData.take 8) rfl

/-- C16. Whatever source and key do: for requests of 8 bytes and more the size does not matter, and a
successful read never returns more bytes than the underlying source returned for 8. -/
theorem C16_read_size_irrelevant (m : Machine) (rd : σ → Nat → Io W (List Byte × σ)) (s : σ)
    (key : Key) (n : Nat) (hn : 8 ≤ n) :
    ECBSource.read m rd (.ecb s key) n = ECBSource.read m rd (.ecb s key) 8 ∧
    ∀ w x t w', ECBSource.read m rd (.ecb s key) n w = (.ok (x, t), w') →
      ∃ p s' w1, rd s 8 w = (.ok (p, s'), w1) ∧ x.length = p.length := by
  refine ⟨by rw [ECBSource_read_ecb m rd s key n hn, ECBSource_read_ecb m rd s key 8 (by omega)],
    ?_⟩
  intro w x t w' hx
  rw [ECBSource_read_ecb m rd s key n hn, Io.bind_def, Io.bind] at hx
  rcases hrd : rd s 8 w with ⟨r, w1⟩
  rw [hrd] at hx
  match r with
  | .ok (p, s') =>
    refine ⟨p, s', w1, rfl, ?_⟩
    simp only at hx
    by_cases hp : p = []
    · rw [if_pos hp] at hx
      simp only [Io.pure_def, Io.lift, Prod.mk.injEq, Exec.ok.injEq] at hx
      rw [← hx.1.1]
    · rw [if_neg hp] at hx
      cases hb : BlkRaw.ofBytes p with
      | ok b =>
        rw [hb, Io.lift_ok_bind] at hx
        cases he : (BlkDecrypted b key.asLazy).value m with
        | ok e =>
          rw [he, Io.lift_ok_bind] at hx
          by_cases h8 : p.length < 8
          · rw [overwrite8, if_pos h8] at hx
            simp only [Io.lift_ub_bind] at hx
            simp [Io.lift] at hx
          · simp only [overwrite8, h8, if_false, Io.lift_ok_bind, Io.pure_def, Io.lift,
              Prod.mk.injEq, Exec.ok.injEq] at hx
            rw [← hx.1.1]
            simp [bytes32]
            omega
        | throw _ => rw [he] at hx; simp [Io.lift] at hx
        | ub _ => rw [he] at hx; simp [Io.lift] at hx
        | diverge => rw [he] at hx; simp [Io.lift] at hx
      | throw _ => rw [hb] at hx; simp [Io.lift] at hx
      | ub _ => rw [hb] at hx; simp [Io.lift] at hx
      | diverge => rw [hb] at hx; simp [Io.lift] at hx
  | .throw _ => simp at hx
  | .ub _ => simp at hx
  | .diverge => simp at hx

example : memRead (W := Unit) sampleData 8 () = (.ok (sampleData.take 8, sampleData.drop 8), ()) ∧
    (sampleData.take 8).length = 8 := ⟨rfl, by decide⟩

/-! ### C17 -/

/-- C17 is false of the code: whenever the underlying source returns 1 … 7 bytes, `read` runs into
undefined behaviour, a read outside the buffer, whatever the key. -/
theorem C17_truncated_is_undefined (m : Machine) (rd : σ → Nat → Io W (List Byte × σ)) (s s' : σ)
    (key : Key) (n : Nat) (hn : 8 ≤ n) (w w' : W) (p : List Byte)
    (hr : rd s 8 w = (.ok (p, s'), w')) (h0 : p ≠ []) (h8 : p.length < 8) :
    ECBSource.read m rd (.ecb s key) n w = (.ub .oobRead, w') := by
  rw [ECBSource_read_ecb m rd s key n hn, Io.bind_run_ok hr]
  simp only
  rw [if_neg h0, ofBytes_short h8]
  rfl

/-- C17, the part that holds: a read is free of out-of-bounds accesses if the underlying source
returns a whole block or nothing. Missing: tails of 1 … 7 bytes, where it is false, see
`C17_truncated_is_undefined`. -/
theorem C17_whole_blocks_safe_partial (m : Machine) (rd : σ → Nat → Io W (List Byte × σ)) (s s' : σ)
    (key : Key) (h : Usable key) (hl : key.isLazy = true) (n : Nat) (hn : 8 ≤ n) (w w' : W)
    (p : List Byte) (hr : rd s 8 w = (.ok (p, s'), w')) (hp : p.length = 8 ∨ p.length = 0) :
    ∃ x t, ECBSource.read m rd (.ecb s key) n w = (.ok (x, t), w') := by
  obtain ⟨f, hf⟩ := h.computes
  obtain ⟨h1, h2⟩ := C16_read_one_block m rd s s' key f hf hl n hn w w' p hr
  rcases hp with hp | hp
  · exact ⟨_, _, h1 hp⟩
  · exact ⟨_, _, h2 (List.eq_nil_of_length_eq_zero hp)⟩

/-- A source with 13 bytes: the second read is undefined. -/
example (m : Machine) : ECBSource.read (W := Unit) m memRead
    (.ecb ((sampleData.take 13).drop 8) (LazyKey.ofString sampleKeyText)) 8 () =
      (.ub .oobRead, ()) :=
  C17_truncated_is_undefined m memRead _ [] _ 8 (by omega) () () (sampleData.drop 8 |>.take 5)
    (by decide) (by decide) (by decide)

/-! ### C59 -/

/-- C59 is false of the code. Once the underlying source has returned nothing, the object returned is
the underlying source itself, so what it delivers later (a file that has grown, a socket) comes out
as it is, without decryption, and reads of fewer than 8 bytes are accepted. -/
theorem C59_raw_after_end (m : Machine) (rd : σ → Nat → Io W (List Byte × σ)) (s s' : σ) (key : Key)
    (n : Nat) (hn : 8 ≤ n) (w w' : W) (hr : rd s 8 w = (.ok ([], s'), w')) :
    ∃ t, ECBSource.read m rd (.ecb s key) n w = (.ok ([], t), w') ∧
      ∀ k v p s'' v', rd s' k v = (.ok (p, s''), v') →
        ∃ t', ECBSource.read m rd t k v = (.ok (p, t'), v') := by
  refine ⟨.bare s', ECBSource_end m rd s s' key n hn w w' hr, ?_⟩
  intro k v p s'' v' h
  refine ⟨.bare s'', ?_⟩
  simp only [ECBSource.read]
  rw [Io.bind_run_ok h]
  rfl

/-- C59, the part that holds: over a source that supplies whole blocks and then nothing for ever, no
read returns anything but decrypted blocks. -/
theorem C59_only_plaintext_partial (m : Machine) (rd : σ → Nat → Io W (List Byte × σ)) (s : σ)
    (key : Key) (f : Fin 8 → BitVec 32 → BitVec 32) (h : Computes key f) (hl : key.isLazy = true)
    (w : W) (c : List (BitVec 64)) (hs : SuppliesBlocks rd s w (unblocks64 c)) :
    SuppliesBlocks (ECBSource.read m rd) (.ecb s key) w (unblocks64 (ecb (decF f) c)) := by
  have := ECBSource_supplies h hl m rd s w _ hs (by rw [unblocks64_length]; omega)
  rwa [ecbPlain, blocks64_unblocks64] at this

/-- A growing file: empty at the first read; then ciphertext arrives and is returned as it is. -/
example (m : Machine) : ∃ t,
    ECBSource.read m fileRead (.ecb 0 (LazyKey.ofString sampleKeyText)) 8 [] = (.ok ([], t), []) ∧
    ∃ t', ECBSource.read m fileRead t 3 sampleData = (.ok (sampleData.take 3, t'), sampleData) := by
  obtain ⟨t, h1, h2⟩ := C59_raw_after_end m fileRead 0 0 (LazyKey.ofString sampleKeyText) 8
    (by omega) [] [] rfl
  exact ⟨t, h1, h2 3 sampleData _ _ _ rfl⟩

end Goost.Props
