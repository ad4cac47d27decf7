import Verif.Lemmas.LiveAskMore
import Verif.Props.Live
import Verif.Props.Mac
/-
Property C106, continued: the streams of gost89, reads of several blocks and authentication codes with a key
that records its questions, or that stops answering.
-/
namespace Goost.Props
open Goost.Magma Spec Spec.Magma Spec.Modes
variable {V σ τ : Type}

/-! ### The sinks of gost89 -/

/-- C106: writes of any sizes to a `gost89::CFBSink` ask for the words of the key once per complete block. -/
theorem C106_gost89_cfb_asked (m : Machine) (q : Key) (f : Fin 8 → BitVec 32 → BitVec 32) (hf : Computes q f)
    (hq : q.isLazy = true) (wr : τ → List Byte → Io V τ) (s s1 : τ) (w w1 : V) (iv : BitVec 64)
    (d : List Byte) (l : List (Fin 8))
    (h : writeAll wr s ((cfbEnc (encF f) [iv] (blocks64 d)).map bytesOf64) w = (.ok s1, w1)) :
    ∃ t, Live.Gost89.CFBSink.write m (fun s d => aside (wr s d)) ⟨s, recordedKey q, iv, []⟩ d (l, w) =
      (.ok t, (l ++ (List.replicate (d.length / 8) schedule).flatten, w1)) ∧ t.sink = s1 := by
  have hl := GostSink_loop_asks m wr (recordedKey_asks (V := V) hf (.user 0)) hq d [] (by simp) s iv _ rfl
  rw [List.nil_append] at hl
  have h' := askedWrites_record (e := .user 0) wr _ s s1 w w1 l h
  rw [List.length_map, cfbEnc_length _ _ _ (by simp), blocks64_length] at h'
  unfold Live.Gost89.CFBSink.write
  rw [hl, Io.bind_run_ok h']
  exact ⟨_, rfl, rfl⟩

/-- C106 for a `gost89::CFBSink`: the key answers `n` questions and throws `e` then. Exactly the first ⌊n/32⌋
blocks of the ciphertext get to the sink below. -/
theorem C106_gost89_cfb_withdrawn (m : Machine) (q : Key) (f : Fin 8 → BitVec 32 → BitVec 32)
    (hf : Computes q f) (hq : q.isLazy = true) (e : Exn) (wr : τ → List Byte → Io V τ) (s s1 : τ) (w w1 : V)
    (iv : BitVec 64) (d : List Byte) (n : Nat)
    (h : writeAll wr s (((cfbEnc (encF f) [iv] (blocks64 d)).take (n / 32)).map bytesOf64) w = (.ok s1, w1)) :
    (32 * (d.length / 8) ≤ n → ∃ t,
      Live.Gost89.CFBSink.write m (fun s d => aside (wr s d)) ⟨s, tokenKey q e, iv, []⟩ d (n, w) =
        (.ok t, (n - 32 * (d.length / 8), w1)) ∧ t.sink = s1) ∧
    (n < 32 * (d.length / 8) →
      Live.Gost89.CFBSink.write m (fun s d => aside (wr s d)) ⟨s, tokenKey q e, iv, []⟩ d (n, w) =
        (.throw e, (0, w1))) := by
  have hl := GostSink_loop_asks m wr (tokenKey_asks (V := V) hf e) hq d [] (by simp) s iv _ rfl
  rw [List.nil_append] at hl
  have h' := askedWrites_token (e := e) wr ((cfbEnc (encF f) [iv] (blocks64 d)).map bytesOf64) s s1
    w w1 n (by rw [List.map_take] at h; exact h)
  rw [List.length_map, cfbEnc_length _ _ _ (by simp), blocks64_length] at h'
  unfold Live.Gost89.CFBSink.write
  rw [hl]
  constructor
  · intro hn
    rw [if_pos hn] at h'
    rw [Io.bind_run_ok h']
    exact ⟨_, rfl, rfl⟩
  · intro hn
    rw [if_neg (by omega)] at h'
    rw [bind_run_throw h']

/-! ### Reads -/

/-- C106 is false of the code for a read of several blocks through a `CFBSource`: the source below holds the
blocks `c`, the key answers as many questions as they need, and more bytes are asked for. The blocks have been
taken from the source below and decrypted; the exception discards them. -/
theorem C106_cfb_source_loses (m : Machine) (q : Key) (f : Fin 8 → BitVec 32 → BitVec 32)
    (hf : Computes q f) (hq : q.isLazy = true) (e : Exn) (rd : σ → Nat → Io V (List Byte × σ)) (s s1 : σ)
    (w w1 : V) (ivl ivr : BitVec 64) (p : List Byte) (c : List (BitVec 64)) (hr : ReadsBlocks rd s w c s1 w1)
    (size n : Nat) (hn : n / 32 = c.length) (hs : p.length + 8 * c.length < size) :
    Live.CFBSource.read m (fun s n => aside (rd s n)) ⟨s, tokenKey q e, ivl, ivr, p⟩ size (n, w) =
      (.throw e, (0, w1)) :=
  CFBSource_loop_token m rd (tokenKey_asks (V := V) hf e) hq size c (size + 1) s s1 w w1 p ivl ivr [] n hn hr
    (by omega) (by simpa using hs)

/-- The same for a `gost89::CFBSource`. -/
theorem C106_gost89_cfb_source_loses (m : Machine) (q : Key) (f : Fin 8 → BitVec 32 → BitVec 32)
    (hf : Computes q f) (hq : q.isLazy = true) (e : Exn) (rd : σ → Nat → Io V (List Byte × σ)) (s s1 : σ)
    (w w1 : V) (iv : BitVec 64) (p : List Byte) (c : List (BitVec 64)) (hr : ReadsBlocks rd s w c s1 w1)
    (size n : Nat) (hn : n / 32 = c.length) (hs : p.length + 8 * c.length < size) :
    Live.Gost89.CFBSource.read m (fun s n => aside (rd s n)) ⟨s, tokenKey q e, iv, p⟩ size (n, w) =
      (.throw e, (0, w1)) :=
  GostSource_loop_token m rd (tokenKey_asks (V := V) hf e) hq size c (size + 1) s s1 w w1 p iv [] n hn hr
    (by omega) (by simpa using hs)

/-- C106, the part that holds for reads through a `gost89::CFBSource`: if the key does not answer the questions
of the first block, the source below has not been touched. -/
theorem C106_gost89_cfb_source_retry_partial (m : Machine) (q : Key) (f : Fin 8 → BitVec 32 → BitVec 32)
    (hf : Computes q f) (hq : q.isLazy = true) (e : Exn) (rd : σ → Nat → Io V (List Byte × σ)) (s : σ) (w : V)
    (iv : BitVec 64) (p : List Byte) (size n : Nat) (hs : p.length < size) (hn : n < 32) :
    Live.Gost89.CFBSource.read m (fun s n => aside (rd s n)) ⟨s, tokenKey q e, iv, p⟩ size (n, w) =
      (.throw e, (0, w)) :=
  C106_gost89_cfb_source_loses m q f hf hq e rd s s w w iv p [] ⟨rfl, rfl⟩ size n
    (by simp; omega) (by simpa using hs)

/-! ### Authentication codes -/

private theorem mac_count {p : List (BitVec 64)} {tail : List Byte} (ht : tail ≠ []) (ht8 : tail.length ≤ 8) :
    p.length + (if tail.length = 8 then 2 else 4) + 1 = macEncryptions (unblocks64 p ++ tail).length := by
  have := List.length_pos_iff.2 ht
  simp only [macEncryptions, List.length_append, unblocks64_length]
  by_cases h : tail.length = 8
  · rw [if_pos h, if_pos (by omega)]; omega
  · rw [if_neg h, if_neg (by omega)]; omega

/-- C106: `Imit` reads the source to its end, then asks for the words of the key in the order of the standard, 32
for each encryption. -/
theorem C106_mac_asked (q : Key) (f : Fin 8 → BitVec 32 → BitVec 32) (hf : Computes q f)
    (rd : σ → Nat → Io V (List Byte × σ)) (s : σ) (w w1 : V) (d : List Byte) (h0 : d ≠ [])
    (hs : SuppliesBlocks rd s w d) (fuel : Nat) (hfuel : d.length ≤ 8 * fuel) (v : BitVec 32 × BitVec 32)
    (hv : Imit.value .x86 rd fuel s (some q) w = (.ok v, w1)) (l : List (Fin 8)) :
    Live.Imit.value .x86 (fun s n => aside (rd s n)) fuel s (some (recordedKey q)) (l, w) =
      (.ok v, (l ++ (List.replicate (macEncryptions d.length) schedule).flatten, w1)) := by
  obtain ⟨p, tail, rfl, ht, ht8, -, -⟩ := split_message h0
  have := List.length_pos_iff.2 ht
  simp only [List.length_append, unblocks64_length] at hfuel
  rw [Imit_value_asks (recordedKey_asks (V := V) hf (.user 0)) rd s w p tail ht ht8 hs fuel (by omega) hf hv l,
    askAll_record, mac_count ht ht8]
  rfl

/-- C106: the key answers `n` questions and throws `e` then. If `n` does not suffice no code is given, and the
source has been read to its end all the same. -/
theorem C106_mac_withdrawn (q : Key) (f : Fin 8 → BitVec 32 → BitVec 32) (hf : Computes q f) (e : Exn)
    (rd : σ → Nat → Io V (List Byte × σ)) (s : σ) (w w1 : V) (d : List Byte) (h0 : d ≠ [])
    (hs : SuppliesBlocks rd s w d) (fuel : Nat) (hfuel : d.length ≤ 8 * fuel) (v : BitVec 32 × BitVec 32)
    (hv : Imit.value .x86 rd fuel s (some q) w = (.ok v, w1)) (n : Nat) :
    Live.Imit.value .x86 (fun s n => aside (rd s n)) fuel s (some (tokenKey q e)) (n, w) =
      if 32 * macEncryptions d.length ≤ n then (.ok v, (n - 32 * macEncryptions d.length, w1))
      else (.throw e, (0, w1)) := by
  obtain ⟨p, tail, rfl, ht, ht8, -, -⟩ := split_message h0
  have := List.length_pos_iff.2 ht
  simp only [List.length_append, unblocks64_length] at hfuel
  rw [Imit_value_asks (tokenKey_asks (V := V) hf e) rd s w p tail ht ht8 hs fuel (by omega) hf hv n,
    askAll_token, schedules_length, mac_count ht ht8]
  split <;> rfl

/-- C106: `gost89::DataImit` asks for 16 words of the key per block of the padded message. -/
theorem C106_data_mac_asked (m : Machine) (q : Key) (f : Fin 8 → BitVec 32 → BitVec 32) (hf : Computes q f)
    (d : List Byte) (l : List (Fin 8)) (w : V) :
    Live.Gost89.DataImit.value m d (some (recordedKey q)) (l, w) =
      (Gost89.DataImit.value m d (some q),
        (l ++ (List.replicate (max 2 ((d.length + 7) / 8)) (schedule.take 16)).flatten, w)) := by
  have h := DataImit_loop_asks (recordedKey_asks (V := V) hf (.user 0)) m
    (blocks64 (Gost89.DataImit.pad d)) (List.replicate 8 0) rfl l w
  rw [unblocks64_blocks64_whole (DataImit_pad_length d), blocks64_length, askAll_record] at h
  have hz : block64 (List.replicate 8 0) = 0 := by decide
  have hn : (Gost89.DataImit.pad d).length / 8 = max 2 ((d.length + 7) / 8) := by
    simp only [Gost89.DataImit.pad, List.length_append, List.length_replicate]; omega
  rw [hz, hn, ← DataImit_value_eq hf m d] at h
  rw [DataImit_value_eq hf m d] at h ⊢
  exact h

/-- C106: the key answers `n` questions and throws `e` then: `gost89::DataImit` gives the code, or throws `e`. -/
theorem C106_data_mac_withdrawn (m : Machine) (q : Key) (f : Fin 8 → BitVec 32 → BitVec 32) (hf : Computes q f)
    (e : Exn) (d : List Byte) (n : Nat) (w : V) :
    Live.Gost89.DataImit.value m d (some (tokenKey q e)) (n, w) =
      if 16 * max 2 ((d.length + 7) / 8) ≤ n then
        (Gost89.DataImit.value m d (some q), (n - 16 * max 2 ((d.length + 7) / 8), w))
      else (.throw e, (0, w)) := by
  have h := DataImit_loop_asks (tokenKey_asks (V := V) hf e) m
    (blocks64 (Gost89.DataImit.pad d)) (List.replicate 8 0) rfl n w
  rw [unblocks64_blocks64_whole (DataImit_pad_length d), blocks64_length, askAll_token] at h
  have hz : block64 (List.replicate 8 0) = 0 := by decide
  have hn : (Gost89.DataImit.pad d).length / 8 = max 2 ((d.length + 7) / 8) := by
    simp only [Gost89.DataImit.pad, List.length_append, List.length_replicate]; omega
  have hl : (List.replicate ((Gost89.DataImit.pad d).length / 8) (schedule.take 16)).flatten.length =
      16 * max 2 ((d.length + 7) / 8) := by
    have : (schedule.take 16).length = 16 := rfl
    rw [hn]; simp [this, Nat.mul_comm]
  rw [hz, hl] at h
  rw [DataImit_value_eq hf m d]
  refine Eq.trans h ?_
  split <;> rfl

/-! ### The hypotheses are met -/

/-- A pipe with three blocks, a token for two: both blocks are gone from the pipe and the caller has nothing. -/
example (m : Machine) (x y z : BitVec 64) (ivl ivr : BitVec 64) :
    Live.CFBSource.read m (fun s n => aside (pipeRead s n))
      ⟨(), tokenKey (LazyKey.ofString sampleKeyText) (.user 3), ivl, ivr, []⟩ 24
      (70, bytesOf64 x ++ (bytesOf64 y ++ bytesOf64 z)) = (.throw (.user 3), (0, bytesOf64 z)) := by
  have e1 : pipeRead () 8 (bytesOf64 x ++ (bytesOf64 y ++ bytesOf64 z)) =
      (.ok (bytesOf64 x, ()), bytesOf64 y ++ bytesOf64 z) := by
    rw [pipeRead, List.take_left' (by simp), List.drop_left' (by simp)]
  have e2 : pipeRead () 8 (bytesOf64 y ++ bytesOf64 z) = (.ok (bytesOf64 y, ()), bytesOf64 z) := by
    rw [pipeRead, List.take_left' (by simp), List.drop_left' (by simp)]
  exact C106_cfb_source_loses m _ _ sampleKey_computes rfl (.user 3) pipeRead () () _ _ ivl ivr [] [x, y]
    ⟨(), _, e1, (), _, e2, rfl, rfl⟩ 24 70 rfl (by simp)

/-- A message of three blocks: five encryptions, 160 questions. -/
example : ∃ v w, Imit.value .x86 (memRead (W := Unit)) 20 sampleData (some (LazyKey.ofString sampleKeyText)) () =
    (.ok v, w) ∧ sampleData ≠ [] ∧ SuppliesBlocks (memRead (W := Unit)) sampleData () sampleData ∧
    macEncryptions sampleData.length = 5 := by
  obtain ⟨p, tail, e, ht, ht8, hp, -⟩ := split_message (d := sampleData) (by decide)
  have hs : SuppliesBlocks (memRead (W := Unit)) sampleData () (unblocks64 p ++ tail) := by
    rw [← e]; exact (memRead_supplies _ ()).blocks
  obtain ⟨v, w, h, -⟩ := Imit_value_x86 sampleKey_computes (memRead (W := Unit)) sampleData () p tail ht ht8 hs 20
    (by rw [hp]; decide)
  exact ⟨v, w, h, by decide, (memRead_supplies _ ()).blocks, by decide⟩

/-! The theorems at the key of the standard's example, and memory. -/

example (m : Machine) (l : List (Fin 8)) := C106_gost89_cfb_asked m _ _ sampleKey_computes rfl (memWrite (W := Unit)) [] _ () _ 1
  (sampleData.take 19) l rfl

example (m : Machine) := C106_gost89_cfb_withdrawn m _ _ sampleKey_computes rfl (.user 3) (memWrite (W := Unit)) [] _ () _ 1
  (sampleData.take 19) 70 rfl

example (m : Machine) := C106_cfb_source_loses m _ _ sampleKey_computes rfl (.user 3) (memRead (W := Unit)) (bytesOf64 5) _ () () 1 2
  [9] [5] ⟨_, _, rfl, rfl, rfl⟩ 24 40 rfl (by decide)

example (m : Machine) := C106_gost89_cfb_source_loses m _ _ sampleKey_computes rfl (.user 3) (memRead (W := Unit)) (bytesOf64 5) _ () ()
  1 [9] [5] ⟨_, _, rfl, rfl, rfl⟩ 24 40 rfl (by decide)

example (m : Machine) := C106_gost89_cfb_source_retry_partial m _ _ sampleKey_computes rfl (.user 3) (memRead (W := Unit)) sampleData ()
  1 [9] 10 31 (by decide) (by decide)

example (v : BitVec 32 × BitVec 32) (w : Unit) := C106_mac_asked _ _ sampleKey_computes (memRead (W := Unit)) sampleData () w
  sampleData (by decide) (memRead_supplies _ ()).blocks 20 (by decide) v

example (v : BitVec 32 × BitVec 32) (w : Unit) := C106_mac_withdrawn _ _ sampleKey_computes (.user 3) (memRead (W := Unit)) sampleData
  () w sampleData (by decide) (memRead_supplies _ ()).blocks 20 (by decide) v

example (m : Machine) (l : List (Fin 8)) := C106_data_mac_asked (V := Unit) m _ _ sampleKey_computes sampleData l

end Goost.Props
