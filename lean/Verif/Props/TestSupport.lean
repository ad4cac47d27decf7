import Verif.Lemmas.Container
import Verif.Lemmas.TestSupport
import Verif.Props.Cfb
import Verif.Props.Ecb
import Verif.Props.Blocks
import Verif.Props.Mac
import Verif.Lemmas.Reads
import Verif.Spec.KuzStreams
/-
Properties C77–C81: the sources, sinks, comparisons and containers of the unit tests.
-/
namespace Goost.Props
open Goost.TestSupport Spec Spec.Magma Spec.Modes
variable {W σ τ : Type}

/-! ### C77 -/

/-- C77. A read of `n` bytes from a `Hex64Source` gives the bytes of the next words of its text, least
significant byte first, as many words as are needed for `n` bytes or all there are, and a source over the
rest. Characters that are not digits, and an incomplete word at the end, do not matter. -/
theorem C77_read (text : List Char) (n : Nat) (w : W) :
    ∃ rest, Hex64Source.read text n w =
        (.ok (unblocks64 ((hexWords text).take ((n + 7) / 8)), rest), w) ∧
      hexWords rest = (hexWords text).drop ((n + 7) / 8) :=
  Hex64Source_read_eq text n w

/-- C77: it is a source of whole blocks, as the theorems on `ECBSource`, `CFBSource` and `Imit` require. -/
theorem C77_supplies_blocks (text : List Char) (w : W) :
    SuppliesBlocks Hex64Source.read text w (unblocks64 (hexWords text)) := by
  refine ⟨fun s _ d => d = unblocks64 (hexWords s), rfl, ?_⟩
  rintro s w d rfl
  obtain ⟨rest, e1, e2⟩ := C77_read (W := W) s 8 w
  have t := unblocks64_take (hexWords s) 1
  have u := unblocks64_drop (hexWords s) 1
  refine ⟨rest, w, ?_, ?_⟩
  · rw [e1, t]
  · show (unblocks64 (hexWords s)).drop 8 = unblocks64 (hexWords rest)
    rw [e2]
    exact u

/-- C77: a read whose size is a multiple of 8 gives exactly so many bytes, or what is left. -/
theorem C77_whole_read (text : List Char) (n : Nat) (hn : n % 8 = 0) (w : W) :
    ∃ rest, Hex64Source.read text n w = (.ok ((unblocks64 (hexWords text)).take n, rest), w) ∧
      unblocks64 (hexWords rest) = (unblocks64 (hexWords text)).drop n := by
  obtain ⟨rest, e1, e2⟩ := C77_read text n w
  have k : 8 * ((n + 7) / 8) = n := by omega
  refine ⟨rest, ?_, ?_⟩
  · rw [e1, unblocks64_take, k]
  · rw [e2, ← unblocks64_drop, k]

example := C77_whole_read (W := Unit) "92def06b3c130a59 db54c704f8189d20".toList 8 rfl ()

/-- C77, other sizes: the result is longer than asked for, so a text with at least one word is not a
source for every size. -/
theorem C77_more_than_asked (text : List Char) (h : hexWords text ≠ []) (n : Nat) (h0 : 0 < n) (h8 : n < 8)
    (w : W) : (∃ x rest, Hex64Source.read text n w = (.ok (x, rest), w) ∧ x.length = 8) ∧
      ¬ Supplies Hex64Source.read text w (unblocks64 (hexWords text)) := by
  have hl : 0 < (hexWords text).length := List.length_pos_iff.mpr h
  obtain ⟨rest, e1, e2⟩ := C77_read text n w
  have k : (n + 7) / 8 = 1 := by omega
  rw [k] at e1
  have len : (unblocks64 ((hexWords text).take 1)).length = 8 := by
    rw [unblocks64_length, List.length_take]; omega
  refine ⟨⟨_, rest, e1, len⟩, ?_⟩
  rintro ⟨R, h1, h2⟩
  obtain ⟨s', w', e, -⟩ := h2 _ _ _ h1 n
  rw [e1] at e
  have := congrArg (fun x => match x with | (Exec.ok (x, _), _) => x.length | _ => 0) e
  simp only [len, List.length_take] at this
  omega

example : hexWords "92def06b 3c130a59 db54c704f8189d20 4a".toList = [0x92def06b3c130a59, 0xdb54c704f8189d20] := by
  decide

/-! ### C78 -/

/-- C78. A `TestSink` collects what is written to it, `finalize` does not change it, and its text
determines its content. -/
theorem C78_sink :
    Collects (TestSink.write (W := W)) (fun s _ => s) ∧
    (∀ (s : List Byte) (w : W), TestSink.finalize s w = (.ok s, w)) ∧
    (∀ s, TestSink.asHexString s = bytesText s) ∧
    ∀ s s', TestSink.asHexString s = TestSink.asHexString s' ↔ s = s' := by
  refine ⟨fun s w x => ⟨s ++ x, w, rfl, rfl⟩, fun _ _ => rfl, flatMap_putHex, ?_⟩
  intro s s'
  rw [show TestSink.asHexString s = bytesText s from flatMap_putHex s,
    show TestSink.asHexString s' = bytesText s' from flatMap_putHex s']
  constructor
  · intro e
    have h1 := (upper_bytesText_prefix s s').mp (by rw [e]; exact List.prefix_refl _)
    have h2 := (upper_bytesText_prefix s' s).mp (by rw [e]; exact List.prefix_refl _)
    exact h1.eq_of_length (Nat.le_antisymm h1.length_le h2.length_le)
  · intro e; rw [e]

/-- C78. The text of a block is the number in 16 (32) digits, and `BlkString` of it is the block. -/
theorem C78_block_text (m : Machine) (v : W32 × W32) (u : W64 × W64) :
    magmaRepr v = hexText 16 (join32 v).toNat ∧ (Magma.Blk.str (magmaRepr v)).value m = .ok v ∧
    kuzRepr u = hexText 32 (join64 u).toNat ∧ (Kuz.Blk.str (kuzRepr u)).value m = .ok u := by
  have h1 : magmaRepr v = hexText 16 (join32 v).toNat := by
    rw [magmaRepr, putPadded_eq 7 _ v.2.isLt, putPadded_eq 7 _ v.1.isLt, hexText_cat 8 _ _ v.1.isLt 8, join32,
      BitVec.toNat_append, ← Nat.shiftLeft_add_eq_or_of_lt v.1.isLt, Nat.shiftLeft_eq]
  have h2 : kuzRepr u = hexText 32 (join64 u).toNat := by
    rw [kuzRepr, putPadded_eq 15 _ u.2.isLt, putPadded_eq 15 _ u.1.isLt, hexText_cat 16 _ _ u.1.isLt 16, join64,
      BitVec.toNat_append, ← Nat.shiftLeft_add_eq_or_of_lt u.1.isLt, Nat.shiftLeft_eq]
  exact ⟨h1, by rw [h1]; exact C53_magma_text_round_trip m v, h2,
    by rw [h2]; exact C53_kuznyechik_text_round_trip m u⟩

/-- C78. The comparison of two blocks succeeds exactly if they have the same value. -/
theorem C78_block_comparison (m : Machine) (a b : Magma.Blk) (va vb : W32 × W32)
    (ha : a.value m = .ok va) (hb : b.value m = .ok vb) (a' b' : Kuz.Blk) (ua ub : W64 × W64)
    (ha' : a'.value m = .ok ua) (hb' : b'.value m = .ok ub) :
    magmaBlockEqual m a b = .ok (decide (va = vb)) ∧ kuzBlockEqual m a' b' = .ok (decide (ua = ub)) := by
  constructor
  · rw [magmaBlockEqual, hb, Exec.ok_bind, ha, Exec.ok_bind, Exec.pure_eq]
    congr 1
    rw [Bool.eq_iff_iff, beq_iff_eq, decide_eq_true_iff]
    constructor
    · intro e
      have h1 := (C78_block_text m va ua).2.1
      rw [e, (C78_block_text m vb ua).2.1] at h1
      injection h1 with h1
      exact h1.symm
    · intro e; rw [e]
  · rw [kuzBlockEqual, hb', Exec.ok_bind, ha', Exec.ok_bind, Exec.pure_eq]
    congr 1
    rw [Bool.eq_iff_iff, beq_iff_eq, decide_eq_true_iff]
    constructor
    · intro e
      have h1 := (C78_block_text m va ua).2.2.2
      rw [e, (C78_block_text m va ub).2.2.2] at h1
      injection h1 with h1
      exact h1.symm
    · intro e; rw [e]

example (m : Machine) := C78_block_comparison m (.raw 1 2) (.raw 1 3) _ _ rfl rfl (.raw 4 5) (.raw 4 5) _ _ rfl rfl

/-- C78. The text of a `KeyData` that answers eight words is their bytes in memory order, two digits each.
Two of them have the same text exactly if they have the same words. -/
theorem C78_key_text (kd : Magma.KeyData) (ws : List W32) (hw : ws.length = 8)
    (h : ∀ i : Fin 8, kd (i.val : Int) = .ok (ws.getD i.val 0)) :
    keyDataRepr kd = .ok (bytesText (ws.flatMap bytes32)) ∧
    ∀ (kd' : Magma.KeyData) (ws' : List W32), ws'.length = 8 →
      (∀ i : Fin 8, kd' (i.val : Int) = .ok (ws'.getD i.val 0)) →
      (keyDataRepr kd = keyDataRepr kd' ↔ ws = ws') := by
  have main : ∀ (kd : Magma.KeyData) (ws : List W32), ws.length = 8 →
      (∀ i : Fin 8, kd (i.val : Int) = .ok (ws.getD i.val 0)) →
      keyDataRepr kd = .ok (bytesText (ws.flatMap bytes32)) := by
    intro kd ws hw h
    have loop : ∀ (n k : Nat), n + k = 8 → keyDataLoop kd n (k : Int) =
        .ok (bytesText ((ws.drop k).flatMap bytes32)) := by
      intro n
      induction n with
      | zero => intro k hk; rw [keyDataLoop, List.drop_eq_nil_of_le (by omega)]; rfl
      | succ n ih =>
        intro k hk
        have e := h ⟨k, by omega⟩
        simp only at e
        rw [keyDataLoop, e, Exec.ok_bind]
        have := ih (k + 1) (by omega)
        rw [Int.natCast_add] at this
        rw [show ((k : Int) + 1) = (k : Int) + ((1 : Nat) : Int) from rfl, this, Exec.ok_bind,
          Exec.pure_eq, putPadded_htonl]
        have hd : ws.drop k = ws.getD k 0 :: ws.drop (k + 1) := by
          rw [List.drop_eq_getElem_cons (by omega), List.getD, List.getElem?_eq_getElem (by omega), Option.getD_some]
        rw [hd, List.flatMap_cons, bytesText_append]
    exact loop 8 0 rfl
  refine ⟨main kd ws hw h, fun kd' ws' hw' h' => ?_⟩
  rw [main kd ws hw h, main kd' ws' hw' h']
  refine ⟨fun e => ?_, fun e => by rw [e]⟩
  have e := (C78_sink (W := Unit)).2.2.2 (ws.flatMap bytes32) (ws'.flatMap bytes32) |>.1 (by
    rw [(C78_sink (W := Unit)).2.2.1, (C78_sink (W := Unit)).2.2.1]; exact Exec.ok.inj e)
  exact flatMap_bytes32_inj e

example := C78_key_text (Magma.KeyDataNative [1, 2, 3, 4, 5, 6, 7, 0x89abcdef]) [1, 2, 3, 4, 5, 6, 7, 0x89abcdef] rfl
  (by decide)

/-- C78. The texts of a substituted word and of a block encrypted by `EncryptionBase` are the numbers with
8 and 16 digits; what fails in the code fails in the text. -/
theorem C78_number_texts (sbox : Magma.Sbox) (x : W32) (key : Magma.Key) (b : W64) :
    transformedRepr sbox x = (sbox x >>= fun r => .ok (hexText 8 r.toNat)) ∧
    encryptionBaseRepr key b =
      (Magma.EncryptionBase.transform key b >>= fun r => .ok (hexText 16 r.toNat)) := by
  constructor
  · rw [transformedRepr]
    congr 1; funext r
    rw [Exec.pure_eq, putPadded_eq 7 _ r.isLt]
  · rw [encryptionBaseRepr]
    congr 1; funext r
    rw [Exec.pure_eq, putPadded_eq 15 _ r.isLt]

/-- C78. A block passes the comparison with a text exactly if the text is its number with all digits. -/
theorem C78_block_shows (m : Machine) (a : Magma.Blk) (v : W32 × W32) (ha : a.value m = .ok v)
    (a' : Kuz.Blk) (u : W64 × W64) (ha' : a'.value m = .ok u) (text : List Char) :
    magmaBlockShows m a text = .ok (decide (text = hexText 16 (join32 v).toNat)) ∧
    kuzBlockShows m a' text = .ok (decide (text = hexText 32 (join64 u).toNat)) := by
  have h := C78_block_text m v u
  constructor
  · rw [magmaBlockShows, ha, Exec.ok_bind, Exec.pure_eq, h.1]
    generalize hexText 16 (join32 v).toNat = t
    congr 1
    rw [Bool.eq_iff_iff, beq_iff_eq, decide_eq_true_iff]
    exact eq_comm
  · rw [kuzBlockShows, ha', Exec.ok_bind, Exec.pure_eq, h.2.2.1]
    generalize hexText 32 (join64 u).toNat = t
    congr 1
    rw [Bool.eq_iff_iff, beq_iff_eq, decide_eq_true_iff]
    exact eq_comm

example (m : Machine) := C78_block_shows m (.raw 1 2) _ rfl (.raw 4 5) _ rfl "0000000200000001".toList

/-- C78. `BlkOfStream(stream, n)` is the block number `n` of the stream, whatever the stream does. The high
and the low block of a key text are its first and its second 32 digits. -/
theorem C78_block_of_stream {ι : Type} (it : Kuz.IterImpl ι) (start : Exec (Option ι)) (n : Nat)
    (m : Machine) (s : List Char) (hs : IsHex s) (hl : s.length = 64) :
    BlkOfStream.value it start n = blockAt it start n ∧
    (∃ v, BlkKeyDataHigh.value m s = .ok v ∧ join64 v = BitVec.ofNat 128 (hexNat (s.take 32))) ∧
    ∃ v, BlkKeyDataLow.value m s = .ok v ∧ join64 v = BitVec.ofNat 128 (hexNat (s.drop 32)) := by
  refine ⟨?_, ?_, ?_⟩
  · rw [BlkOfStream.value, blockAt]
    congr 1; funext p
    induction n generalizing p with
    | zero => cases p <;> rfl
    | succ n ih =>
      match p with
      | none => rfl
      | some i =>
        show ((it.next i >>= BlkOfStream.loop it n) >>= fun p => Kuz.deref p it.value) =
          ((it.next i >>= fun p => match p with
            | some j => advance it n j
            | none => .ok none) >>= fun p => Kuz.deref p it.value)
        rw [bind_assoc, bind_assoc]
        congr 1; funext q
        rw [ih q]
        cases q <;> rfl
  · have e : BlkKeyDataHigh.value m s = (Kuz.Blk.str (s.take 32)).value m := by
      simp [BlkKeyDataHigh.value, Kuz.KeyDataString.high, substr]
    rw [e]
    exact Kuz.str_value m (hs.take _) (by simp; omega)
  · have e : BlkKeyDataLow.value m s = (Kuz.Blk.str (s.drop 32)).value m := by
      have : (s.drop 32).take 32 = s.drop 32 := List.take_of_length_le (by simp; omega)
      simp [BlkKeyDataLow.value, Kuz.KeyDataString.low, substr, hl, this]
    rw [e]
    exact Kuz.str_value m (hs.drop _) (by simp; omega)

/-- Cases that meet the hypotheses, and what the texts look like. -/
example : keyDataRepr (Magma.KeyDataNative [1, 2, 3, 4, 5, 6, 7, 0x89abcdef]) =
      .ok "01000000020000000300000004000000050000000600000007000000efcdab89".toList ∧
    (∀ i : Fin 8, Magma.KeyDataNative [1, 2, 3, 4, 5, 6, 7, 0x89abcdef] (i.val : Int) =
      .ok ([1, 2, 3, 4, 5, 6, 7, 0x89abcdef].getD i.val 0)) ∧
    transformedRepr Magma.SboxR3412 0 = .ok "be5b60c2".toList := by
  decide +kernel

example : magmaRepr (0x12ab, 7) = "00000007000012ab".toList ∧
    bytesText [0x0f, 0xa0] = "0fa0".toList := by decide

/-! ### C79 -/

/-- C79: the outcome of `HexMatch`, in all cases: it passes if the expected digits are the beginning of
the text, reads outside of the text if the text is shorter and agrees as far as it goes, and fails
otherwise. -/
theorem C79_hexmatch_outcome (hex origin : List Char) :
    HexMatch.accepts hex origin =
      if upper (hexDigitsOf hex) <+: upper origin then .ok true
      else if upper origin <+: upper (hexDigitsOf hex) then .ub .oobRead
      else .ok false := by
  rw [HexMatch.accepts, filter_isxdigit, equalUpper_eq]

/-- C79: the outcome of `SourceMatch` over a source with the bytes `d`, in all cases. The source need
supply them only to reads of sizes that a `size_t` can have. -/
theorem C79_sourcematch_outcome (rd : σ → Nat → Io W (List Byte × σ)) (s : σ) (w : W) (d : List Byte)
    (hs : ∃ R : σ → W → List Byte → Prop, R s w d ∧ ∀ s w d, R s w d → ∀ n, n < 2 ^ 64 →
      ∃ s' w', rd s n w = (.ok (d.take n, s'), w') ∧ R s' w' (d.drop n)) (fuel : Nat) (hf : d.length < fuel) (origin : List Char) :
    ∃ w', SourceMatch.accepts rd fuel s origin w =
      (if upper (bytesText d) <+: upper origin then .ok true
      else if upper origin <+: upper (bytesText d) then .ub .oobRead
      else .ok false, w') := by
  obtain ⟨R, h1, h2⟩ := hs
  obtain ⟨w', e⟩ := SourceText_eq rd R (by
    intro s w d hr
    obtain ⟨s', w', e, r⟩ := h2 s w d hr sizeMax (by decide)
    by_cases hd : d = []
    · exact ⟨s', w', .inl ⟨hd, by rw [e, hd]; rfl⟩⟩
    · exact ⟨s', w', .inr ⟨sizeMax, by decide, hd, e, r⟩⟩) fuel s w d [] h1 hf
  refine ⟨w', ?_⟩
  rw [SourceMatch.accepts, SourceText.asString, Io.bind_run_ok e, List.nil_append, equalUpper_eq]
  rfl

example := C79_sourcematch_outcome (memRead (W := Unit)) sampleData () sampleData
  ⟨fun s _ d => s = d, rfl, by rintro s w _ rfl n -; exact ⟨_, _, rfl, rfl⟩⟩ 25 (by decide) "31".toList

/-- C79 is false of the code: whatever follows the expected digits is accepted. -/
theorem C79_surplus_accepted (hex junk : List Char) :
    HexMatch.accepts hex (hexDigitsOf hex ++ junk) = .ok true := by
  rw [C79_hexmatch_outcome, if_pos]
  rw [upper, upper, List.map_append]
  exact List.prefix_append _ _

/-- C79 is false of the code: a result that breaks off before the end of the expected digits is read out
of bounds. -/
theorem C79_short_undefined (hex : List Char) (n : Nat) (hn : n < (hexDigitsOf hex).length) :
    HexMatch.accepts hex ((hexDigitsOf hex).take n) = .ub .oobRead := by
  rw [C79_hexmatch_outcome, if_neg, if_pos]
  · rw [upper, upper, List.map_take]; exact List.take_prefix _ _
  · intro h
    have := h.length_le
    rw [upper, upper, List.length_map, List.length_map, List.length_take] at this
    omega

example := C79_short_undefined "ab cd".toList 3 (by decide)

/-- C79, the part that holds: a result of the expected length passes exactly if it is the expected text,
upper and lower case not distinguished. -/
theorem C79_same_length_partial (hex origin : List Char) (h : origin.length = (hexDigitsOf hex).length) :
    HexMatch.accepts hex origin = .ok (decide (upper origin = upper (hexDigitsOf hex))) := by
  have l : (upper origin).length = (upper (hexDigitsOf hex)).length := by
    rw [upper, upper, List.length_map, List.length_map, h]
  rw [C79_hexmatch_outcome]
  by_cases e : upper origin = upper (hexDigitsOf hex)
  · rw [if_pos (by rw [e]; exact List.prefix_refl _), decide_eq_true e]
  · rw [if_neg (fun p => e (p.eq_of_length l.symm).symm), if_neg (fun p => e (p.eq_of_length l)),
      decide_eq_false e]

example : HexMatch.accepts "ab cd".toList "ABCD".toList = .ok true ∧
    HexMatch.accepts "ab cd".toList "ABCE".toList = .ok false ∧
    HexMatch.accepts "".toList "anything".toList = .ok true := by decide

/-! ### C80 -/

/-- Writing pieces to a `TestSink`. -/
private theorem TestSink_writeAll (ps : List (List Byte)) : ∀ s : List Byte,
    writeAll (TestSink.write (W := W)) s ps = pure (s ++ ps.flatten) := by
  induction ps with
  | nil => intro s; simp
  | cons p ps ih =>
    intro s
    rw [writeAll_cons, TestSink.write, pure_bind, ih, List.flatten_cons, List.append_assoc]

private theorem writeAll_one (wr : τ → List Byte → Io W τ) (s : τ) (x : List Byte) :
    writeAll wr s [x] = wr s x := by
  rw [writeAll_cons]
  exact bind_pure _

/-- C80: the text of a test of `CFBSink` is the CFB ciphertext of the words of its input. (Longer
inputs than a `size_t` can count do not exist.) -/
theorem C80_cfb_sink (m : Machine) (key : Magma.Key) (f : Fin 8 → BitVec 32 → BitVec 32)
    (h : Computes key f) (hl : key.isLazy = true) (ivl ivr : BitVec 64) (text : List Char)
    (ht : 8 * (hexWords text).length < 2 ^ 64) (w : W) :
    TestSinkText.asString (Magma.CFBSink.write m TestSink.write) (Magma.CFBSink.finalize m TestSink.write)
        Hex64Source.read (Magma.CFBSink.new [] key ivl ivr) text w =
      (.ok (bytesText (unblocks64 (cfbEnc (encF f) [ivl, ivr] (hexWords text)))), w) := by
  obtain ⟨rest, e1, -⟩ := C77_read text sizeMax w
  rw [List.take_of_length_le (by rw [sizeMax]; omega)] at e1
  rw [TestSinkText.asString, Io.bind_run_ok e1]
  have st := C18_state m (TestSink.write (W := W)) [] key f h hl ivl ivr [unblocks64 (hexWords text)] _ rfl
  rw [writeAll_one, TestSink_writeAll, pure_bind] at st
  simp only [List.flatten_cons, List.flatten_nil, List.append_nil, blocks64_unblocks64] at st
  rw [List.drop_eq_nil_of_le (by rw [unblocks64_length]; omega)] at st
  simp only [st, pure_bind]
  rw [(C21_nothing_held_back_partial m TestSink.write _ rfl ⟨[], key, 0, []⟩ rfl).1, pure_bind]
  simp only [TestSink.asHexString, flatMap_putHex]
  rfl

/-- C80 for the `gost89::CFBSink`. -/
theorem C80_gost89_cfb_sink (m : Machine) (key : Magma.Key) (f : Fin 8 → BitVec 32 → BitVec 32)
    (h : Computes key f) (hl : key.isLazy = true) (iv : BitVec 64) (text : List Char)
    (ht : 8 * (hexWords text).length < 2 ^ 64) (w : W) :
    TestSinkText.asString (Gost89.CFBSink.write m TestSink.write)
        (Gost89.CFBSink.finalize m TestSink.write)
        Hex64Source.read (Gost89.CFBSink.new [] key iv) text w =
      (.ok (bytesText (unblocks64 (cfbEnc (encF f) [iv] (hexWords text)))), w) := by
  obtain ⟨rest, e1, -⟩ := C77_read text sizeMax w
  rw [List.take_of_length_le (by rw [sizeMax]; omega)] at e1
  rw [TestSinkText.asString, Io.bind_run_ok e1]
  have st := gost89_CFBSink_writes_eq m (TestSink.write (W := W)) h hl [unblocks64 (hexWords text)] [] iv _ rfl
  rw [writeAll_one, TestSink_writeAll, pure_bind] at st
  simp only [List.flatten_cons, List.flatten_nil, List.append_nil, blocks64_unblocks64] at st
  rw [List.drop_eq_nil_of_le (by rw [unblocks64_length]; omega)] at st
  simp only [st, pure_bind]
  rw [(C21_nothing_held_back_partial m TestSink.write ⟨[], key, 0, 0, []⟩ rfl _ rfl).2, pure_bind]
  simp only [TestSink.asHexString, flatMap_putHex]
  rfl

/-- C80: the text of a test of `ECBSink` is the ECB ciphertext of the words of its input. -/
theorem C80_ecb_sink (key : Magma.Key) (f : Fin 8 → BitVec 32 → BitVec 32) (h : Computes key f)
    (text : List Char) (ht : 8 * (hexWords text).length < 2 ^ 64) (w : W) :
    TestSinkText.asString (Magma.ECBSink.write TestSink.write) Magma.ECBSink.finalize
        Hex64Source.read ⟨[], key⟩ text w =
      (.ok (bytesText (unblocks64 (ecb (encF f) (hexWords text)))), w) := by
  obtain ⟨rest, e1, -⟩ := C77_read text sizeMax w
  rw [List.take_of_length_le (by rw [sizeMax]; omega)] at e1
  rw [TestSinkText.asString, Io.bind_run_ok e1]
  have st := C12_aligned_write (TestSink.write (W := W)) [] key f h (unblocks64 (hexWords text))
    (by rw [unblocks64_length]; omega)
  rw [TestSink_writeAll, pure_bind, blocks64_unblocks64] at st
  simp only [st, pure_bind, Magma.ECBSink.finalize, TestSink.asHexString, flatMap_putHex]
  rfl

/-- C80: the text of a source that supplies `d`. -/
private theorem text_of_supplies (rd : σ → Nat → Io W (List Byte × σ)) (s : σ) (w : W) (d : List Byte)
    (hs : Supplies rd s w d) (fuel : Nat) (hf : d.length < fuel) :
    ∃ w', SourceText.asString rd fuel s w = (.ok (bytesText d), w') := by
  obtain ⟨R, h1, h2⟩ := hs
  exact SourceText_eq rd R (by
    intro s w d hr
    obtain ⟨s', w', e, r⟩ := h2 s w d hr sizeMax
    by_cases hd : d = []
    · exact ⟨s', w', .inl ⟨hd, by rw [e, hd]; rfl⟩⟩
    · exact ⟨s', w', .inr ⟨sizeMax, by decide, hd, e, r⟩⟩) fuel s w d [] h1 hf

/-- C80: the texts of tests of the two `CFBSource`s are the CFB decryptions of the words of their
input. -/
theorem C80_cfb_source (m : Machine) (key : Magma.Key) (f : Fin 8 → BitVec 32 → BitVec 32)
    (h : Computes key f) (hl : key.isLazy = true) (ivl ivr iv : BitVec 64) (text : List Char)
    (fuel : Nat) (hf : 8 * (hexWords text).length < fuel) (w : W) :
    (∃ w', SourceText.asString (Magma.CFBSource.read m Hex64Source.read) fuel
        (Magma.CFBSource.new text key ivl ivr) w =
      (.ok (bytesText (unblocks64 (cfbDec (encF f) [ivl, ivr] (hexWords text)))), w')) ∧
    ∃ w', SourceText.asString (Gost89.CFBSource.read m Hex64Source.read) fuel
        (Gost89.CFBSource.new text key iv) w =
      (.ok (bytesText (unblocks64 (cfbDec (encF f) [iv] (hexWords text)))), w') := by
  have len : ∀ r : List (BitVec 64), r ≠ [] →
      (unblocks64 (cfbDec (encF f) r (hexWords text))).length < fuel := by
    intro r hr; rw [unblocks64_length, cfbDec_length _ _ _ hr]; exact hf
  exact ⟨text_of_supplies _ _ w _ (C22_magma_supplies m _ text w key f h hl ivl ivr _
      (C77_supplies_blocks text w)) fuel (len _ (by simp)),
    text_of_supplies _ _ w _ (C22_gost89_supplies m _ text w key f h hl iv _
      (C77_supplies_blocks text w)) fuel (len _ (by simp))⟩

/-- C80: the text of a test of `ECBSource` is the ECB decryption of the words of its input. -/
theorem C80_ecb_source (m : Machine) (key : Magma.Key) (f : Fin 8 → BitVec 32 → BitVec 32)
    (h : Computes key f) (hl : key.isLazy = true) (text : List Char) (fuel : Nat)
    (hf : 8 * (hexWords text).length < fuel) (w : W) :
    ∃ w', SourceText.asString (Magma.ECBSource.read m Hex64Source.read) fuel (.ecb text key) w =
      (.ok (bytesText (unblocks64 (ecb (decF f) (hexWords text)))), w') := by
  refine SourceText_eq (Magma.ECBSource.read m (Hex64Source.read (W := W)))
    (fun s _ d => ∃ t, s = .ecb t key ∧ d = unblocks64 (ecb (decF f) (hexWords t))) ?_ fuel _ w _ []
    ⟨text, rfl, rfl⟩ (by rw [unblocks64_length, ecb, List.length_map]; exact hf)
  rintro _ w _ ⟨t, rfl, rfl⟩
  obtain ⟨rest, e1, e2⟩ := C77_read (W := W) t 8 w
  obtain ⟨hb, he⟩ := C16_read_one_block m Hex64Source.read t rest key f h hl sizeMax (by decide) w w _ e1
  match hw : hexWords t with
  | [] =>
    rw [hw] at he
    exact ⟨_, _, .inl ⟨rfl, he rfl⟩⟩
  | x :: xs =>
    rw [hw] at hb e2
    have hx : unblocks64 ((x :: xs).take ((8 + 7) / 8)) = bytesOf64 x := by
      simp
    rw [hx] at hb
    have h8 : (bytesOf64 x).length = 8 := by simp [bytesOf64]
    have hd : (bytesOf64 (decF f x)).length = 8 := by simp [bytesOf64]
    refine ⟨.ecb rest key, w, .inr ⟨8, by decide, ?_, ?_, rest, rfl, ?_⟩⟩
    · intro e
      have := congrArg List.length e
      rw [unblocks64_length] at this
      simp [ecb] at this
    · rw [hb h8, block64_bytesOf64]
      simp only [ecb, List.map_cons, unblocks64_cons]
      rw [List.take_left' hd]
    · simp only [ecb, List.map_cons, unblocks64_cons]
      rw [List.drop_left' hd, e2]
      rfl

/-- C80, `Imit` over a text as in the test of `Imit`: the block is the authentication code of the words of
the text. -/
theorem C80_imit (key : Magma.Key) (f : Fin 8 → BitVec 32 → BitVec 32) (h : Computes key f)
    (text : List Char) (p : List (BitVec 64)) (last : BitVec 64) (ht : hexWords text = p ++ [last])
    (fuel : Nat) (hf : p.length < fuel) (w : W) :
    ∃ v w', Magma.Imit.value .x86 Hex64Source.read fuel text (some key) w = (.ok v, w') ∧
      join32 v = omac (encF f) (macK1 (encF f) 0x1b) p last :=
  C32_omac key f h Hex64Source.read text w p last (ht ▸ C77_supplies_blocks text w) fuel hf

/-- A case that meets the hypothesis: the message of the standard. -/
example : hexWords "92def06b3c130a59 db54c704f8189d20 4a98fb2e67a8024c 8912409b17b57e41".toList =
    [0x92def06b3c130a59, 0xdb54c704f8189d20, 0x4a98fb2e67a8024c] ++ [0x8912409b17b57e41] := by
  decide

/-- C80: the text of a `Hex64Source` is that of the bytes of its words. -/
theorem C80_expected_text (expected : List Char) (fuel : Nat)
    (hf : 8 * (hexWords expected).length < fuel) (w : W) :
    ∃ w', SourceText.asString Hex64Source.read fuel expected w =
      (.ok (bytesText (unblocks64 (hexWords expected))), w') := by
  refine SourceText_eq (Hex64Source.read (W := W)) (fun s _ d => d = unblocks64 (hexWords s)) ?_ fuel _ w _ []
    rfl (by rw [unblocks64_length]; exact hf)
  rintro s w _ rfl
  obtain ⟨rest, e1, e2⟩ := C77_read (W := W) s sizeMax w
  match hw : hexWords s with
  | [] => rw [hw] at e1; exact ⟨rest, w, .inl ⟨rfl, by rw [e1, List.take_nil]; rfl⟩⟩
  | x :: xs =>
    rw [hw] at e1 e2
    refine ⟨rest, w, .inr ⟨8 * ((sizeMax + 7) / 8), by decide, ?_, ?_, ?_⟩⟩
    · intro e
      have := congrArg List.length e
      rw [unblocks64_length] at this
      simp at this
    · rw [e1, unblocks64_take]
    · rw [unblocks64_drop, e2]

/-- C80, the verdict of a test of `CFBSink` whose expected text has as many words as its input: it passes
exactly if the expected words are the ciphertext. The expected text is given by a `Hex64Source`, as in the
tests. -/
theorem C80_verdict (m : Machine) (key : Magma.Key) (f : Fin 8 → BitVec 32 → BitVec 32)
    (h : Computes key f) (hl : key.isLazy = true) (ivl ivr : BitVec 64) (text expected : List Char)
    (ht : 8 * (hexWords text).length < 2 ^ 64)
    (he : (hexWords expected).length = (hexWords text).length) (fuel : Nat)
    (hf : 8 * (hexWords text).length < fuel) (w : W) :
    ∃ w', (do let origin ← TestSinkText.asString (Magma.CFBSink.write m TestSink.write)
                (Magma.CFBSink.finalize m TestSink.write) Hex64Source.read
                (Magma.CFBSink.new [] key ivl ivr) text
              SourceMatch.accepts Hex64Source.read fuel expected origin : Io W Bool) w =
      (.ok (decide (hexWords expected = cfbEnc (encF f) [ivl, ivr] (hexWords text))), w') := by
  obtain ⟨w', e⟩ := C80_expected_text (W := W) expected fuel (by rw [he]; exact hf) w
  refine ⟨w', ?_⟩
  rw [Io.bind_run_ok (C80_cfb_sink m key f h hl ivl ivr text ht w), SourceMatch.accepts, Io.bind_run_ok e,
    equalUpper_eq]
  have len : (unblocks64 (hexWords expected)).length =
      (unblocks64 (cfbEnc (encF f) [ivl, ivr] (hexWords text))).length := by
    rw [unblocks64_length, unblocks64_length, cfbEnc_length _ _ _ (by simp), he]
  show ((if _ then _ else if _ then _ else _ : Exec Bool), w') = _
  congr 1
  by_cases hp : hexWords expected = cfbEnc (encF f) [ivl, ivr] (hexWords text)
  · rw [if_pos (by rw [hp]; exact List.prefix_refl _), decide_eq_true hp]
  · have ne : ∀ a b : List (BitVec 64), unblocks64 a = unblocks64 b → a = b := by
      intro a b e
      have := congrArg blocks64 e
      rwa [blocks64_unblocks64, blocks64_unblocks64] at this
    rw [if_neg, if_neg, decide_eq_false hp]
    · rw [upper_bytesText_prefix]
      intro q
      exact hp (ne _ _ (q.eq_of_length len.symm).symm)
    · rw [upper_bytesText_prefix]
      intro q
      exact hp (ne _ _ (q.eq_of_length len))

example : Computes (Magma.LazyKey.ofString sampleKeyText)
      (fun i => g pi (keyWord (BitVec.ofNat 256 (hexNat sampleKeyText)) i)) ∧
    8 * (hexWords "92def06b3c130a59 db54c704f8189d20".toList).length ≤ sizeMax :=
  ⟨sampleKey_computes, by decide⟩

/-- C80, the comparison of the text of any result of whole words with an expected text of as many words: it
passes exactly if the words are the expected ones. -/
theorem C80_comparison (expected : List Char) (ws : List (BitVec 64))
    (he : (hexWords expected).length = ws.length) (fuel : Nat) (hf : 8 * ws.length < fuel) (w : W) :
    ∃ w', SourceMatch.accepts Hex64Source.read fuel expected (bytesText (unblocks64 ws)) w =
      (.ok (decide (hexWords expected = ws)), w') := by
  obtain ⟨w', e⟩ := C80_expected_text (W := W) expected fuel (by rw [he]; exact hf) w
  refine ⟨w', ?_⟩
  rw [SourceMatch.accepts, Io.bind_run_ok e, equalUpper_eq]
  have len : (unblocks64 (hexWords expected)).length = (unblocks64 ws).length := by
    rw [unblocks64_length, unblocks64_length, he]
  show ((if _ then _ else if _ then _ else _ : Exec Bool), w') = _
  congr 1
  by_cases hp : hexWords expected = ws
  · rw [if_pos (by rw [hp]; exact List.prefix_refl _), decide_eq_true hp]
  · have ne : ∀ a b : List (BitVec 64), unblocks64 a = unblocks64 b → a = b := by
      intro a b e
      have := congrArg blocks64 e
      rwa [blocks64_unblocks64, blocks64_unblocks64] at this
    rw [if_neg, if_neg, decide_eq_false hp]
    · rw [upper_bytesText_prefix]
      intro q
      exact hp (ne _ _ (q.eq_of_length len.symm).symm)
    · rw [upper_bytesText_prefix]
      intro q
      exact hp (ne _ _ (q.eq_of_length len))

example : (hexWords "92def06b3c130a59 db54c704f8189d20".toList).length =
    [0x92def06b3c130a59#64, 0xdb54c704f8189d21].length := by decide

/-- C80, the verdicts of tests of `gost89::CFBSink` and `ECBSink` whose expected text has as many words as
the input: they pass exactly if the expected words are the ciphertext. -/
theorem C80_sink_verdicts (m : Machine) (key : Magma.Key) (f : Fin 8 → BitVec 32 → BitVec 32)
    (h : Computes key f) (hl : key.isLazy = true) (iv : BitVec 64) (text expected : List Char)
    (ht : 8 * (hexWords text).length < 2 ^ 64)
    (he : (hexWords expected).length = (hexWords text).length) (fuel : Nat)
    (hf : 8 * (hexWords text).length < fuel) (w : W) :
    (∃ w', (do let origin ← TestSinkText.asString (Gost89.CFBSink.write m TestSink.write)
                 (Gost89.CFBSink.finalize m TestSink.write) Hex64Source.read
                 (Gost89.CFBSink.new [] key iv) text
               SourceMatch.accepts Hex64Source.read fuel expected origin : Io W Bool) w =
      (.ok (decide (hexWords expected = cfbEnc (encF f) [iv] (hexWords text))), w')) ∧
    ∃ w', (do let origin ← TestSinkText.asString (Magma.ECBSink.write TestSink.write) Magma.ECBSink.finalize
                Hex64Source.read ⟨[], key⟩ text
              SourceMatch.accepts Hex64Source.read fuel expected origin : Io W Bool) w =
      (.ok (decide (hexWords expected = ecb (encF f) (hexWords text))), w') := by
  constructor
  · have hlen := cfbEnc_length (encF f) [iv] (hexWords text) (by simp)
    obtain ⟨w', e⟩ := C80_comparison (W := W) expected (cfbEnc (encF f) [iv] (hexWords text)) (by rw [hlen, he])
      fuel (by rw [hlen]; exact hf) w
    exact ⟨w', by rw [Io.bind_run_ok (C80_gost89_cfb_sink m key f h hl iv text ht w), e]⟩
  · have hlen : (ecb (encF f) (hexWords text)).length = (hexWords text).length := by simp [ecb]
    obtain ⟨w', e⟩ := C80_comparison (W := W) expected (ecb (encF f) (hexWords text)) (by rw [hlen, he])
      fuel (by rw [hlen]; exact hf) w
    exact ⟨w', by rw [Io.bind_run_ok (C80_ecb_sink key f h text ht w), e]⟩

/-- C80, the verdicts of tests of the sources: they pass exactly if the expected words are the decryption. -/
theorem C80_source_verdicts (m : Machine) (key : Magma.Key) (f : Fin 8 → BitVec 32 → BitVec 32)
    (h : Computes key f) (hl : key.isLazy = true) (ivl ivr iv : BitVec 64) (text expected : List Char)
    (he : (hexWords expected).length = (hexWords text).length) (fuel : Nat)
    (hf : 8 * (hexWords text).length < fuel) (w : W) :
    (∃ w', (do let origin ← SourceText.asString (Magma.CFBSource.read m Hex64Source.read) fuel
                 (Magma.CFBSource.new text key ivl ivr)
               SourceMatch.accepts Hex64Source.read fuel expected origin : Io W Bool) w =
      (.ok (decide (hexWords expected = cfbDec (encF f) [ivl, ivr] (hexWords text))), w')) ∧
    (∃ w', (do let origin ← SourceText.asString (Gost89.CFBSource.read m Hex64Source.read) fuel
                 (Gost89.CFBSource.new text key iv)
               SourceMatch.accepts Hex64Source.read fuel expected origin : Io W Bool) w =
      (.ok (decide (hexWords expected = cfbDec (encF f) [iv] (hexWords text))), w')) ∧
    ∃ w', (do let origin ← SourceText.asString (Magma.ECBSource.read m Hex64Source.read) fuel (.ecb text key)
              SourceMatch.accepts Hex64Source.read fuel expected origin : Io W Bool) w =
      (.ok (decide (hexWords expected = ecb (decF f) (hexWords text))), w') := by
  obtain ⟨⟨w1, e1⟩, w2, e2⟩ := C80_cfb_source (W := W) m key f h hl ivl ivr iv text fuel hf w
  obtain ⟨w3, e3⟩ := C80_ecb_source (W := W) m key f h hl text fuel hf w
  have l1 := cfbDec_length (encF f) [ivl, ivr] (hexWords text) (by simp)
  have l2 := cfbDec_length (encF f) [iv] (hexWords text) (by simp)
  have l3 : (ecb (decF f) (hexWords text)).length = (hexWords text).length := by simp [ecb]
  obtain ⟨v1, d1⟩ := C80_comparison (W := W) expected (cfbDec (encF f) [ivl, ivr] (hexWords text))
    (by rw [l1, he]) fuel (by rw [l1]; exact hf) w1
  obtain ⟨v2, d2⟩ := C80_comparison (W := W) expected (cfbDec (encF f) [iv] (hexWords text))
    (by rw [l2, he]) fuel (by rw [l2]; exact hf) w2
  obtain ⟨v3, d3⟩ := C80_comparison (W := W) expected (ecb (decF f) (hexWords text))
    (by rw [l3, he]) fuel (by rw [l3]; exact hf) w3
  exact ⟨⟨v1, by rw [Io.bind_run_ok e1, d1]⟩, ⟨v2, by rw [Io.bind_run_ok e2, d2]⟩,
    v3, by rw [Io.bind_run_ok e3, d3]⟩

example (m : Machine) (w : W) := C80_sink_verdicts (W := W) m _ _ sampleKey_computes rfl 5 "92def06b3c130a59 db54c704f8189d20".toList
  "2b073f0494f372a0 de70e715d3556e48".toList (by decide) (by decide) 17 (by decide) w

example (m : Machine) (w : W) := C80_source_verdicts (W := W) m _ _ sampleKey_computes rfl 1 2 5
  "92def06b3c130a59 db54c704f8189d20".toList "2b073f0494f372a0 de70e715d3556e48".toList (by decide) 17 (by decide) w

/-! ### C81 -/

/-- C81. The container of the tests, made from 64 digits, is the same key as the text itself: the packed
table in it is the substitution of GOST R 34.12-2015. -/
theorem C81_container_is_text_key_partial (s : List Char) (hs : IsHex s) (hl : s.length = 64) :
    ∃ key, HexContainer.makeKey s = .ok key ∧ key.isLazy = true ∧
      ∀ (v : BitVec 32) (i : Fin 8), key.transform v i.val =
        (Magma.LazyKey.ofString s).transform v i.val := by
  obtain ⟨k, e, lk, hk⟩ := keyLoop_hex 32 s hs (by omega)
  refine ⟨Magma.LazyKey.ofNative (Magma.keyWords (BitVec.ofNat 256 (hexNat s)))
      (Magma.SboxTwisted (Magma.SboxByte HexContainer.sbox)), ?_, rfl, ?_⟩
  · rw [HexContainer.makeKey, HexContainer.key, if_neg (by simp [hl]), e, Exec.ok_bind,
      Magma.makeKey_eq lk rfl, hk]
  · intro v i
    have h1 := Magma.LazyKey_ofNative_computes
      (kd := Magma.keyWords (BitVec.ofNat 256 (hexNat s))) (by rw [Magma.keyWords_length]; omega)
      (sbox := Magma.SboxTwisted (Magma.SboxByte HexContainer.sbox))
      (t := fun v => (t (packedRows HexContainer.sbox) v).rotateLeft 11)
      (fun v => Magma.SboxTwisted_eq (Magma.SboxByte_eq (by decide) v)) v i
    rw [h1, Magma.LazyKey_ofString_computes hs hl v i]
    simp only [packedRows_sbox, g, Magma.keyWords_get]

/-- C81, malformed texts. A text of another length is rejected. Of 64 characters, if some are white space
and the others digits, uninitialised characters are read. -/
theorem C81_malformed_texts (s : List Char) :
    (s.length ≠ 64 → HexContainer.makeKey s = .throw (.runtimeError "Wrong key size")) ∧
    (s.length = 64 → (∃ c ∈ s, isSpaceC c = true) →
      (∀ c ∈ s, (hexDigit c).isSome ∨ isSpaceC c = true) → HexContainer.makeKey s = .ub .uninit) := by
  constructor
  · intro h
    rw [HexContainer.makeKey, HexContainer.key, if_pos h]; rfl
  · rintro h ⟨c, hc, sp⟩ hh
    rw [HexContainer.makeKey, HexContainer.key, if_neg (by simp [h]), keyLoop_short 32 s hh]
    · rfl
    · have hn : ¬ (hexDigit c).isSome := by
        intro hd; rw [(hex_plain hd).1] at sp; cases sp
      have : (hexDigitsOf s).length < s.length := by
        rw [hexDigitsOf]
        exact List.length_filter_lt_length_iff_exists.mpr ⟨c, hc, hn⟩
      omega

/-- C81, malformed texts: other characters can be accepted, witness `0x0x…`. -/
theorem C81_garbage_accepted :
    HexContainer.key (List.replicate 32 ['0', 'x']).flatten = .ok (List.replicate 32 0) := by decide

example : IsHex sampleKeyText ∧ sampleKeyText.length = 64 := by decide

/-! The theorems of C80 and C81 at the key of the standard's example. -/

example (m : Machine) := C80_cfb_sink (W := Unit) m _ _ sampleKey_computes rfl 1 2
  "92def06b3c130a59 db54c704f8189d20".toList (by decide)

example (m : Machine) := C80_gost89_cfb_sink (W := Unit) m _ _ sampleKey_computes rfl 1
  "92def06b3c130a59 db54c704f8189d20".toList (by decide)

example := C80_ecb_sink (W := Unit) _ _ sampleKey_computes "92def06b3c130a59 db54c704f8189d20".toList (by decide)

example (m : Machine) := C80_cfb_source (W := Unit) m _ _ sampleKey_computes rfl 1 2 3
  "92def06b3c130a59 db54c704f8189d20".toList 17 (by decide)

example (m : Machine) := C80_ecb_source (W := Unit) m _ _ sampleKey_computes rfl
  "92def06b3c130a59 db54c704f8189d20".toList 17 (by decide)

example := C80_expected_text (W := Unit) "92def06b3c130a59 db54c704f8189d20".toList 17 (by decide)

example := C81_container_is_text_key_partial sampleKeyText (by decide) (by decide)

end Goost.Props
