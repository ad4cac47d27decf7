import Verif.Lemmas.Resume
import Verif.Props.Growing
/-
Property C100: cipher feedback objects made by the constructors that take a register and pending
bytes, that is, encryption and decryption taken up again.
-/
namespace Goost.Props
open Goost.Magma Spec Spec.Magma Spec.Modes
variable {W σ τ : Type}

/-! ### Sinks -/

/-- C100, the part that holds for sinks: fewer than 8 pending bytes given to the constructor are
treated as if they had been written first. For any key, also a failing one, and any sink. Missing: 8
or more pending bytes, where it is false. -/
theorem C100_pending_partial (m : Machine) (wr : τ → List Byte → Io W τ) (s : τ) (key : Key)
    (ivl ivr iv : BitVec 64) (p d : List Byte) (hp : p.length < 8) :
    CFBSink.write m wr ⟨s, key, ivl, ivr, p⟩ d =
      CFBSink.write m wr (CFBSink.new s key ivl ivr) (p ++ d) ∧
    Gost89.CFBSink.write m wr ⟨s, key, iv, p⟩ d =
      Gost89.CFBSink.write m wr (Gost89.CFBSink.new s key iv) (p ++ d) := by
  constructor
  · rw [CFBSink_write_append]
    have := CFBSink_pending m wr key s ivl ivr p hp [] (by simpa using hp)
    simp only [CFBSink.write, CFBSink.new] at this ⊢
    rw [this]
    rfl
  · rw [gost89_CFBSink_write_append]
    have := gost89_CFBSink_pending m wr key s iv p hp [] (by simpa using hp)
    simp only [Gost89.CFBSink.write, Gost89.CFBSink.new] at this ⊢
    rw [this]
    rfl

example (m : Machine) (key : Key) := C100_pending_partial m (memWrite (W := Unit)) [] key 1 2 3 [4, 5, 6] sampleData (by decide)

/-- C100, the part that holds for sinks: encryption can be taken up again. After any writes a sink
made from the last two blocks of `ivl ‖ ivr ‖ ciphertext` and the bytes that do not make up a block,
with any key object for the same key, continues the ciphertext of the whole data. -/
theorem C100_resume_partial (m m' : Machine) (wr : τ → List Byte → Io W τ) (s : τ) (key key' : Key)
    (f : Fin 8 → BitVec 32 → BitVec 32) (h : Computes key f) (h' : Computes key' f)
    (hl : key.isLazy = true) (hl' : key'.isLazy = true) (ivl ivr : BitVec 64)
    (ds es : List (List Byte)) (c : List (BitVec 64))
    (hc : c = cfbEnc (encF f) [ivl, ivr] (blocks64 ds.flatten)) (l r : BitVec 64)
    (hlr : ([ivl, ivr] ++ c).drop c.length = [l, r]) :
    (do let t ← writeAll (CFBSink.write m wr) (CFBSink.new s key ivl ivr) ds
        let t' ← writeAll (CFBSink.write m' wr)
          ⟨t.sink, key', l, r, ds.flatten.drop (8 * (ds.flatten.length / 8))⟩ es
        pure t'.sink) =
      writeAll wr s ((cfbEnc (encF f) [ivl, ivr] (blocks64 (ds ++ es).flatten)).map bytesOf64) := by
  have g0 : ([ivl, ivr] ++ c).getD c.length 0 = l := by
    have := congrArg (·[0]?) hlr
    simp only [List.getElem?_drop] at this
    rw [List.getD_eq_getElem?_getD, ← Nat.add_zero c.length, this]; rfl
  have g1 : ([ivl, ivr] ++ c).getD (c.length + 1) 0 = r := by
    have := congrArg (·[1]?) hlr
    simp only [List.getElem?_drop] at this
    rw [List.getD_eq_getElem?_getD, this]; rfl
  rw [← C18_ciphertext m wr s key f h hl ivl ivr (ds ++ es), writeAll_append,
    C18_state m wr s key f h hl ivl ivr ds c hc, g0, g1]
  simp only [bind_assoc, pure_bind]
  congr 1
  funext s'
  have hp : (ds.flatten.drop (8 * (ds.flatten.length / 8))).length < 8 := by simp; omega
  rw [CFBSink_writes, CFBSink_writes, CFBSink.write, CFBSink.write,
    CFBSink_loop_eq m' wr h' hl' es.flatten _ hp s' l r _ rfl,
    CFBSink_loop_eq m wr h hl es.flatten _ hp s' l r _ rfl]
  simp only [bind_assoc, pure_bind]

example (m m' : Machine) := C100_resume_partial m m' (memWrite (W := Unit)) [] _ _ _ sampleKey_computes sampleKey_computes rfl rfl
  1 2 [sampleData.take 5, (sampleData.drop 5).take 8] [sampleData.drop 13] _ rfl _ _ rfl

/-- C100, the same for gost89: one block of register. -/
theorem C100_gost89_resume_partial (m m' : Machine) (wr : τ → List Byte → Io W τ) (s : τ)
    (key key' : Key) (f : Fin 8 → BitVec 32 → BitVec 32) (h : Computes key f) (h' : Computes key' f)
    (hl : key.isLazy = true) (hl' : key'.isLazy = true) (iv : BitVec 64)
    (ds es : List (List Byte)) (c : List (BitVec 64))
    (hc : c = cfbEnc (encF f) [iv] (blocks64 ds.flatten)) (r : BitVec 64)
    (hr : ([iv] ++ c).getLast? = some r) :
    (do let t ← writeAll (Gost89.CFBSink.write m wr) (Gost89.CFBSink.new s key iv) ds
        let t' ← writeAll (Gost89.CFBSink.write m' wr)
          ⟨t.sink, key', r, ds.flatten.drop (8 * (ds.flatten.length / 8))⟩ es
        pure t'.sink) =
      writeAll wr s ((cfbEnc (encF f) [iv] (blocks64 (ds ++ es).flatten)).map bytesOf64) := by
  have g0 : ([iv] ++ c).getD c.length 0 = r := by
    rw [List.getLast?_eq_getElem?] at hr
    rw [List.getD_eq_getElem?_getD]
    simp only [List.length_append, List.length_cons, List.length_nil, Nat.zero_add,
      Nat.add_sub_cancel_left] at hr
    rw [hr]; rfl
  rw [gost89_CFBSink_writes_eq m wr h hl ds s iv c hc, g0]
  have hw : writeAll wr s
      ((cfbEnc (encF f) [iv] (blocks64 (ds ++ es).flatten)).map bytesOf64) =
      (do let t ← writeAll (Gost89.CFBSink.write m wr) (Gost89.CFBSink.new s key iv) (ds ++ es)
          pure t.sink) := by
    rw [gost89_CFBSink_writes_eq m wr h hl (ds ++ es) s iv _ rfl, bind_assoc]
    simp
  rw [hw, writeAll_append, gost89_CFBSink_writes_eq m wr h hl ds s iv c hc, g0]
  simp only [bind_assoc, pure_bind]
  congr 1
  funext s'
  have hp : (ds.flatten.drop (8 * (ds.flatten.length / 8))).length < 8 := by simp; omega
  rw [gost89_CFBSink_writes, gost89_CFBSink_writes, Gost89.CFBSink.write, Gost89.CFBSink.write,
    gost89_CFBSink_loop_eq m' wr h' hl' es.flatten _ hp s' r _ rfl,
    gost89_CFBSink_loop_eq m wr h hl es.flatten _ hp s' r _ rfl]
  simp only [bind_assoc, pure_bind]

example (m m' : Machine) := C100_gost89_resume_partial m m' (memWrite (W := Unit)) [] _ _ _ sampleKey_computes sampleKey_computes
  rfl rfl 1 [sampleData.take 5, (sampleData.drop 5).take 8] [sampleData.drop 13] _ rfl _ rfl

/-- C100 is false of the code for 8 or more pending bytes: whatever is written, the underlying sink
gets nothing; everything is held back. For any key and any sink. -/
theorem C100_many_pending_stuck (m : Machine) (wr : τ → List Byte → Io W τ) (s : τ) (key : Key)
    (ivl ivr iv : BitVec 64) (p : List Byte) (hp : 8 ≤ p.length) (ds : List (List Byte)) :
    writeAll (CFBSink.write m wr) ⟨s, key, ivl, ivr, p⟩ ds =
      pure ⟨s, key, ivl, ivr, p ++ ds.flatten⟩ ∧
    writeAll (Gost89.CFBSink.write m wr) ⟨s, key, iv, p⟩ ds =
      pure ⟨s, key, iv, p ++ ds.flatten⟩ := by
  constructor
  · rw [CFBSink_writes, CFBSink.write, CFBSink_stuck m wr key s ivl ivr _ p hp]
  · rw [gost89_CFBSink_writes, Gost89.CFBSink.write, gost89_CFBSink_stuck m wr key s iv _ p hp]

example (m : Machine) (key : Key) := C100_many_pending_stuck m (memWrite (W := Unit)) [] key 1 2 3 sampleData (by decide)
  [[4], sampleData]

/-- C100, what such a sink sends when it is finalized: one piece, in which the first 8 bytes are
combined with the encrypted register, its halves swapped, and all the other bytes are in the
clear. -/
theorem C100_many_pending_in_clear (m : Machine) (wr : τ → List Byte → Io W τ) (s : τ) (key : Key)
    (f : Fin 8 → BitVec 32 → BitVec 32) (h : Computes key f) (hl : key.isLazy = true)
    (ivl ivr iv : BitVec 64) (p : List Byte) (hp : 8 ≤ p.length) (ds : List (List Byte))
    (d : List Byte) (hd : d = p ++ ds.flatten) :
    (do let t ← writeAll (CFBSink.write m wr) ⟨s, key, ivl, ivr, p⟩ ds
        CFBSink.finalize m wr t) =
      wr s (bytesOf64 (block64 (d.take 8) ^^^ (encF f ivl).rotateLeft 32) ++ d.drop 8) ∧
    (do let t ← writeAll (Gost89.CFBSink.write m wr) ⟨s, key, iv, p⟩ ds
        Gost89.CFBSink.finalize m wr t) =
      wr s (bytesOf64 (block64 (d.take 8) ^^^ (encF f iv).rotateLeft 32) ++ d.drop 8) := by
  obtain ⟨h1, h2⟩ := C100_many_pending_stuck m wr s key ivl ivr iv p hp ds
  have h8 : 8 ≤ d.length := by rw [hd, List.length_append]; omega
  have hne : d ≠ [] := by intro e; rw [e] at h8; simp at h8
  constructor
  · rw [h1, pure_bind, ← hd, CFBSink.finalize, if_pos hne]
    obtain ⟨e, he, hx⟩ := BlkEncrypted_ofU64 h m ivl
    rw [asLazy_of hl, he, Io.lift_ok_bind, xorWords_long h8, Io.lift_ok_bind, hx]
  · rw [h2, pure_bind, ← hd, Gost89.CFBSink.finalize, if_pos hne]
    obtain ⟨e, he, hx⟩ := BlkEncrypted_ofU64 h m iv
    rw [asLazy_of hl, he, Io.lift_ok_bind, xorWords_long h8, Io.lift_ok_bind, hx]

/-- 24 bytes in two parts, written by two sinks; and a sink with 11 pending bytes. -/
example : Computes (LazyKey.ofString sampleKeyText)
      (fun i => g pi (keyWord (BitVec.ofNat 256 (hexNat sampleKeyText)) i)) ∧
    (sampleData.take 7).length < 8 ∧ 8 ≤ (sampleData.take 11).length := by
  exact ⟨sampleKey_computes, by decide, by decide⟩

example (c : List (BitVec 64)) : ∃ l r, ([1, 2] ++ c).drop c.length = [l, r] := by
  have : (([1, 2] ++ c).drop c.length).length = 2 := by simp; omega
  match hx : ([1, 2] ++ c).drop c.length, this with
  | [l, r], _ => exact ⟨l, r, rfl⟩

/-! ### Sources -/

/-- C100 for sources: one made with pending bytes, however many, supplies these bytes unchanged and
then the decrypted bytes. -/
theorem C100_source_pending (m : Machine) (rd : σ → Nat → Io W (List Byte × σ)) (s : σ) (w : W)
    (key : Key) (f : Fin 8 → BitVec 32 → BitVec 32) (h : Computes key f) (hl : key.isLazy = true)
    (ivl ivr iv : BitVec 64) (p : List Byte) (c : List (BitVec 64))
    (hs : SuppliesBlocks rd s w (unblocks64 c)) :
    Supplies (CFBSource.read m rd) ⟨s, key, ivl, ivr, p⟩ w
      (p ++ unblocks64 (cfbDec (encF f) [ivl, ivr] c)) ∧
    Supplies (Gost89.CFBSource.read m rd) ⟨s, key, iv, p⟩ w
      (p ++ unblocks64 (cfbDec (encF f) [iv] c)) := by
  constructor
  · have := CFBSource_supplies_pending m rd h hl s w _ hs (by rw [unblocks64_length]; omega) ivl ivr p
    rwa [cfbPlain, blocks64_unblocks64] at this
  · have := gost89_CFBSource_supplies_pending m rd h hl s w _ hs (by rw [unblocks64_length]; omega)
      iv p
    rwa [cfbPlain, blocks64_unblocks64] at this

example (m : Machine) := C100_source_pending m (memRead (W := Unit)) (unblocks64 [5, 6]) () _ _ sampleKey_computes rfl 1 2 3
  [7, 8, 9] [5, 6] (memRead_supplies _ ()).blocks

/-- C100 for sources: decryption can be taken up again at any byte. A source made from the two blocks
of `ivl ‖ ivr ‖ ciphertext` before block `k`, and from bytes `n` to `8 k` of the plaintext, over a
source of the ciphertext from block `k` on, supplies the plaintext from byte `n` on. -/
theorem C100_source_resume (m : Machine) (rd : σ → Nat → Io W (List Byte × σ)) (s : σ) (w : W)
    (key : Key) (f : Fin 8 → BitVec 32 → BitVec 32) (h : Computes key f) (hl : key.isLazy = true)
    (ivl ivr : BitVec 64) (c : List (BitVec 64)) (n k : Nat) (hk : k ≤ c.length) (hn : n ≤ 8 * k)
    (l r : BitVec 64) (hlr : (([ivl, ivr] ++ c).drop k).take 2 = [l, r])
    (hs : SuppliesBlocks rd s w (unblocks64 (c.drop k))) (plain : List Byte)
    (hp : plain = unblocks64 (cfbDec (encF f) [ivl, ivr] c)) :
    Supplies (CFBSource.read m rd) ⟨s, key, l, r, (plain.take (8 * k)).drop n⟩ w (plain.drop n) := by
  have := (C100_source_pending m rd s w key f h hl l r 0 ((plain.take (8 * k)).drop n) _ hs).1
  have e : [l, r] ++ c.drop k = ([ivl, ivr] ++ c).drop k := by
    conv => rhs; rw [← List.take_append_drop 2 (([ivl, ivr] ++ c).drop k), hlr, List.drop_drop]
    rw [List.drop_append (i := k + 2), List.drop_of_length_le (l := [ivl, ivr]) (by simp)]
    simp
  rw [cfbDec_resume (encF f) [ivl, ivr] [l, r] c k (by simp) (by simp) e, ← unblocks64_drop, ← hp]
    at this
  have hd : plain.drop n = (plain.take (8 * k)).drop n ++ plain.drop (8 * k) := by
    have hlen : n ≤ (plain.take (8 * k)).length := by
      rw [List.length_take, hp, unblocks64_length, cfbDec_length _ _ _ (by simp)]
      omega
    conv => lhs; rw [← List.take_append_drop (8 * k) plain]
    rw [List.drop_append_of_le_length hlen]
  rwa [hd]

example (m : Machine) := C100_source_resume m (memRead (W := Unit)) (unblocks64 ([5, 6, 7, 8].drop 2)) () _ _ sampleKey_computes
  rfl 1 2 [5, 6, 7, 8] 11 2 (by decide) (by decide) _ _ rfl (memRead_supplies _ ()).blocks _ rfl

/-- C100, the same for gost89: the block before block `k`. -/
theorem C100_gost89_source_resume (m : Machine) (rd : σ → Nat → Io W (List Byte × σ)) (s : σ) (w : W)
    (key : Key) (f : Fin 8 → BitVec 32 → BitVec 32) (h : Computes key f) (hl : key.isLazy = true)
    (iv : BitVec 64) (c : List (BitVec 64)) (n k : Nat) (hk : k ≤ c.length) (hn : n ≤ 8 * k)
    (r : BitVec 64) (hr : ([iv] ++ c)[k]? = some r)
    (hs : SuppliesBlocks rd s w (unblocks64 (c.drop k))) (plain : List Byte)
    (hp : plain = unblocks64 (cfbDec (encF f) [iv] c)) :
    Supplies (Gost89.CFBSource.read m rd) ⟨s, key, r, (plain.take (8 * k)).drop n⟩ w
      (plain.drop n) := by
  have := (C100_source_pending m rd s w key f h hl 0 0 r ((plain.take (8 * k)).drop n) _ hs).2
  have e : [r] ++ c.drop k = ([iv] ++ c).drop k := by
    obtain ⟨hlt, rfl⟩ := List.getElem?_eq_some_iff.1 hr
    rw [List.drop_eq_getElem_cons hlt]
    simp
  rw [cfbDec_resume (encF f) [iv] [r] c k (by simp) (by simp) e, ← unblocks64_drop, ← hp] at this
  have hd : plain.drop n = (plain.take (8 * k)).drop n ++ plain.drop (8 * k) := by
    have hlen : n ≤ (plain.take (8 * k)).length := by
      rw [List.length_take, hp, unblocks64_length, cfbDec_length _ _ _ (by simp)]
      omega
    conv => lhs; rw [← List.take_append_drop (8 * k) plain]
    rw [List.drop_append_of_le_length hlen]
  rwa [hd]

/-- Block 2 of four, 3 bytes of it delivered. -/
example : (([1, 2] ++ [3, 4, 5, 6] : List (BitVec 64)).drop 2).take 2 = [3, 4] ∧ 11 ≤ 8 * 2 ∧
    SuppliesBlocks memRead (unblocks64 ([3, 4, 5, 6].drop 2)) () (unblocks64 ([3, 4, 5, 6].drop 2)) :=
  ⟨by decide, by decide, (memRead_supplies _ ()).blocks⟩

end Goost.Props
