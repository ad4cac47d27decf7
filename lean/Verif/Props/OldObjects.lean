import Verif.Lemmas.OldObjects
import Verif.Props.Growing
/-
Property C93: what happens if the caller ignores the object that `write` or `read` returns and goes on with
the old one.
-/
namespace Goost.Props
open Goost.Magma Spec Spec.Magma Spec.Modes
variable {W σ τ : Type}

/-! ### C93, sinks -/

/-- C93, CFB over a file: all pieces are written to the same object. The file gets each piece encrypted
from the initial register; the incomplete blocks at the ends of the pieces are lost. -/
theorem C93_cfb_same_object (m : Machine) (key : Key) (f : Fin 8 → BitVec 32 → BitVec 32)
    (h : Computes key f) (hl : key.isLazy = true) (ivl ivr : BitVec 64) (ds : List (List Byte))
    (file : List Byte) :
    writeEach (CFBSink.write m fileWrite) (CFBSink.new () key ivl ivr) ds file =
      (.ok (), file ++
        (ds.map fun d => unblocks64 (cfbEnc (encF f) [ivl, ivr] (blocks64 d))).flatten) :=
  writeEach_file _ _ _ ds (fun d _ file => CFBSink_write_file m h hl ivl ivr d file) file

example (m : Machine) := C93_cfb_same_object m _ _ sampleKey_computes rfl 1 2 [sampleData.take 13, sampleData] [9]

/-- C93 for `gost89::CFBSink`. -/
theorem C93_gost89_cfb_same_object (m : Machine) (key : Key) (f : Fin 8 → BitVec 32 → BitVec 32)
    (h : Computes key f) (hl : key.isLazy = true) (iv : BitVec 64) (ds : List (List Byte))
    (file : List Byte) :
    writeEach (Gost89.CFBSink.write m fileWrite) (Gost89.CFBSink.new () key iv) ds file =
      (.ok (), file ++
        (ds.map fun d => unblocks64 (cfbEnc (encF f) [iv] (blocks64 d))).flatten) :=
  writeEach_file _ _ _ ds (fun d _ file => gost89_CFBSink_write_file m h hl iv d file) file

example (m : Machine) := C93_gost89_cfb_same_object m _ _ sampleKey_computes rfl 1 [sampleData.take 13, sampleData] [9]

/-- C93: it reveals data. If two pieces of at least a block are written to the same object, the XOR of the
first blocks of the two pieces of ciphertext is the XOR of the first blocks of the data. -/
theorem C93_cfb_reveals (m : Machine) (key : Key) (h : Usable key) (hl : key.isLazy = true)
    (ivl ivr : BitVec 64) (a b : BitVec 64) (x y file : List Byte) :
    ∃ c1 c2 : List Byte,
      writeEach (CFBSink.write m fileWrite) (CFBSink.new () key ivl ivr)
        [bytesOf64 a ++ x, bytesOf64 b ++ y] file = (.ok (), file ++ c1 ++ c2) ∧
      c1.length = 8 * (1 + x.length / 8) ∧
      block64 (c1.take 8) ^^^ block64 (c2.take 8) = a ^^^ b := by
  obtain ⟨f, hf⟩ := h.computes
  have hb : ∀ (a : BitVec 64) (x : List Byte), blocks64 (bytesOf64 a ++ x) = a :: blocks64 x := by
    intro a x
    rw [blocks64_append (bytesOf64_length a), block64_bytesOf64]
  refine ⟨unblocks64 (cfbEnc (encF f) [ivl, ivr] (blocks64 (bytesOf64 a ++ x))),
    unblocks64 (cfbEnc (encF f) [ivl, ivr] (blocks64 (bytesOf64 b ++ y))), ?_, ?_, ?_⟩
  · rw [C93_cfb_same_object m key f hf hl]
    simp
  · rw [unblocks64_length, cfbEnc_length _ _ _ (by simp), hb, List.length_cons, blocks64_length]
    omega
  · rw [hb, hb]
    simp only [cfbEnc, unblocks64_cons]
    rw [List.take_left' (bytesOf64_length _), List.take_left' (bytesOf64_length _),
      block64_bytesOf64, block64_bytesOf64]
    rw [show a ^^^ encF f ivl ^^^ (b ^^^ encF f ivl) = a ^^^ b ^^^ (encF f ivl ^^^ encF f ivl) by ac_rfl]
    simp

example (m : Machine) := C93_cfb_reveals m _ sampleKey_computes.usable rfl 1 2 3 4 sampleData [5] [9]

/-- C93: pieces shorter than a block leave no trace at all, however many there are. -/
theorem C93_cfb_short_pieces_lost (m : Machine) (key : Key) (h : Usable key) (hl : key.isLazy = true)
    (ivl ivr : BitVec 64) (ds : List (List Byte)) (hd : ∀ d ∈ ds, d.length < 8) (file : List Byte) :
    writeEach (CFBSink.write m fileWrite) (CFBSink.new () key ivl ivr) ds file = (.ok (), file) := by
  obtain ⟨f, hf⟩ := h.computes
  rw [C93_cfb_same_object m key f hf hl]
  have : (ds.map fun d => unblocks64 (cfbEnc (encF f) [ivl, ivr] (blocks64 d))).flatten = [] := by
    rw [List.flatten_eq_nil_iff]
    intro l hm
    obtain ⟨d, hd', rfl⟩ := List.mem_map.1 hm
    rw [blocks64_short (hd d hd')]
    rfl
  rw [this, List.append_nil]

example (m : Machine) := C93_cfb_short_pieces_lost m _ sampleKey_computes.usable rfl 1 2 [sampleData.take 7, sampleData.take 3]
  (by decide) [9]

/-- C93, when it does no harm: two pieces of whole blocks. The file is the same as with the returned
object exactly if the register after the first piece agrees with the initial one as far as the second piece
uses it. -/
theorem C93_cfb_right_iff (m : Machine) (key : Key) (f : Fin 8 → BitVec 32 → BitVec 32)
    (h : Computes key f) (hl : key.isLazy = true) (ivl ivr : BitVec 64) (p q : List (BitVec 64))
    (file : List Byte) (c : List (BitVec 64)) (hc : c = cfbEnc (encF f) [ivl, ivr] p) :
    (writeEach (CFBSink.write m fileWrite) (CFBSink.new () key ivl ivr)
        [unblocks64 p, unblocks64 q] file).2 =
      (writeAll (CFBSink.write m fileWrite) (CFBSink.new () key ivl ivr)
        [unblocks64 p, unblocks64 q] file).2 ↔
    [ivl, ivr].take q.length = (([ivl, ivr] ++ c).drop p.length).take q.length := by
  have hcl : c.length = p.length := by rw [hc, cfbEnc_length _ _ _ (by simp)]
  have happ : ∀ (q p : List (BitVec 64)) (R : List (BitVec 64)), R ≠ [] →
      cfbEnc (encF f) R (p ++ q) = cfbEnc (encF f) R p ++
        cfbEnc (encF f) ((R ++ cfbEnc (encF f) R p).drop p.length) q := by
    intro q p
    induction p with
    | nil => intro R _; simp [cfbEnc]
    | cons x p ih =>
      intro R hR
      match R with
      | r :: R =>
        simp only [List.cons_append, cfbEnc, List.length_cons, List.drop_succ_cons]
        rw [ih _ (by simp)]
        simp [List.append_assoc]
  rw [C93_cfb_same_object m key f h hl, CFBSink_writes_eq m fileWrite h hl _ () ivl ivr _ rfl,
    Io.bind_run_ok (writeAll_file _ file)]
  have hfl : [unblocks64 p, unblocks64 q].flatten = unblocks64 (p ++ q) := by
    simp [unblocks64]
  rw [hfl, blocks64_unblocks64, happ q p _ (by simp), ← hc]
  have hlen : (([ivl, ivr] ++ c).drop p.length).length = 2 := by simp [hcl]; omega
  rw [← cfbEnc_eq_iff (encF f) (fun x y => encF_injective f) q [ivl, ivr] _ (by simp)
    (by rw [hlen]; rfl)]
  simp only [List.map_cons, List.map_nil, blocks64_unblocks64, ← hc]
  constructor
  · intro e
    have e' : file ++ [unblocks64 c, unblocks64 (cfbEnc (encF f) [ivl, ivr] q)].flatten =
        file ++ unblocks64 (c ++ cfbEnc (encF f) (([ivl, ivr] ++ c).drop p.length) q) := e
    have := List.append_cancel_left e'
    have h2 : [unblocks64 c, unblocks64 (cfbEnc (encF f) [ivl, ivr] q)].flatten =
        unblocks64 (c ++ cfbEnc (encF f) [ivl, ivr] q) := by simp [unblocks64]
    rw [h2] at this
    have := congrArg blocks64 this
    rw [blocks64_unblocks64, blocks64_unblocks64] at this
    exact List.append_cancel_left this
  · intro e
    show file ++ [unblocks64 c, unblocks64 (cfbEnc (encF f) [ivl, ivr] q)].flatten =
        file ++ unblocks64 (c ++ cfbEnc (encF f) (([ivl, ivr] ++ c).drop p.length) q)
    rw [← e]
    simp [unblocks64]

example (m : Machine) := C93_cfb_right_iff m _ _ sampleKey_computes rfl 1 2 [5, 6, 7] [8] [9] _ rfl

/-- C93 is false of CFB: one block and one more block, with two different halves of the initialization
vector, to the same object: the file is not the one that the returned object would have written. -/
theorem C93_cfb_wrong (m : Machine) (key : Key) (h : Usable key) (hl : key.isLazy = true)
    (ivl ivr : BitVec 64) (hne : ivl ≠ ivr) (a b : BitVec 64) (file : List Byte) :
    (writeEach (CFBSink.write m fileWrite) (CFBSink.new () key ivl ivr)
        [bytesOf64 a, bytesOf64 b] file).2 ≠
      (writeAll (CFBSink.write m fileWrite) (CFBSink.new () key ivl ivr)
        [bytesOf64 a, bytesOf64 b] file).2 := by
  obtain ⟨f, hf⟩ := h.computes
  have := C93_cfb_right_iff m key f hf hl ivl ivr [a] [b] file _ rfl
  simp only [unblocks64_cons, unblocks64_nil, List.append_nil] at this
  rw [Ne, this]
  simp [hne]

example (m : Machine) := C93_cfb_wrong m _ sampleKey_computes.usable rfl 1 2 (by decide) 5 6 [9]

/-- C93 for `gost89::CFBSink`: two blocks to the same object are right exactly if the first one happens to
be encrypted to the initialization vector. -/
theorem C93_gost89_cfb_right_iff (m : Machine) (key : Key) (f : Fin 8 → BitVec 32 → BitVec 32)
    (h : Computes key f) (hl : key.isLazy = true) (iv a b : BitVec 64) (file : List Byte) :
    (writeEach (Gost89.CFBSink.write m fileWrite) (Gost89.CFBSink.new () key iv)
        [bytesOf64 a, bytesOf64 b] file).2 =
      (writeAll (Gost89.CFBSink.write m fileWrite) (Gost89.CFBSink.new () key iv)
        [bytesOf64 a, bytesOf64 b] file).2 ↔ a ^^^ encF f iv = iv := by
  have hb : ∀ (l : List (BitVec 64)), blocks64 (l.map bytesOf64).flatten = l := blocks64_unblocks64
  have ha := hb [a]
  have hbb := hb [b]
  have hab := hb [a, b]
  simp only [List.map_cons, List.map_nil, List.flatten_cons, List.flatten_nil, List.append_nil] at ha hbb hab
  rw [C93_gost89_cfb_same_object m key f h hl, gost89_CFBSink_writes_eq m fileWrite h hl _ () iv _ rfl,
    Io.bind_run_ok (writeAll_file _ file)]
  simp only [List.map_cons, List.map_nil, List.flatten_cons, List.flatten_nil, List.append_nil, ha, hbb,
    hab, cfbEnc, unblocks64_cons, unblocks64_nil, List.nil_append]
  show file ++ (bytesOf64 (a ^^^ encF f iv) ++ bytesOf64 (b ^^^ encF f iv)) =
    file ++ (bytesOf64 (a ^^^ encF f iv) ++ bytesOf64 (b ^^^ encF f (a ^^^ encF f iv))) ↔ _
  constructor
  · intro e
    have e := congrArg block64 (List.append_cancel_left (List.append_cancel_left e))
    rw [block64_bytesOf64, block64_bytesOf64] at e
    have e := congrArg (b ^^^ ·) e
    simp only [← BitVec.xor_assoc, BitVec.xor_self, BitVec.zero_xor] at e
    exact (encF_injective f e).symm
  · intro e
    rw [e]

example (m : Machine) := C93_gost89_cfb_right_iff m _ _ sampleKey_computes rfl 1 5 6 [9]

/-- C93 for ECB, where it is true (whole blocks): writing all pieces to the same object writes the same
file as following the returned objects. -/
theorem C93_ecb_same_object_partial (key : Key) (h : Usable key) (ds : List (List Byte))
    (hd : ∀ d ∈ ds, d.length % 8 = 0) (file : List Byte) :
    ∃ t out, writeAll (ECBSink.write fileWrite) ⟨(), key⟩ ds file = (.ok t, file ++ out) ∧
      out.length = ds.flatten.length ∧
      writeEach (ECBSink.write fileWrite) ⟨(), key⟩ ds file = (.ok (), file ++ out) := by
  obtain ⟨f, hf⟩ := h.computes
  have one : ∀ d, d.length % 8 = 0 → ∀ file, ECBSink.write fileWrite ⟨(), key⟩ d file =
      (.ok ⟨(), key⟩, file ++ (ecbPieces f d).flatten) := by
    intro d hd file
    rw [ECBSink_write_eq fileWrite hf, Io.bind_run_ok (writeAll_file _ file), if_pos hd]
    rfl
  have all : ∀ ds : List (List Byte), (∀ d ∈ ds, d.length % 8 = 0) → ∀ file,
      writeAll (ECBSink.write fileWrite) ⟨(), key⟩ ds file =
        (.ok ⟨(), key⟩, file ++ (ds.map fun d => (ecbPieces f d).flatten).flatten) := by
    intro ds
    induction ds with
    | nil => intro _ file; simp; rfl
    | cons d ds ih =>
      intro hd file
      rw [writeAll_cons, Io.bind_run_ok (one d (hd d (by simp)) file),
        ih fun x hx => hd x (by simp [hx])]
      simp
  refine ⟨_, _, all ds hd file, ?_,
    writeEach_file _ _ _ ds (fun d hm file => ⟨_, one d (hd d hm) file⟩) file⟩
  clear all
  induction ds with
  | nil => rfl
  | cons d ds ih =>
    have e : (ecbPieces f d).flatten.length = d.length := by
      have h1 : (ecbPieces f d).flatten = unblocks64 (ecb (encF f) (blocks64 d)) := rfl
      rw [h1, unblocks64_length, ecb, List.length_map, blocks64_length]
      have := hd d (by simp)
      omega
    rw [List.map_cons, List.flatten_cons, List.length_append, ih fun x hx => hd x (by simp [hx]), e]
    simp

/-- Cases that meet the hypotheses: a usable key, pieces shorter than a block, pieces of whole blocks. -/
example : Usable (LazyKey.ofString sampleKeyText) ∧ (LazyKey.ofString sampleKeyText).isLazy = true ∧
    (∀ d ∈ [sampleData.take 7, sampleData.take 3], d.length < 8) ∧
    (∀ d ∈ [sampleData.take 8, sampleData.drop 8], d.length % 8 = 0) :=
  ⟨sampleKey_computes.usable, rfl, by decide, by decide⟩

/-- The difference is real: the standard's key and initialization vector, two blocks of the standard's
example. The second block of the file is not the standard's. -/
example : (writeEach (CFBSink.write .x86 fileWrite)
      (CFBSink.new () (LazyKey.ofString sampleKeyText) 0x1234567890abcdef 0x234567890abcdef1)
      [bytesOf64 0x92def06b3c130a59, bytesOf64 0xdb54c704f8189d20] []).2 ≠
    (writeAll (CFBSink.write .x86 fileWrite)
      (CFBSink.new () (LazyKey.ofString sampleKeyText) 0x1234567890abcdef 0x234567890abcdef1)
      [bytesOf64 0x92def06b3c130a59, bytesOf64 0xdb54c704f8189d20] []).2 :=
  C93_cfb_wrong .x86 _ sampleKey_computes.usable rfl _ _ (by decide) _ _ []

/-! ### C93, sources -/

/-- C93, CFB over a pipe (what has been read is gone): all pieces are read from the same object. Each is
decrypted from the initial register. -/
theorem C93_cfb_source_same_object (m : Machine) (key : Key) (f : Fin 8 → BitVec 32 → BitVec 32)
    (h : Computes key f) (hl : key.isLazy = true) (ivl ivr : BitVec 64) (cs : List (List (BitVec 64)))
    (rest : List Byte) :
    readEach (CFBSource.read m pipeRead) (CFBSource.new () key ivl ivr) (cs.map fun c => 8 * c.length)
        (unblocks64 cs.flatten ++ rest) =
      (.ok (cs.map fun c => unblocks64 (cfbDec (encF f) [ivl, ivr] c)), rest) := by
  induction cs with
  | nil => rfl
  | cons c cs ih =>
    obtain ⟨t, e, -⟩ := C72_reads_only_what_it_needs m pipeRead () () key f h hl ivl ivr (8 * c.length) c
      (by omega) _ _ (pipe_readsBlocks c (unblocks64 cs.flatten ++ rest))
    rw [← List.append_assoc, show unblocks64 c ++ unblocks64 cs.flatten =
      unblocks64 (c :: cs).flatten by simp [unblocks64]] at e
    rw [List.map_cons, readEach, Io.bind_run_ok e]
    simp only
    rw [Io.bind_run_ok ih, List.take_of_length_le (by
      rw [unblocks64_length, cfbDec_length _ _ _ (by simp)]; omega)]
    rfl

example (m : Machine) := C93_cfb_source_same_object m _ _ sampleKey_computes rfl 1 2 [[5], [6, 7]] [9]

/-- C93 for `gost89::CFBSource`. -/
theorem C93_gost89_cfb_source_same_object (m : Machine) (key : Key)
    (f : Fin 8 → BitVec 32 → BitVec 32) (h : Computes key f) (hl : key.isLazy = true) (iv : BitVec 64)
    (cs : List (List (BitVec 64))) (rest : List Byte) :
    readEach (Gost89.CFBSource.read m pipeRead) (Gost89.CFBSource.new () key iv)
        (cs.map fun c => 8 * c.length) (unblocks64 cs.flatten ++ rest) =
      (.ok (cs.map fun c => unblocks64 (cfbDec (encF f) [iv] c)), rest) := by
  induction cs with
  | nil => rfl
  | cons c cs ih =>
    obtain ⟨t, e, -⟩ := C72_gost89_reads_only_what_it_needs m pipeRead () () key f h hl iv (8 * c.length)
      c (by omega) _ _ (pipe_readsBlocks c (unblocks64 cs.flatten ++ rest))
    rw [← List.append_assoc, show unblocks64 c ++ unblocks64 cs.flatten =
      unblocks64 (c :: cs).flatten by simp [unblocks64]] at e
    rw [List.map_cons, readEach, Io.bind_run_ok e]
    simp only
    rw [Io.bind_run_ok ih, List.take_of_length_le (by
      rw [unblocks64_length, cfbDec_length _ _ _ (by simp)]; omega)]
    rfl

example (m : Machine) := C93_gost89_cfb_source_same_object m _ _ sampleKey_computes rfl 1 [[5], [6, 7]] [9]

/-- C93 is false of `CFBSource`: with two different halves of the initialization vector, the second block
read from the same object is wrong: it is not what the returned object would have given. -/
theorem C93_cfb_source_wrong (m : Machine) (key : Key) (h : Usable key) (hl : key.isLazy = true)
    (ivl ivr : BitVec 64) (hne : ivl ≠ ivr) (a b : BitVec 64) :
    ∃ x y y' t w', readEach (CFBSource.read m pipeRead) (CFBSource.new () key ivl ivr) [8, 8]
        (unblocks64 [a, b]) = (.ok [x, y], []) ∧
      readAll (CFBSource.read m pipeRead) (CFBSource.new () key ivl ivr) [8, 8]
        (unblocks64 [a, b]) = (.ok ([x, y'], t), w') ∧ y ≠ y' := by
  obtain ⟨f, hf⟩ := h.computes
  have hsup : SuppliesBlocks pipeRead () (unblocks64 [a, b]) (unblocks64 [a, b]) :=
    ⟨fun _ w d => w = d, rfl, fun _ w d hd => ⟨(), w.drop 8, by rw [← hd]; rfl, by rw [hd]⟩⟩
  have e1 := C93_cfb_source_same_object m key f hf hl ivl ivr [[a], [b]] []
  simp only [List.map_cons, List.map_nil, List.length_cons, List.length_nil, List.flatten_cons,
    List.flatten_nil, List.append_nil, cfbDec, unblocks64_cons, unblocks64_nil] at e1
  obtain ⟨R, h0, hR⟩ := CFBSource_supplies m pipeRead hf hl () _ _ hsup (by
    rw [unblocks64_length]; simp) ivl ivr
  obtain ⟨t1, w1, r1, h1⟩ := hR _ _ _ h0 8
  obtain ⟨t2, w2, r2, h2⟩ := hR _ _ _ h1 8
  have hpl : cfbPlain f [ivl, ivr] (unblocks64 [a, b]) =
      bytesOf64 (a ^^^ encF f ivl) ++ bytesOf64 (b ^^^ encF f ivr) := by
    rw [cfbPlain, blocks64_unblocks64]
    simp [cfbDec]
  rw [hpl, List.take_left' (bytesOf64_length _)] at r1
  rw [hpl, List.drop_left' (bytesOf64_length _), List.take_of_length_le (by simp)] at r2
  refine ⟨bytesOf64 (a ^^^ encF f ivl), bytesOf64 (b ^^^ encF f ivl), bytesOf64 (b ^^^ encF f ivr),
    t2, w2, ?_, ?_, ?_⟩
  · simpa using e1
  · rw [readAll, Io.bind_run_ok r1]
    simp only
    have r3 : readAll (CFBSource.read m pipeRead) t1 [8] w1 =
        (.ok ([bytesOf64 (b ^^^ encF f ivr)], t2), w2) := by
      rw [readAll, Io.bind_run_ok r2]
      rfl
    rw [Io.bind_run_ok r3]
    rfl
  · intro e
    have e := congrArg block64 e
    rw [block64_bytesOf64, block64_bytesOf64] at e
    have e := congrArg (b ^^^ ·) e
    simp only [← BitVec.xor_assoc, BitVec.xor_self, BitVec.zero_xor] at e
    exact hne (encF_injective f e)

example (m : Machine) := C93_cfb_source_wrong m _ sampleKey_computes.usable rfl 1 2 (by decide) 5 6

/-- C93 for ECB sources, where it is true: reading whole blocks from a pipe, all from the same object, gives
their decryptions, one by one. -/
theorem C93_ecb_source_same_object_partial (m : Machine) (key : Key)
    (f : Fin 8 → BitVec 32 → BitVec 32) (h : Computes key f) (hl : key.isLazy = true)
    (ns : List Nat) (hn : ∀ n ∈ ns, 8 ≤ n) (c : List (BitVec 64)) (hc : c.length = ns.length)
    (rest : List Byte) :
    readEach (ECBSource.read m pipeRead) (.ecb () key) ns (unblocks64 c ++ rest) =
        (.ok (c.map fun x => bytesOf64 (decF f x)), rest) ∧
      readAll (ECBSource.read m pipeRead) (.ecb () key) ns (unblocks64 c ++ rest) =
        (.ok (c.map fun x => bytesOf64 (decF f x), .ecb () key), rest) := by
  induction ns generalizing c with
  | nil =>
    obtain rfl := List.eq_nil_of_length_eq_zero hc
    exact ⟨rfl, rfl⟩
  | cons n ns ih =>
    match c with
    | x :: c =>
      obtain ⟨i1, i2⟩ := ih (fun n hn' => hn n (by simp [hn'])) c (by simpa using hc)
      have hr : pipeRead () 8 (unblocks64 (x :: c) ++ rest) = (.ok (bytesOf64 x, ()), unblocks64 c ++ rest) := by
        obtain ⟨_, _, e, rfl, rfl⟩ := pipe_readsBlocks [x] (unblocks64 c ++ rest)
        simpa using e
      have e := (C16_read_one_block m pipeRead () () key f h hl n (hn n (by simp)) _ _ _ hr).1
        (bytesOf64_length x)
      rw [block64_bytesOf64] at e
      constructor
      · rw [readEach, Io.bind_run_ok e]
        simp only
        rw [Io.bind_run_ok i1]
        rfl
      · rw [readAll, Io.bind_run_ok e]
        simp only
        rw [Io.bind_run_ok i2]
        rfl

example (m : Machine) := C93_ecb_source_same_object_partial m _ _ sampleKey_computes rfl [8, 100] (by decide) [5, 6] rfl [9]

/-- C93, sources whose position is in the object, and whose `read` leaves the world as it is (a file that
is read from a position, the test sources): a successful read can be repeated any number of times on the
same object, and always gives the same bytes. Any key, any state of the source, any size. -/
theorem C93_reread_partial (m : Machine) (rd : σ → Nat → Io W (List Byte × σ))
    (hr : ∀ s n w, (rd s n w).2 = w) (n k : Nat) (w : W) (x : List Byte) :
    (∀ (t t' : CFBSource σ), (CFBSource.read m rd t n w).1 = .ok (x, t') →
      readEach (CFBSource.read m rd) t (List.replicate k n) w = (.ok (List.replicate k x), w)) ∧
    (∀ (t t' : Gost89.CFBSource σ), (Gost89.CFBSource.read m rd t n w).1 = .ok (x, t') →
      readEach (Gost89.CFBSource.read m rd) t (List.replicate k n) w =
        (.ok (List.replicate k x), w)) ∧
    (∀ (t t' : ECBSource σ), (ECBSource.read m rd t n w).1 = .ok (x, t') →
      readEach (ECBSource.read m rd) t (List.replicate k n) w = (.ok (List.replicate k x), w)) :=
  ⟨fun t t' => readEach_quiet _ t (fun n => CFBSource_loop_quiet m rd hr t.key n _ _ _ _ _ _) n k w x t',
   fun t t' => readEach_quiet _ t
    (fun n => gost89_CFBSource_loop_quiet m rd hr t.key n _ _ _ _ _) n k w x t',
   fun t t' => readEach_quiet _ t (fun n => ECBSource_read_quiet m rd hr t n) n k w x t'⟩

/-- Cases that meet the hypotheses: reading a file leaves it as it is; sizes of at least 8. -/
example : (∀ n ∈ [8, 100], 8 ≤ n) ∧ ∀ s n w, (fileRead s n w).2 = w :=
  ⟨by decide, fun _ _ _ => rfl⟩

end Goost.Props
