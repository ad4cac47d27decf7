import Verif.Spec.Finalize
import Verif.Props.Cfb
import Verif.Props.Ecb
import Verif.Props.Layers
/-
Property C82: whether `finalize` of an encrypting sink reaches the sink below.
-/
namespace Goost.Props
open Goost.Magma Goost.Layers Spec Spec.Magma Spec.Modes

/-! ### C82 -/

/-- What `bufWrite` does with pieces. -/
private theorem buf_writeAll (ps : List (List Byte)) : ∀ b : Buffered,
    writeAll bufWrite () ps b = (.ok (), { b with pending := b.pending ++ ps.flatten }) := by
  induction ps with
  | nil => intro b; rw [writeAll_nil, List.flatten_nil, List.append_nil]; rfl
  | cons p ps ih =>
    intro b
    have e : bufWrite () p b = (.ok (), { b with pending := b.pending ++ p }) := rfl
    rw [writeAll_cons, Io.bind_run_ok e, ih]
    simp

/-- C82 is false of the code: after whole blocks have been written to an `ECBSink` or `CFBSink` over a
buffering sink, in any pieces, `finalize` returns the sink below as it is; the ciphertext stays in the
buffer. -/
theorem C82_not_finalized (m : Machine) (key : Key) (f : Fin 8 → BitVec 32 → BitVec 32)
    (h : Computes key f) (hl : key.isLazy = true) (ivl ivr iv : BitVec 64) (d : List Byte)
    (hd : d.length % 8 = 0) (ds : List (List Byte)) (hds : ds.flatten = d) :
    (do let t ← ECBSink.write bufWrite ⟨(), key⟩ d
        ECBSink.finalize t) {} = (.ok (), ⟨unblocks64 (ecb (encF f) (blocks64 d)), []⟩) ∧
    (do let t ← writeAll (CFBSink.write m bufWrite) (CFBSink.new () key ivl ivr) ds
        CFBSink.finalize m bufWrite t) {} =
      (.ok (), ⟨unblocks64 (cfbEnc (encF f) [ivl, ivr] (blocks64 d)), []⟩) ∧
    (do let t ← writeAll (Gost89.CFBSink.write m bufWrite) (Gost89.CFBSink.new () key iv) ds
        Gost89.CFBSink.finalize m bufWrite t) {} =
      (.ok (), ⟨unblocks64 (cfbEnc (encF f) [iv] (blocks64 d)), []⟩) := by
  have hnil : d.drop (8 * (d.length / 8)) = [] := List.drop_eq_nil_of_le (by omega)
  refine ⟨?_, ?_, ?_⟩
  · rw [C12_aligned_write bufWrite () key f h d hd, bind_assoc, Io.bind_run_ok (buf_writeAll _ _), pure_bind]
    rfl
  · rw [C18_state m bufWrite () key f h hl ivl ivr ds _ rfl, bind_assoc, Io.bind_run_ok (buf_writeAll _ _),
      pure_bind, hds, hnil, (C21_nothing_held_back_partial m bufWrite _ rfl ⟨(), key, 0, []⟩ rfl).1]
    rfl
  · rw [gost89_CFBSink_writes_eq m bufWrite h hl ds () iv _ rfl, bind_assoc,
      Io.bind_run_ok (buf_writeAll _ _), pure_bind, hds, hnil,
      (C21_nothing_held_back_partial m bufWrite ⟨(), key, 0, 0, []⟩ rfl _ rfl).2]
    rfl

example (m : Machine) := C82_not_finalized m _ _ sampleKey_computes rfl 1 2 3 sampleData (by decide)
  [sampleData.take 3, sampleData.drop 3] (by decide)

/-- C82, the part that holds: if the user calls `finalize` of the sink that `finalize` returned, the
ciphertext comes out. -/
theorem C82_finalize_twice_partial (m : Machine) (key : Key) (f : Fin 8 → BitVec 32 → BitVec 32)
    (h : Computes key f) (hl : key.isLazy = true) (ivl ivr iv : BitVec 64) (d : List Byte)
    (hd : d.length % 8 = 0) (ds : List (List Byte)) (hds : ds.flatten = d) :
    (do let t ← ECBSink.write bufWrite ⟨(), key⟩ d
        let s ← ECBSink.finalize t
        bufFinalize s) {} = (.ok (), ⟨[], unblocks64 (ecb (encF f) (blocks64 d))⟩) ∧
    (do let t ← writeAll (CFBSink.write m bufWrite) (CFBSink.new () key ivl ivr) ds
        let s ← CFBSink.finalize m bufWrite t
        bufFinalize s) {} =
      (.ok (), ⟨[], unblocks64 (cfbEnc (encF f) [ivl, ivr] (blocks64 d))⟩) ∧
    (do let t ← writeAll (Gost89.CFBSink.write m bufWrite) (Gost89.CFBSink.new () key iv) ds
        let s ← Gost89.CFBSink.finalize m bufWrite t
        bufFinalize s) {} =
      (.ok (), ⟨[], unblocks64 (cfbEnc (encF f) [iv] (blocks64 d))⟩) := by
  obtain ⟨h1, h2, h3⟩ := C82_not_finalized m key f h hl ivl ivr iv d hd ds hds
  refine ⟨?_, ?_, ?_⟩
  · rw [← bind_assoc, Io.bind_run_ok h1]; rfl
  · rw [← bind_assoc, Io.bind_run_ok h2]; rfl
  · rw [← bind_assoc, Io.bind_run_ok h3]; rfl

example : Computes (LazyKey.ofString sampleKeyText)
      (fun i => g pi (keyWord (BitVec.ofNat 256 (hexNat sampleKeyText)) i)) ∧
    sampleData.length % 8 = 0 ∧ [sampleData.take 3, sampleData.drop 3].flatten = sampleData :=
  ⟨sampleKey_computes, by decide, by decide⟩

/-- C82 is false of stacks as well: data of whole blocks are written through any number of layers over a buffering
sink, and every layer is finalized in turn. All of the ciphertext is still in the buffer below the innermost layer. -/
theorem C82_stack_not_finalized (m : Machine) (l : Layer) (ls : List Layer) (hl : ∀ x ∈ l :: ls, Layer.Usable x)
    (ds : List (List Byte)) (hd : ds.flatten.length % 8 = 0) (hp : Layer.AnySizes l ∨ ∀ d ∈ ds, d.length % 8 = 0) :
    (do let t ← writeAll (Sinks.write m bufWrite (l :: ls)) (Sinks.new () (l :: ls)) ds
        Sinks.finalize m bufWrite (l :: ls) t) {} =
      (.ok (), ⟨unblocks64 (stackEnc (l :: ls) (blocks64 ds.flatten)), []⟩) := by
  rw [C57_stack_ciphertext m bufWrite () l ls hl ds hd hp, buf_writeAll]
  rfl

/-- C82 for stacks, the part that holds: one `finalize` for every layer and one more, of the sink that the last one
returned, bring out the ciphertext. -/
theorem C82_stack_finalize_all_partial (m : Machine) (l : Layer) (ls : List Layer)
    (hl : ∀ x ∈ l :: ls, Layer.Usable x) (ds : List (List Byte)) (hd : ds.flatten.length % 8 = 0)
    (hp : Layer.AnySizes l ∨ ∀ d ∈ ds, d.length % 8 = 0) :
    (do let t ← writeAll (Sinks.write m bufWrite (l :: ls)) (Sinks.new () (l :: ls)) ds
        let s ← Sinks.finalize m bufWrite (l :: ls) t
        bufFinalize s) {} =
      (.ok (), ⟨[], unblocks64 (stackEnc (l :: ls) (blocks64 ds.flatten))⟩) := by
  rw [← bind_assoc, Io.bind_run_ok (C82_stack_not_finalized m l ls hl ds hd hp)]
  rfl

example (m : Machine) := C82_stack_not_finalized m _ _ sampleLayers_usable [sampleData] (by decide) (Or.inr (by decide))

example (m : Machine) := C82_stack_finalize_all_partial m _ _ sampleLayers_usable [sampleData] (by decide) (Or.inr (by decide))

end Goost.Props
