import Verif.Lemmas.Machines
/-
Property C124: machines differ only in what the standard of C++ leaves undefined.

A `Machine` says what is done in the two places where the code relies on behaviour that the standard leaves undefined
(shifts of 32-bit words by 32 and more, unaligned loads of 64-bit words). What may differ between two machines is written
in Spec/Machines.
-/
namespace Goost.Props
open Spec

variable {W σ τ ι : Type}

/-- C124: the streams of the 64-bit ciphers and the authentication code of the old one do the same on every machine,
whatever the key, the sink and the source do: same results, same exceptions, same calls in the same order. -/
theorem C124_streams (m m' : Machine) (wr : τ → List Byte → Io W τ) (rd : σ → Nat → Io W (List Byte × σ)) :
    Live.ECBSource.read m rd = Live.ECBSource.read m' rd ∧
    Live.CFBSink.write m wr = Live.CFBSink.write m' wr ∧
    Live.CFBSink.finalize m wr = Live.CFBSink.finalize m' wr ∧
    Live.CFBSource.read m rd = Live.CFBSource.read m' rd ∧
    Live.Gost89.CFBSink.write m wr = Live.Gost89.CFBSink.write m' wr ∧
    Live.Gost89.CFBSink.finalize m wr = Live.Gost89.CFBSink.finalize m' wr ∧
    Live.Gost89.CFBSource.read m rd = Live.Gost89.CFBSource.read m' rd ∧
    Live.Gost89.DataImit.value (W := W) m = Live.Gost89.DataImit.value m' :=
  ⟨funext fun t => funext fun n => Live.ecb_source_same m m' rd t n,
    funext fun t => funext fun d => Live.cfb_sink_same m m' wr t.key d _ _ _ _, rfl,
    funext fun t => funext fun n => Live.cfb_source_same m m' rd t.key n _ _ _ _ _ _,
    funext fun t => funext fun d => Live.gost89_sink_same m m' wr t.key d _ _ _, rfl,
    funext fun t => funext fun n => Live.gost89_source_same m m' rd t.key n _ _ _ _ _,
    funext fun _ => funext fun k => Live.data_imit_same m m' k _ _⟩

/-- C124: so do sinks and sources stacked to any depth. -/
theorem C124_stacks (m m' : Machine) (wr : τ → List Byte → Io W τ) (rd : σ → Nat → Io W (List Byte × σ))
    (ls : List Layers.Layer) :
    Layers.Sinks.write m wr ls = Layers.Sinks.write m' wr ls ∧
    Layers.Sinks.finalize m wr ls = Layers.Sinks.finalize m' wr ls ∧
    Layers.Sources.read m rd ls = Layers.Sources.read m' rd ls :=
  ⟨Layers.write_same m m' wr ls, Layers.finalize_same m m' wr ls, Layers.read_same m m' rd ls⟩

/-- C124: blocks of the 64-bit cipher, also with classes of the user among them: two machines give the same, unless one
lacks the shift which the other has, and the evaluation is undefined on it. -/
theorem C124_magma_blocks (m m' : Machine) (b : Magma.Blk) : b.value m = b.value m' ∨
    LacksShift m m' ∧ Undefined (b.value m) ∨ LacksShift m' m ∧ Undefined (b.value m') := magma_blk_same m m' b

example := C124_magma_blocks .iso .x86 (.shifted (.user (.ok (1, 2))) 1)

/-- C124: the same for the authentication code of the 64-bit cipher, over every source and every key. -/
theorem C124_magma_code (m m' : Machine) (rd : σ → Nat → Io W (List Byte × σ)) (fuel : Nat) (data : σ)
    (key : Option (Live.Key W)) : SameUnless (LacksShift m m') (LacksShift m' m)
      (Live.Imit.value m rd fuel data key) (Live.Imit.value m' rd fuel data key) := Live.imit_same m m' rd fuel data key

/-- C124: the 128-bit cipher: blocks (encryptions among them), blocks of the encrypted stream and authentication codes.
Two machines do the same, also to the caches, unless one lacks the load which the other has, and the call is undefined on
it. -/
theorem C124_kuznyechik (m m' : Machine) (b : KuzToken.Blk W) (it : KuzLive.IterImpl W ι) (i : KuzToken.ItCTR W ι)
    (start : Io W (Option ι)) (fuel : Nat) (key : KuzToken.Key W) :
    SameUnless (LacksLoad m m') (LacksLoad m' m) (b.value m) (b.value m') ∧
    SameUnless (LacksLoad m m') (LacksLoad m' m) (KuzToken.ItCTR.value m it i) (KuzToken.ItCTR.value m' it i) ∧
    SameUnless (LacksLoad m m') (LacksLoad m' m) (KuzToken.Imit.value m it start fuel key)
      (KuzToken.Imit.value m' it start fuel key) :=
  ⟨KuzToken.blk_same m m' b, KuzToken.ctr_same m m' it i, KuzToken.imit_same m m' it start fuel key⟩

/-- C124: what the standard of C++ defines, every machine does. -/
theorem C124_standard (m : Machine) :
    (∀ b : Magma.Blk, ¬ Undefined (b.value .iso) → b.value m = b.value .iso) ∧
    (∀ (b : KuzToken.Blk W) s, ¬ Undefined (b.value .iso s).1 → b.value m s = b.value .iso s) ∧
    (∀ (it : KuzLive.IterImpl W ι) (i : KuzToken.ItCTR W ι) s, ¬ Undefined (KuzToken.ItCTR.value .iso it i s).1 →
      KuzToken.ItCTR.value m it i s = KuzToken.ItCTR.value .iso it i s) := by
  refine ⟨fun b hd => ?_, fun b s hd => ?_, fun it i s hd => ?_⟩
  · rcases C124_magma_blocks .iso m b with h | h | h
    · exact h.symm
    · exact absurd h.2 hd
    · cases h.1.2
  · rcases KuzToken.blk_same .iso m b s with h | h | h
    · exact h.symm
    · exact absurd h.2 hd
    · cases h.1.2
  · rcases KuzToken.ctr_same .iso m it i s with h | h | h
    · exact h.symm
    · exact absurd h.2 hd
    · cases h.1.2

/-- Evaluations that the standard defines: a swapped text; a cache over `BlkS`. -/
example (m : Machine) :
    (Magma.Blk.swapped (.str "12".toList)).value m = (Magma.Blk.swapped (.str "12".toList)).value .iso ∧
    (KuzToken.Blk.value m (.cached 3 (.blkS (.raw 1 2)) : KuzToken.Blk Unit)) (fun _ => none, ()) =
      (KuzToken.Blk.value .iso (.cached 3 (.blkS (.raw 1 2)) : KuzToken.Blk Unit)) (fun _ => none, ()) :=
  ⟨(C124_standard (W := Unit) (ι := Unit) m).1 _ (by rintro ⟨u, h⟩; cases h),
    (C124_standard (W := Unit) (ι := Unit) m).2.1 _ _ (by rintro ⟨u, h⟩; cases h)⟩

/-- C124: machines that have the same shifts compute the same codes of the 64-bit cipher, and machines that have the same
loads do the same with the 128-bit cipher. -/
theorem C124_equal_machines (m m' : Machine) :
    (m.maskShift32 = m'.maskShift32 → ∀ (rd : σ → Nat → Io W (List Byte × σ)) (fuel : Nat) (data : σ)
      (key : Option (Live.Key W)), Live.Imit.value m rd fuel data key = Live.Imit.value m' rd fuel data key) ∧
    (m.unalignedLoad = m'.unalignedLoad → (∀ b : KuzToken.Blk W, b.value m = b.value m') ∧
      (∀ (it : KuzLive.IterImpl W ι) (i : KuzToken.ItCTR W ι), KuzToken.ItCTR.value m it i = KuzToken.ItCTR.value m' it i) ∧
      ∀ (it : KuzLive.IterImpl W ι) (start : Io W (Option ι)) (fuel : Nat) (key : KuzToken.Key W),
        KuzToken.Imit.value m it start fuel key = KuzToken.Imit.value m' it start fuel key) := by
  have eq : ∀ {V β : Type} {p q : Prop} {x y : Io V β}, SameUnless p q x y → ¬ p → ¬ q → x = y := by
    intro V β p q x y h hp hq
    funext w
    rcases h w with h | h | h
    · exact h
    · exact absurd h.1 hp
    · exact absurd h.1 hq
  refine ⟨fun h rd fuel data key => eq (C124_magma_code m m' rd fuel data key) ?_ ?_, fun h => ⟨fun b =>
    eq (KuzToken.blk_same m m' b) ?_ ?_, fun it i => eq (KuzToken.ctr_same m m' it i) ?_ ?_, fun it start fuel key =>
    eq (KuzToken.imit_same m m' it start fuel key) ?_ ?_⟩⟩
  all_goals
    rintro ⟨h1, h2⟩
    rw [h1, h2] at h
    cases h

example := (C124_equal_machines (W := Unit) (σ := Unit) (ι := Unit) .x86 ⟨true, false⟩).1 rfl

/-- C124: the exceptions occur. A shift of a block of the 64-bit cipher, and `BlkR` of the 128-bit cipher, are undefined
by the standard and have a value on x86. -/
theorem C124_machines_differ :
    Undefined ((Magma.Blk.shifted (.raw 1 0) 1).value .iso) ∧ (Magma.Blk.shifted (.raw 1 0) 1).value .x86 = .ok (2, 0) ∧
    Undefined ((Kuz.Blk.blkR (.raw 0x100 0)).value .iso) ∧
    ∃ v, (Kuz.Blk.blkR (.raw 0x100 0)).value .x86 = .ok v :=
  ⟨⟨_, rfl⟩, by decide +kernel, ⟨_, rfl⟩, _, rfl⟩

end Goost.Props
