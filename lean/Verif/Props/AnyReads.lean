import Verif.Lemmas.AnyReads
import Verif.Lemmas.Crash
import Verif.Props.Cfb
/-
Properties C72 and C119: reads of any sizes from a decrypting source in any state, also over an endless source.
-/
namespace Goost.Props
open Goost.Magma Spec Spec.Magma Spec.Modes
variable {W σ : Type}

/-! ### C72 -/

/-- C72 for a `CFBSource` in any state, with any bytes decrypted and not yet delivered, and for any sequence of reads: if the
underlying source has the blocks `c` that are needed for the sum of the sizes, each read returns as many bytes as it asked
for; the pieces together are the bytes not yet delivered and the decryption of `c`, as far as they were asked for; and the
source and the world afterwards are those behind `c`. -/
theorem C72_any_reads (m : Machine) (rd : σ → Nat → Io W (List Byte × σ)) (t : CFBSource σ)
    (f : Fin 8 → BitVec 32 → BitVec 32) (h : Computes t.key f) (hl : t.key.isLazy = true) (sizes : List Nat)
    (c : List (BitVec 64)) (hn : c.length = (sizes.sum - t.plain.length + 7) / 8) (s' : σ) (w w' : W)
    (hr : ReadsBlocks rd t.source w c s' w') :
    ∃ pieces t', readAll (CFBSource.read m rd) t sizes w = (.ok (pieces, t'), w') ∧
      pieces.map List.length = sizes ∧
      pieces.flatten = (t.plain ++ unblocks64 (cfbDec (encF f) [t.ivl, t.ivr] c)).take sizes.sum ∧
      t'.source = s' := by
  obtain ⟨p, t', e1, e2, e3, e4, -⟩ := CFBSource_readAll m rd sizes t h hl c hn s' w w' hr
  exact ⟨p, t', e1, e2, e3, e4⟩

/-- The theorem applies to them. -/
example (m : Machine) := C72_any_reads (W := Unit) m memRead
  ⟨unblocks64 [1, 2], LazyKey.ofString sampleKeyText, 1, 2, [7, 8, 9]⟩ _ sampleKey_computes rfl [2, 0, 9, 5] [1, 2]
  (by decide) [] () () ⟨_, _, rfl, _, _, rfl, rfl, rfl⟩

/-- C72 for a `gost89::CFBSource` in any state and any sequence of reads. -/
theorem C72_gost89_any_reads (m : Machine) (rd : σ → Nat → Io W (List Byte × σ)) (t : Gost89.CFBSource σ)
    (f : Fin 8 → BitVec 32 → BitVec 32) (h : Computes t.key f) (hl : t.key.isLazy = true) (sizes : List Nat)
    (c : List (BitVec 64)) (hn : c.length = (sizes.sum - t.plain.length + 7) / 8) (s' : σ) (w w' : W)
    (hr : ReadsBlocks rd t.source w c s' w') :
    ∃ pieces t', readAll (Gost89.CFBSource.read m rd) t sizes w = (.ok (pieces, t'), w') ∧
      pieces.map List.length = sizes ∧
      pieces.flatten = (t.plain ++ unblocks64 (cfbDec (encF f) [t.iv] c)).take sizes.sum ∧
      t'.source = s' := by
  obtain ⟨p, t', e1, e2, e3, e4, -⟩ := gost89_CFBSource_readAll m rd sizes t h hl c hn s' w w' hr
  exact ⟨p, t', e1, e2, e3, e4⟩

/-- Three bytes are left; reads of 2, 0, 9 and 5 bytes need two blocks. -/
example : ([1, 2] : List (BitVec 64)).length = (([2, 0, 9, 5] : List Nat).sum - ([7, 8, 9] : List Byte).length + 7) / 8 ∧
    ReadsBlocks (W := Unit) memRead (unblocks64 [1, 2]) () [1, 2] [] () :=
  ⟨by decide, _, _, rfl, _, _, rfl, rfl, rfl⟩

/-! ### C119 -/

/-- C119: a `CFBSource` over an endless source is never at its end, whatever is read from it: every read returns as many
bytes as it asked for, and the pieces together are what was not yet delivered and the beginning of the decryption of what
the source gives. -/
theorem C119_cfb_source_endless (m : Machine) (rd : σ → Nat → Io W (List Byte × σ)) (t : CFBSource σ)
    (f : Fin 8 → BitVec 32 → BitVec 32) (h : Computes t.key f) (hl : t.key.isLazy = true) (w : W)
    (he : EndlessSource rd t.source w) :
    EndlessSource (CFBSource.read m rd) t w ∧
    ∀ sizes : List Nat, ∃ c s' w' pieces t', ReadsBlocks rd t.source w c s' w' ∧
      readAll (CFBSource.read m rd) t sizes w = (.ok (pieces, t'), w') ∧ pieces.map List.length = sizes ∧
      pieces.flatten = (t.plain ++ unblocks64 (cfbDec (encF f) [t.ivl, t.ivr] c)).take sizes.sum := by
  refine ⟨⟨fun t w => (Computes t.key f ∧ t.key.isLazy = true) ∧ EndlessSource rd t.source w, ⟨⟨h, hl⟩, he⟩, ?_⟩, ?_⟩
  · rintro t w ⟨⟨h, hl⟩, he⟩
    obtain ⟨c, s', w', hc, hr, he'⟩ := EndlessSource_blocks he (([8] : List Nat).sum - t.plain.length + 7 |>.div 8)
    obtain ⟨p, t', e1, e2, e3, e4, e5⟩ := CFBSource_readAll m rd [8] t h hl c hc s' w w' hr
    have e6 : p.length = 1 := by simpa using congrArg List.length e2
    match p, e6 with
    | [x], _ =>
      refine ⟨x, t', w', ?_, by simpa using e2, by rw [e5]; exact ⟨h, hl⟩, by rw [e4]; exact he'⟩
      rcases hx : CFBSource.read m rd t 8 w with ⟨r, w1⟩
      simp only [readAll, Io.bind_def, Io.bind, hx] at e1
      cases r with
      | ok a => cases e1; rfl
      | throw e => cases e1
      | ub u => cases e1
      | diverge => cases e1
  · intro sizes
    obtain ⟨c, s', w', hc, hr, -⟩ := EndlessSource_blocks he ((sizes.sum - t.plain.length + 7) / 8)
    obtain ⟨p, t', e1, e2, e3, -, -⟩ := CFBSource_readAll m rd sizes t h hl c hc s' w w' hr
    exact ⟨c, s', w', p, t', hr, e1, e2, e3⟩

example (m : Machine) := C119_cfb_source_endless m deviceRead ⟨(), LazyKey.ofString sampleKeyText, 1, 2, []⟩ _
  sampleKey_computes rfl 0 ⟨fun _ _ => True, trivial, fun _ w _ => ⟨_, _, _, rfl, by simp, trivial⟩⟩

/-- C119 for a `gost89::CFBSource` over an endless source. -/
theorem C119_gost89_cfb_source_endless (m : Machine) (rd : σ → Nat → Io W (List Byte × σ)) (t : Gost89.CFBSource σ)
    (f : Fin 8 → BitVec 32 → BitVec 32) (h : Computes t.key f) (hl : t.key.isLazy = true) (w : W)
    (he : EndlessSource rd t.source w) :
    EndlessSource (Gost89.CFBSource.read m rd) t w ∧
    ∀ sizes : List Nat, ∃ c s' w' pieces t', ReadsBlocks rd t.source w c s' w' ∧
      readAll (Gost89.CFBSource.read m rd) t sizes w = (.ok (pieces, t'), w') ∧ pieces.map List.length = sizes ∧
      pieces.flatten = (t.plain ++ unblocks64 (cfbDec (encF f) [t.iv] c)).take sizes.sum := by
  refine ⟨⟨fun t w => (Computes t.key f ∧ t.key.isLazy = true) ∧ EndlessSource rd t.source w, ⟨⟨h, hl⟩, he⟩, ?_⟩, ?_⟩
  · rintro t w ⟨⟨h, hl⟩, he⟩
    obtain ⟨c, s', w', hc, hr, he'⟩ := EndlessSource_blocks he (([8] : List Nat).sum - t.plain.length + 7 |>.div 8)
    obtain ⟨p, t', e1, e2, e3, e4, e5⟩ := gost89_CFBSource_readAll m rd [8] t h hl c hc s' w w' hr
    have e6 : p.length = 1 := by simpa using congrArg List.length e2
    match p, e6 with
    | [x], _ =>
      refine ⟨x, t', w', ?_, by simpa using e2, by rw [e5]; exact ⟨h, hl⟩, by rw [e4]; exact he'⟩
      rcases hx : Gost89.CFBSource.read m rd t 8 w with ⟨r, w1⟩
      simp only [readAll, Io.bind_def, Io.bind, hx] at e1
      cases r with
      | ok a => cases e1; rfl
      | throw e => cases e1
      | ub u => cases e1
      | diverge => cases e1
  · intro sizes
    obtain ⟨c, s', w', hc, hr, -⟩ := EndlessSource_blocks he ((sizes.sum - t.plain.length + 7) / 8)
    obtain ⟨p, t', e1, e2, e3, -, -⟩ := gost89_CFBSource_readAll m rd sizes t h hl c hc s' w w' hr
    exact ⟨c, s', w', p, t', hr, e1, e2, e3⟩

example (m : Machine) := C119_gost89_cfb_source_endless m deviceRead ⟨(), LazyKey.ofString sampleKeyText, 1, []⟩ _
  sampleKey_computes rfl 0 ⟨fun _ _ => True, trivial, fun _ w _ => ⟨_, _, _, rfl, by simp, trivial⟩⟩

/-- C119: an `ECBSource` over an endless source is endless, and its blocks are the decryptions of the source's blocks. -/
theorem C119_ecb_source_endless (m : Machine) (rd : σ → Nat → Io W (List Byte × σ)) (source : σ) (key : Key)
    (f : Fin 8 → BitVec 32 → BitVec 32) (h : Computes key f) (hl : key.isLazy = true) (w : W)
    (he : EndlessSource rd source w) :
    EndlessSource (ECBSource.read m rd) (.ecb source key) w ∧
    ∀ n, ∃ c s' w', c.length = n ∧ ReadsBlocks rd source w c s' w' ∧
      ReadsBlocks (ECBSource.read m rd) (.ecb source key) w (ecb (decF f) c) (.ecb s' key) w' := by
  refine ⟨⟨fun t w => ∃ s, t = .ecb s key ∧ EndlessSource rd s w, ⟨_, rfl, he⟩, ?_⟩, ?_⟩
  · rintro _ w ⟨s, rfl, he⟩
    obtain ⟨c, s', w', hc, hr, he'⟩ := EndlessSource_blocks he 1
    have := ECBSource_reads m rd h hl c s s' w w' hr
    match c, hc with
    | [x], _ =>
      obtain ⟨s1, w1, e, rfl, rfl⟩ := this
      exact ⟨_, _, _, e, bytesOf64_length _, s', rfl, he'⟩
  · intro n
    obtain ⟨c, s', w', hc, hr, -⟩ := EndlessSource_blocks he n
    exact ⟨c, s', w', hc, hr, ECBSource_reads m rd h hl c source s' w w' hr⟩

/-- The device of `Spec.Endless` is an endless source. -/
example (w : Nat) : EndlessSource deviceRead () w :=
  ⟨fun _ _ => True, trivial, fun _ w _ => ⟨_, _, _, rfl, by simp, trivial⟩⟩

end Goost.Props
