import Verif.Lemmas.EndlessKuz
import Verif.Props.Kuznyechik
import Verif.Props.KuzStream
/-
Property C119: every call returns, unless it reads an endless stream.
-/
namespace Goost.Props
open Spec Spec.Modes
variable {W σ τ ι : Type}

/-! ### Writing -/

/-- C119 for `ECBSink`: `write` and `finalize` return or throw, for data of any size. -/
theorem C119_ecb_sink (wr : τ → List Byte → Io W τ) (hw : ReturningSink wr) (t : Magma.ECBSink τ)
    (hk : ReturningKey t.key) (data : List Byte) (w : W) :
    (Magma.ECBSink.write wr t data w).1 ≠ .diverge ∧ ((Magma.ECBSink.finalize t : Io W τ) w).1 ≠ .diverge :=
  ⟨Magma.ECBSink.loop_returns hw hk data [] t.sink w, Magma.pure_returns _ _⟩

/-- C119 for `magma::CFBSink`, in any state. -/
theorem C119_cfb_sink (m : Machine) (wr : τ → List Byte → Io W τ) (hw : ReturningSink wr) (t : Magma.CFBSink τ)
    (hk : ReturningKey t.key) (data : List Byte) (w : W) :
    (Magma.CFBSink.write m wr t data w).1 ≠ .diverge ∧ (Magma.CFBSink.finalize m wr t w).1 ≠ .diverge := by
  refine ⟨Magma.CFBSink.loop_returns m hw hk data _ _ _ _ w, ?_⟩
  unfold Magma.CFBSink.finalize
  split
  · refine Io.bind_returns (Io.lift_returns (Magma.encrypted_returns (Magma.ofU64_returns _ _)
      (Magma.asLazy_returning hk))) fun _ _ _ => ?_
    exact Io.bind_returns (Io.lift_returns (Magma.xorWords_returns _ _ _)) fun _ _ _ => hw _ _ _
  · exact Magma.pure_returns _ _

/-- C119 for `gost89::CFBSink`, in any state. -/
theorem C119_gost89_cfb_sink (m : Machine) (wr : τ → List Byte → Io W τ) (hw : ReturningSink wr)
    (t : Gost89.CFBSink τ) (hk : ReturningKey t.key) (data : List Byte) (w : W) :
    (Gost89.CFBSink.write m wr t data w).1 ≠ .diverge ∧ (Gost89.CFBSink.finalize m wr t w).1 ≠ .diverge := by
  refine ⟨Magma.gost89_sink_returns m hw hk data _ _ _ w, ?_⟩
  unfold Gost89.CFBSink.finalize
  split
  · refine Io.bind_returns (Io.lift_returns (Magma.encrypted_returns (Magma.ofU64_returns _ _)
      (Magma.asLazy_returning hk))) fun _ _ _ => ?_
    exact Io.bind_returns (Io.lift_returns (Magma.xorWords_returns _ _ _)) fun _ _ _ => hw _ _ _
  · exact Magma.pure_returns _ _

/-! ### Reading -/

/-- C119 for `ECBSource`. -/
theorem C119_ecb_source (m : Machine) (rd : σ → Nat → Io W (List Byte × σ)) (hr : ReturningSource rd) (source : σ)
    (key : Magma.Key) (hk : ReturningKey key) (size : Nat) (w : W) :
    (Magma.ECBSource.read m rd (.ecb source key) size w).1 ≠ .diverge := by
  simp only [Magma.ECBSource.read]
  split
  · simp [Io.lift]
  · refine Io.bind_returns (hr _ _ _) fun x _ _ => ?_
    split
    · exact Magma.pure_returns _ _
    · refine Io.bind_returns (Io.lift_returns (Magma.ofBytes_returns _)) fun b _ hb => ?_
      refine Io.bind_returns (Io.lift_returns (Magma.decrypted_returns
        (Magma.ofBytes_value_returns (congrArg Prod.fst hb)) (Magma.asLazy_returning hk))) fun _ _ _ => ?_
      exact Io.bind_returns (Io.lift_returns (Magma.overwrite8_returns _ _)) fun _ _ _ => Magma.pure_returns _ _

/-- C119 for `magma::CFBSource`, in any state: `read` returns or throws however many bytes it is asked for and however few
or many the source below gives at a time, also if that is endless. -/
theorem C119_cfb_source (m : Machine) (rd : σ → Nat → Io W (List Byte × σ)) (hr : ReturningSource rd)
    (t : Magma.CFBSource σ) (hk : ReturningKey t.key) (size : Nat) (w : W) :
    (Magma.CFBSource.read m rd t size w).1 ≠ .diverge := by
  refine Magma.CFBSource.loop_returns m hr hk size (size + 1) _ _ _ _ _ w (by omega) ?_
  split <;> simp

/-- C119 for `gost89::CFBSource`, in any state. -/
theorem C119_gost89_cfb_source (m : Machine) (rd : σ → Nat → Io W (List Byte × σ)) (hr : ReturningSource rd)
    (t : Gost89.CFBSource σ) (hk : ReturningKey t.key) (size : Nat) (w : W) :
    (Gost89.CFBSource.read m rd t size w).1 ≠ .diverge := by
  refine Magma.gost89_source_returns m hr hk size (size + 1) _ _ _ _ w (by omega) ?_
  split <;> simp

/-! ### Authentication codes -/

/-- C119 for `DataImit`: the code of data in memory, of any size. -/
theorem C119_data_mac (m : Machine) (data : List Byte) (key : Magma.Key) (hk : ReturningKey key) :
    Gost89.DataImit.value m data (some key) ≠ .diverge :=
  Magma.dataImit_returns m (by rintro _ ⟨⟩; exact hk) _ _ _ (Nat.le_refl _)

/-- C119 for `magma::Imit`: `value()` returns or throws exactly if the source is not endless. -/
theorem C119_mac_returns_iff (m : Machine) (rd : σ → Nat → Io W (List Byte × σ)) (hr : ReturningSource rd)
    (key : Magma.Key) (hk : ReturningKey key) (s : σ) (w : W) :
    (∃ fuel, (Magma.Imit.value m rd fuel s (some key) w).1 ≠ .diverge) ↔ ¬ EndlessSource rd s w := by
  have hk' : ∀ k, some key = some k → ReturningKey k := by rintro _ ⟨⟩; exact hk
  constructor
  · rintro ⟨fuel, h⟩ he
    apply h
    have ⟨R, h0, hR⟩ := he
    obtain ⟨x, s', w', h1, h2, h3⟩ := hR s w h0
    have := Magma.Imit.loop_endless (some key) fuel s' x Magma.BlkRaw.zero w' h2 ⟨R, h3, hR⟩
    simp only [Magma.Imit.value, Magma.Imit.build, Io.bind_def, Io.bind, h1]
    rcases hl : Magma.Imit.loop rd (some key) fuel s' x Magma.BlkRaw.zero w' with ⟨r, w1⟩
    rw [hl] at this
    simp only at this
    subst this
    rfl
  · intro hn
    by_contra hc
    apply hn
    have hd : ∀ fuel, (Magma.Imit.value m rd fuel s (some key) w).1 = .diverge := by
      intro fuel
      by_contra h
      exact hc ⟨fuel, h⟩
    rcases h1 : rd s 8 w with ⟨r, w'⟩
    cases r with
    | ok x =>
      have hl : ∀ fuel, (Magma.Imit.loop rd (some key) fuel x.2 x.1 Magma.BlkRaw.zero w').1 = .diverge := by
        intro fuel
        by_contra h
        refine absurd (hd fuel) ?_
        unfold Magma.Imit.value Magma.Imit.build
        refine Io.bind_returns (Io.bind_returns (by rw [h1]; simp) fun y w1 hy => ?_) fun b w1 hb => ?_
        · rw [h1] at hy; cases hy
          exact Io.bind_returns h fun _ _ _ => Magma.pure_returns _ _
        · simp only [Io.bind_def, Io.bind, h1] at hb
          rcases hl : Magma.Imit.loop rd (some key) fuel x.2 x.1 Magma.BlkRaw.zero w' with ⟨r, w2⟩
          rw [hl] at hb
          cases r with
          | ok y =>
            cases hb
            obtain ⟨ha, hb⟩ := Magma.Imit.loop_blocks m hk' fuel _ _ _ _ _ _ _ (by simp [Magma.BlkRaw.zero, Magma.BlkRaw.ofU64, Magma.Blk.value]) hl
            exact Io.lift_returns (Magma.encrypted_returns (Magma.xored_returns ha hb) hk')
          | throw e => cases hb
          | ub u => cases hb
          | diverge => cases hb
      obtain ⟨h8, R, h0, hR⟩ := Magma.Imit.endless_of_loop hr (some key) _ _ _ _ hl
      refine ⟨fun s1 w1 => (s1 = s ∧ w1 = w) ∨ R s1 w1, .inl ⟨rfl, rfl⟩, ?_⟩
      rintro s1 w1 (⟨rfl, rfl⟩ | h)
      · exact ⟨x.1, x.2, w', h1, h8, .inr h0⟩
      · obtain ⟨y, s2, w2, e1, e2, e3⟩ := hR s1 w1 h
        exact ⟨y, s2, w2, e1, e2, .inr e3⟩
    | throw e =>
      have := hd 0
      simp only [Magma.Imit.value, Magma.Imit.build, Io.bind_def, Io.bind, h1] at this
      cases this
    | ub u =>
      have := hd 0
      simp only [Magma.Imit.value, Magma.Imit.build, Io.bind_def, Io.bind, h1] at this
      cases this
    | diverge => exact absurd (congrArg Prod.fst h1) (hr s 8 w)

/-- C119 for `magma::Imit`: the outcome is the same whatever the budget of the model, once it is large enough. -/
theorem C119_mac_budget (m : Machine) (rd : σ → Nat → Io W (List Byte × σ)) (key : Option Magma.Key) (s : σ) (w : W)
    (fuel more : Nat) (h : (Magma.Imit.value m rd fuel s key w).1 ≠ .diverge) :
    Magma.Imit.value m rd (fuel + more) s key w = Magma.Imit.value m rd fuel s key w := by
  simp only [Magma.Imit.value, Magma.Imit.build, Io.bind_def, Io.bind] at h ⊢
  rcases h1 : rd s 8 w with ⟨r, w'⟩
  rw [h1] at h
  cases r with
  | ok x =>
    simp only at h ⊢
    rw [Magma.Imit.loop_more rd key fuel more]
    intro he
    apply h
    rcases hl : Magma.Imit.loop rd key fuel x.2 x.1 Magma.BlkRaw.zero w' with ⟨r, w2⟩
    rw [hl] at he
    simp only at he
    subst he
    rfl
  | throw e => rfl
  | ub u => rfl
  | diverge => rfl

/-- C119 for `kuznyechik::Imit`: `value()` returns or throws exactly if the stream is not endless. -/
theorem C119_kuznyechik_mac_returns_iff (m : Machine) (it : KuzLive.IterImpl W ι) (hr : ReturningIter it) (key : Kuz.Key)
    (hk : ReturningKuzKey m key) (start : Io W (Option ι)) (w : W) (hs : (start w).1 ≠ .diverge) :
    (∃ fuel, (KuzLive.Imit.value m it start fuel key w).1 ≠ .diverge) ↔
      ¬ ∃ i w', start w = (.ok (some i), w') ∧ EndlessStream it i w' := by
  rcases h : start w with ⟨r, w'⟩
  cases r with
  | ok p =>
    simp only [KuzLive.Imit.value_returns_iff hr hk _ p w' w h]
    constructor
    · rintro ⟨fuel, hf⟩ ⟨i, w1, e, he⟩
      cases e
      exact hf (KuzLive.Imit.loop_endless key fuel i _ _ he)
    · intro hn
      by_contra hc
      apply hn
      obtain ⟨i, rfl, he⟩ := KuzLive.Imit.endless_of_loop hr key p Kuz.BlkRaw.zero w' fun fuel => by
        by_contra hf
        exact hc ⟨fuel, hf⟩
      exact ⟨i, w', rfl, he⟩
  | throw e =>
    refine ⟨fun _ ⟨i, w1, e, _⟩ => (by cases e), fun _ => ⟨0, ?_⟩⟩
    simp only [KuzLive.Imit.value, Io.bind_def, Io.bind, h]
    simp
  | ub u =>
    refine ⟨fun _ ⟨i, w1, e, _⟩ => (by cases e), fun _ => ⟨0, ?_⟩⟩
    simp only [KuzLive.Imit.value, Io.bind_def, Io.bind, h]
    simp
  | diverge => rw [h] at hs; exact absurd rfl hs

/-- C119 for `kuznyechik::Imit`: the outcome is the same whatever the budget of the model, once it is large enough. -/
theorem C119_kuznyechik_mac_budget (m : Machine) (it : KuzLive.IterImpl W ι) (key : Kuz.Key) (start : Io W (Option ι))
    (w : W) (fuel more : Nat) (h : (KuzLive.Imit.value m it start fuel key w).1 ≠ .diverge) :
    KuzLive.Imit.value m it start (fuel + more) key w = KuzLive.Imit.value m it start fuel key w := by
  unfold KuzLive.Imit.value at h ⊢
  rw [Io.bind_def, Io.bind_def] at *
  simp only [Io.bind] at h ⊢
  rcases h1 : start w with ⟨r, w'⟩
  rw [h1] at h
  cases r with
  | ok p =>
    simp only [Io.bind_def, Io.bind] at h ⊢
    rw [KuzLive.Imit.loop_more it key fuel more]
    intro he
    apply h
    rcases hl : KuzLive.Imit.loop it key fuel p Kuz.BlkRaw.zero w' with ⟨r, w2⟩
    rw [hl] at he
    simp only at he
    subst he
    rfl
  | throw e => rfl
  | ub u => rfl
  | diverge => rfl

/-! ### Counter mode -/

/-- C119 for `StCTREncrypted`: every call of every iterator of the encrypted stream returns or throws. -/
theorem C119_ctr_returns (m : Machine) (it : KuzLive.IterImpl W ι) (hr : ReturningIter it) (key : Kuz.Key)
    (hk : ReturningKuzKey m key) (start : Io W (Option ι)) (iv : BitVec 64) (w0 w1 : W) (j k : Kuz.ItCTR ι)
    (hs : KuzLive.StCTREncrypted.iter start key iv w0 = (.ok (some j), w1))
    (hf : Follows (KuzLive.ItCTR.impl m it) j k) (w : W) :
    ((KuzLive.ItCTR.impl m it).value k w).1 ≠ .diverge ∧ ((KuzLive.ItCTR.impl m it).last k w).1 ≠ .diverge ∧
      ((KuzLive.ItCTR.impl m it).size k w).1 ≠ .diverge ∧ ((KuzLive.ItCTR.impl m it).next k w).1 ≠ .diverge := by
  have good : ReturningKuzKey m k.key ∧ k.ctr.value m ≠ .diverge := by
    induction hf with
    | self =>
      simp only [KuzLive.StCTREncrypted.iter, Io.bind_def, Io.bind] at hs
      rcases h1 : start w0 with ⟨r, w'⟩
      rw [h1] at hs
      cases r with
      | ok p => cases hs; exact ⟨hk, Kuz.raw_returns _ _ _⟩
      | throw e => cases hs
      | ub u => cases hs
      | diverge => cases hs
    | next j' k' w w' _ hn ih =>
      simp only [KuzLive.ItCTR.impl, Io.bind_def, Io.bind] at hn
      rcases h1 : KuzLive.deref j'.iter it.next w with ⟨r, w2⟩
      rw [h1] at hn
      cases r with
      | ok p => cases hn; exact ⟨ih.1, Kuz.incremented_returns ih.2⟩
      | throw e => cases hn
      | ub u => cases hn
      | diverge => cases hn
  refine ⟨?_, KuzLive.deref_returns (fun i w => (hr i w).2.1) _, KuzLive.deref_returns (fun i w => (hr i w).2.2.1) _, ?_⟩
  · refine Io.bind_returns (KuzLive.deref_returns (fun i w => (hr i w).1) _) fun _ _ _ => ?_
    exact Io.bind_returns (Io.lift_returns (Kuz.encrypted_returns good.1 good.2)) fun _ _ _ => Magma.pure_returns _ _
  · exact Io.bind_returns (KuzLive.deref_returns (fun i w => (hr i w).2.2.2) _) fun _ _ _ => Magma.pure_returns _ _

/-- C119 for `StCTREncrypted`: over an endless stream the encrypted stream is endless. -/
theorem C119_ctr_endless (m : Machine) (key : Kuz.Key) (K : BitVec 256) (hk : Encrypts m key K)
    (it : KuzLive.IterImpl W ι) (start : Io W (Option ι)) (i : ι) (w0 w : W) (hs : start w0 = (.ok (some i), w))
    (h : EndlessStream it i w) (iv : BitVec 64) : ∃ j,
    KuzLive.StCTREncrypted.iter start key iv w0 = (.ok (some j), w) ∧ EndlessStream (KuzLive.ItCTR.impl m it) j w := by
  refine ⟨⟨some i, key, .raw 0 iv⟩, ?_, KuzLive.Endless_ctr hk h (KuzLive.raw_iv m iv)⟩
  unfold KuzLive.StCTREncrypted.iter
  rw [KuzLive.bind_ok hs]
  rfl

/-- C119 for `StCTREncrypted`: whatever beginning of the stream is read, the encrypted stream begins with the ciphertext
of the standard, and asks the stream below the same questions in the same order. The stream need not have an end. -/
theorem C119_ctr_begins (m : Machine) (key : Kuz.Key) (K : BitVec 256) (hk : Encrypts m key K)
    (it : KuzLive.IterImpl W ι) (start : Io W (Option ι)) (i i' : ι) (w0 w w' : W)
    (hs : start w0 = (.ok (some i), w)) (p : List (BitVec 64 × BitVec 64)) (h : Begins it i w p i' w')
    (iv : BitVec 64) : ∃ j j' cs,
    KuzLive.StCTREncrypted.iter start key iv w0 = (.ok (some j), w) ∧ Begins (KuzLive.ItCTR.impl m it) j w cs j' w' ∧
      cs.map join64 = ctr (k := 64) (Spec.Kuz.enc K) iv (p.map join64) := by
  obtain ⟨cs, j', h1, -, h2⟩ := KuzLive.Begins_ctr_from hk iv p h 0 (KuzLive.raw_iv m iv)
  refine ⟨_, j', cs, ?_, h1, by rw [ctr_eq_from]; exact h2⟩
  unfold KuzLive.StCTREncrypted.iter
  rw [KuzLive.bind_ok hs]
  rfl

/-! ### Keys -/

/-- C119: every use of a key made from a text, whatever the text, or from any words and any table of 64 bytes, returns or
throws. -/
theorem C119_magma_keys (text : List Char) (words : List (BitVec 32)) (uz : List Byte) :
    ReturningKey (Magma.LazyKey.ofString text) ∧
      ReturningKey (Magma.LazyKey.ofNative words (Magma.SboxTwisted (Magma.SboxByte uz))) :=
  ⟨Magma.lazyKey_returning (Magma.cachedData_returns (Magma.keyDataString_returns text)) Magma.r3412_returns,
    Magma.lazyKey_returning (fun i => Magma.vgetI_returns words i) (Magma.twisted_returns (Magma.sboxByte_returns uz))⟩

/-- C119: every use of a key of the 128-bit cipher made from a text, whatever the text, returns or throws. -/
theorem C119_kuznyechik_keys (m : Machine) (text : List Char) (key : Kuz.Key) (h : Kuz.Key.ofString text = .ok key) :
    ReturningKuzKey m key := Kuz.ofString_returning h

/-! ### Examples -/

theorem deviceRead_endless (w : Nat) : EndlessSource deviceRead () w :=
  ⟨fun _ _ => True, trivial, fun _ w _ => ⟨_, (), w + 8, rfl, by simp, trivial⟩⟩

/-- The code of an endless device is never returned. -/
example (m : Machine) (text : List Char) (w fuel : Nat) :
    (Magma.Imit.value m deviceRead fuel () (some (Magma.LazyKey.ofString text)) w).1 = .diverge := by
  by_contra h
  exact (C119_mac_returns_iff m deviceRead (fun _ _ _ => by simp [deviceRead]) _ (C119_magma_keys text [] []).1 () w).1
    ⟨fuel, h⟩ (deviceRead_endless w)

/-- A source that gives one block of 8 bytes, and then no more, is not endless: the code is returned. -/
example (m : Machine) (text : List Char) : ∃ fuel, (Magma.Imit.value m
    (fun (n : Nat) _ => (fun w => (.ok (if n = 0 then ([1, 2, 3, 4, 5, 6, 7, 8], 1) else ([], 1)), w) :
      Io Unit (List Byte × Nat))) fuel 0 (some (Magma.LazyKey.ofString text)) ()).1 ≠ .diverge := by
  refine (C119_mac_returns_iff m _ (fun _ _ _ => by simp) _ (C119_magma_keys text [] []).1 0 ()).2 ?_
  rintro ⟨R, h0, hR⟩
  obtain ⟨x, s, w, h1, h2, h3⟩ := hR 0 () h0
  cases h1
  obtain ⟨x, s, w, h1, h2, h3⟩ := hR 1 () h3
  cases h1
  simp at h2

theorem counterIter_endless (i : Nat) : EndlessStream counterIter i () :=
  ⟨fun _ _ => True, trivial, fun i _ _ => ⟨_, i + 1, (), (), (), rfl, rfl, rfl, trivial⟩⟩

/-- The code of an endless stream, encrypted or not, is never returned; its counter-mode encryption begins with the
ciphertext of the standard. -/
example (m : Machine) (hm : m.unalignedLoad = true) (iv : BitVec 64) : ∃ key j j' cs, Kuz.Key.ofString kuzKeyText = .ok key ∧
    (∀ fuel, (KuzLive.Imit.value m counterIter (pure (some 5)) fuel key ()).1 = .diverge) ∧
    KuzLive.StCTREncrypted.iter (pure (some 5)) key iv () = (.ok (some j), ()) ∧
    EndlessStream (KuzLive.ItCTR.impl m counterIter) j () ∧ Begins (KuzLive.ItCTR.impl m counterIter) j () cs j' () ∧
    cs.map join64 = ctr (k := 64) (Spec.Kuz.enc (BitVec.ofNat 256 (hexNat kuzKeyText))) iv
      [join64 (5, 0), join64 (6, 0), join64 (7, 0)] := by
  obtain ⟨key, h1, h2⟩ := C44_key_from_text m hm kuzKeyText (by decide) (by decide)
  obtain ⟨j, h3, h4⟩ := C119_ctr_endless m key _ h2 counterIter (pure (some 5)) 5 () () rfl (counterIter_endless 5) iv
  obtain ⟨j1, j', cs, h5, h6, h7⟩ := C119_ctr_begins m key _ h2 counterIter (pure (some 5)) 5 8 () () () rfl
    [(5, 0), (6, 0), (7, 0)] ⟨6, (), (), (), rfl, rfl, rfl, 7, (), (), (), rfl, rfl, rfl, 8, (), (), (), rfl, rfl, rfl,
      rfl, rfl⟩ iv
  rw [h3] at h5
  cases h5
  refine ⟨key, j, j', cs, h1, fun fuel => ?_, h3, h4, h6, h7⟩
  by_contra hd
  exact (C119_kuznyechik_mac_returns_iff m counterIter (fun _ _ => by simp [counterIter]) key
    (C119_kuznyechik_keys m _ _ h1) (pure (some 5)) () (Magma.pure_returns _ _)).1 ⟨fuel, hd⟩
    ⟨5, (), rfl, counterIter_endless 5⟩

/-- `read` of a `CFBSource` over the endless device returns, whatever is asked for. -/
example (m : Machine) (text : List Char) (iv : BitVec 64) (size w : Nat) : (Magma.CFBSource.read m deviceRead
    ⟨(), Magma.LazyKey.ofString text, iv, iv, []⟩ size w).1 ≠ .diverge :=
  C119_cfb_source m deviceRead (fun _ _ _ => by simp [deviceRead]) _ (C119_magma_keys text [] []).1 size w

/-! Each theorem at a concrete case -/

example (text : List Char) := C119_ecb_sink (fun (_ : Unit) x => (fun n => (.ok (), n + x.length) : Io Nat Unit)) (fun _ _ _ => by simp)
  ⟨(), Magma.LazyKey.ofString text⟩ (C119_magma_keys text [] []).1 [1, 2, 3] 0

example (m : Machine) (text : List Char) := C119_cfb_sink m (fun (_ : Unit) x => (fun n => (.ok (), n + x.length) : Io Nat Unit))
  (fun _ _ _ => by simp) ⟨(), Magma.LazyKey.ofString text, 1, 2, []⟩ (C119_magma_keys text [] []).1 [1, 2, 3] 0

example (m : Machine) (text : List Char) := C119_gost89_cfb_sink m
  (fun (_ : Unit) x => (fun n => (.ok (), n + x.length) : Io Nat Unit))
  (fun _ _ _ => by simp) ⟨(), Magma.LazyKey.ofString text, 1, []⟩ (C119_magma_keys text [] []).1 [1, 2, 3] 0

example (m : Machine) (text : List Char) := C119_ecb_source m deviceRead (fun _ _ _ => by simp [deviceRead]) () _
  (C119_magma_keys text [] []).1 8 5

example (m : Machine) (text : List Char) := C119_cfb_source m deviceRead (fun _ _ _ => by simp [deviceRead])
  ⟨(), Magma.LazyKey.ofString text, 1, 2, []⟩ (C119_magma_keys text [] []).1 8 5

example (m : Machine) (text : List Char) := C119_gost89_cfb_source m deviceRead (fun _ _ _ => by simp [deviceRead])
  ⟨(), Magma.LazyKey.ofString text, 1, []⟩ (C119_magma_keys text [] []).1 8 5

example (m : Machine) (text : List Char) := C119_data_mac m [1, 2, 3] _ (C119_magma_keys text [] []).1

example (m : Machine) (text : List Char) := C119_mac_returns_iff m deviceRead (fun _ _ _ => by simp [deviceRead]) _
  (C119_magma_keys text [] []).1 () 5

example (m : Machine) (hm : m.unalignedLoad = true) := C119_ctr_endless m (Kuz.Key.ofBlocks (.raw 1 2) (.raw 3 4)) _
  (encrypts_ofBlocks hm rfl rfl 0) counterIter (pure (some 5)) 5 () () rfl (counterIter_endless 5) 7

example (m : Machine) (hm : m.unalignedLoad = true) := C119_ctr_begins m (Kuz.Key.ofBlocks (.raw 1 2) (.raw 3 4)) _
  (encrypts_ofBlocks hm rfl rfl 0) counterIter (pure (some 5)) 5 7 () () () rfl [(5, 0), (6, 0)]
  ⟨6, (), (), (), rfl, rfl, rfl, 7, (), (), (), rfl, rfl, rfl, rfl, rfl⟩ 9

example := C119_mac_budget .x86 (memRead (W := Unit)) none [1, 2, 3] () 1 5 (by decide)

example (m : Machine) (text : List Char) (key : Kuz.Key) (h : Kuz.Key.ofString text = .ok key) (iv : BitVec 64) :=
  C119_ctr_returns m counterIter (fun _ _ => by simp [counterIter]) key (C119_kuznyechik_keys m text key h) (pure (some 5)) iv ()
    () ⟨some 5, key, .raw 0 iv⟩ ⟨some 6, key, .incremented (.raw 0 iv)⟩ rfl (.next _ _ () () .self rfl) ()

example (m : Machine) (key : Kuz.Key) := C119_kuznyechik_mac_budget m counterIter key (fun w => (.throw (.user 3), w)) () 1 5
  (by show (Exec.throw (.user 3) : Exec (BitVec 64 × BitVec 64)) ≠ .diverge; simp)

end Goost.Props
