import Verif.Lemmas.ScarceLiveStreams
import Verif.Lemmas.Layers
import Verif.Props.Cfb
import Verif.Props.Mac
/-
Property C114: a key of the 64-bit cipher and running out of memory. `UnlessOutWith`, `AnswersUnlessOut`, `WithKey`
and `MagmaUse` are in Spec/ScarceLive, `Sent` and `Took` are in Spec/Scarce.
-/
namespace Goost.Props
open Goost.Magma Spec Spec.Magma Spec.Modes
variable {Ω V σ τ : Type}

/-! ### The key -/

/-- C114. A key made of a text: whichever requests for memory are refused while it is used, and however often, it
gives the answers of a key without a cache, or `bad_alloc`. No state that it can get into is worse than the state
of a new key. -/
theorem C114_text_key (V : Type) (s : List Char) (sbox : Sbox) : ∃ I : CachedData → Prop, I {} ∧
    AnswersUnlessOut V I (ScarceLive.textKey s sbox) (LazyKey.ofStringSbox s sbox) :=
  ⟨_, ⟨rfl, fun h => absurd h (by decide)⟩, ScarceLive.textKey_answers s sbox⟩

/-- C114 for the constructor: without memory there is no key, otherwise there is one with an empty cache. -/
theorem C114_constructor (s : List Char) (sbox : Sbox) (c : CachedData) (v : V) :
    ScarceLive.LazyKey.ofStringSbox s sbox (0, c, v) = (.throw .badAlloc, (0, c, v)) ∧
      ∀ n, ScarceLive.LazyKey.ofStringSbox s sbox (n + 1, c, v) = (.ok (ScarceLive.textKey s sbox), (n, {}, v)) :=
  ⟨rfl, fun _ => rfl⟩

/-- C114 for keys given as words: they have no state and need no memory once they are made. -/
theorem C114_native_key (V : Type) (I : Ω → Prop) (key_data : List W32) (sbox : Sbox) :
    AnswersUnlessOut V I (ScarceLive.nativeKey key_data sbox) (LazyKey.ofNative key_data sbox) ∧
      (∀ v i w, ((ScarceLive.nativeKey key_data sbox).transform v i w).2 = (w : Nat × Ω × V)) ∧
      ∀ (w : Ω × V), ScarceLive.LazyKey.ofNative key_data sbox (0, w) = (.throw .badAlloc, (0, w)) ∧
        ∀ n, ScarceLive.LazyKey.ofNative key_data sbox (n + 1, w) =
          (.ok (ScarceLive.nativeKey key_data sbox), (n, w)) := by
  refine ⟨ScarceLive.nativeKey_answers key_data sbox, fun v i w => ?_, fun w => ⟨rfl, fun _ => rfl⟩⟩
  show ((Io.lift (KeyDataNative key_data i) >>= fun k => Io.lift (sbox (k + v)) : Io (Nat × Ω × V) W32) w).2 = w
  cases KeyDataNative key_data i <;> rfl

/-- C114 for an `ECBSource` made from a container: there is one with the key of the container, or `bad_alloc`; in
this case no more has been asked of the container than for a key. -/
theorem C114_container (I : Ω → Prop) (source : σ) (c : UserContainer V) :
    UnlessOutWith I (Asked c) (SameSourceAndKey I source)
      (ScarceLive.ECBSource.ofContainer source (asideContainer c)) (ECBSource.ofUserContainer source c) :=
  ScarceLive.ofContainer_unless source c

/-! ### Streams and codes, with such a key -/

/-- C114 for writes to an `ECBSink`, any number of them. -/
theorem C114_ecb_sink (I : Ω → Prop) (k : Live.Key (Nat × Ω × V)) (q : Key) (hk : AnswersUnlessOut V I k q)
    (f : Fin 8 → BitVec 32 → BitVec 32) (h : Computes q f) (wr : τ → List Byte → Io V τ) (s : τ)
    (ds : List (List Byte)) :
    UnlessOutWith I (Sent wr s (ds.flatMap fun d => (ecb (encF f) (blocks64 d)).map bytesOf64)) (WithKey.ecbSink k)
      (writeAll (ScarceLive.ECBSink.write fun s d => aside (wr s d)) ⟨s, k⟩ ds)
      (writeAll (ECBSink.write wr) ⟨s, q⟩ ds) :=
  ScarceLive.ECBSink_writes_unless wr hk h ds s

/-- C114 for writes to a `CFBSink`. -/
theorem C114_cfb_sink (m : Machine) (I : Ω → Prop) (k : Live.Key (Nat × Ω × V)) (q : Key)
    (hk : AnswersUnlessOut V I k q) (f : Fin 8 → BitVec 32 → BitVec 32) (h : Computes q f) (hl : q.isLazy = true)
    (wr : τ → List Byte → Io V τ) (s : τ) (ivl ivr : BitVec 64) (ds : List (List Byte)) :
    UnlessOutWith I (Sent wr s ((cfbEnc (encF f) [ivl, ivr] (blocks64 ds.flatten)).map bytesOf64))
      (WithKey.cfbSink k)
      (writeAll (ScarceLive.CFBSink.write m fun s d => aside (wr s d)) ⟨s, k, ivl, ivr, []⟩ ds)
      (writeAll (CFBSink.write m wr) (CFBSink.new s q ivl ivr) ds) :=
  ScarceLive.CFBSink_writes_unless wr hk h hl ds s [] (by simp) ivl ivr

/-- C114 for writes to a `gost89::CFBSink`. -/
theorem C114_gost89_cfb_sink (m : Machine) (I : Ω → Prop) (k : Live.Key (Nat × Ω × V)) (q : Key)
    (hk : AnswersUnlessOut V I k q) (f : Fin 8 → BitVec 32 → BitVec 32) (h : Computes q f) (hl : q.isLazy = true)
    (wr : τ → List Byte → Io V τ) (s : τ) (iv : BitVec 64) (ds : List (List Byte)) :
    UnlessOutWith I (Sent wr s ((cfbEnc (encF f) [iv] (blocks64 ds.flatten)).map bytesOf64))
      (WithKey.gostSink k)
      (writeAll (ScarceLive.Gost89.CFBSink.write m fun s d => aside (wr s d)) ⟨s, k, iv, []⟩ ds)
      (writeAll (Gost89.CFBSink.write m wr) (Gost89.CFBSink.new s q iv) ds) :=
  ScarceLive.gost89_CFBSink_writes_unless wr hk h hl ds s [] (by simp) iv

/-- C114 for `finalize`: all or nothing. -/
theorem C114_finalize (m : Machine) (I : Ω → Prop) (k : Live.Key (Nat × Ω × V)) (q : Key)
    (hk : AnswersUnlessOut V I k q) (wr : τ → List Byte → Io V τ) (s : τ) (ivl ivr iv : BitVec 64)
    (held : List Byte) :
    UnlessOutWith I (fun v v' => v' = v) Eq
        (ScarceLive.CFBSink.finalize m (fun s d => aside (wr s d)) ⟨s, k, ivl, ivr, held⟩)
        (CFBSink.finalize m wr ⟨s, q, ivl, ivr, held⟩) ∧
      UnlessOutWith I (fun v v' => v' = v) Eq
        (ScarceLive.Gost89.CFBSink.finalize m (fun s d => aside (wr s d)) ⟨s, k, iv, held⟩)
        (Gost89.CFBSink.finalize m wr ⟨s, q, iv, held⟩) :=
  ⟨ScarceLive.CFBSink_finalize_unless wr hk s ivl ivr held, ScarceLive.gost89_CFBSink_finalize_unless wr hk s iv held⟩

/-- C114 for reading from an `ECBSource`: the data of unlimited memory, or `bad_alloc`; never other data. -/
theorem C114_ecb_source (m : Machine) (I : Ω → Prop) (k : Live.Key (Nat × Ω × V)) (q : Key)
    (hk : AnswersUnlessOut V I k q) (rd : σ → Nat → Io V (List Byte × σ)) (s : σ) (n : Nat) :
    UnlessOutWith I (Took rd s) (WithKey.ecbSource k q)
      (ScarceLive.ECBSource.read m (fun s n => aside (rd s n)) (.ecb s k) n) (ECBSource.read m rd (.ecb s q) n) :=
  ScarceLive.ECBSource_read_unless rd hk s n

/-- C114 for reading from a `CFBSource` in any state. -/
theorem C114_cfb_source (m : Machine) (I : Ω → Prop) (k : Live.Key (Nat × Ω × V)) (q : Key)
    (hk : AnswersUnlessOut V I k q) (rd : σ → Nat → Io V (List Byte × σ)) (s : σ) (ivl ivr : BitVec 64)
    (held : List Byte) (n : Nat) :
    UnlessOutWith I (Took rd s) (WithKey.cfbSource k q)
      (ScarceLive.CFBSource.read m (fun s n => aside (rd s n)) ⟨s, k, ivl, ivr, held⟩ n)
      (CFBSource.read m rd ⟨s, q, ivl, ivr, held⟩ n) :=
  ScarceLive.UW.alloc (fun _ => .none ..) (ScarceLive.CFBSource_loop_unless rd hk _ _ _ _ _ _ _)

/-- C114 for reading from a `gost89::CFBSource` in any state. -/
theorem C114_gost89_cfb_source (m : Machine) (I : Ω → Prop) (k : Live.Key (Nat × Ω × V)) (q : Key)
    (hk : AnswersUnlessOut V I k q) (rd : σ → Nat → Io V (List Byte × σ)) (s : σ) (iv : BitVec 64)
    (held : List Byte) (n : Nat) :
    UnlessOutWith I (Took rd s) (WithKey.gostSource k q)
      (ScarceLive.Gost89.CFBSource.read m (fun s n => aside (rd s n)) ⟨s, k, iv, held⟩ n)
      (Gost89.CFBSource.read m rd ⟨s, q, iv, held⟩ n) :=
  ScarceLive.UW.alloc (fun _ => .none ..) (ScarceLive.gost89_CFBSource_loop_unless rd hk _ _ _ _ _ _)

/-- C114 for the authentication code of a source: the code, or `bad_alloc`; never another code. -/
theorem C114_mac (m : Machine) (I : Ω → Prop) (k : Live.Key (Nat × Ω × V)) (q : Key)
    (hk : AnswersUnlessOut V I k q) (rd : σ → Nat → Io V (List Byte × σ)) (fuel : Nat) (s : σ) :
    UnlessOutWith I (Took rd s) Eq (ScarceLive.Imit.value m (fun s n => aside (rd s n)) fuel s (some k))
      (Imit.value m rd fuel s (some q)) :=
  ScarceLive.Imit_value_unless rd fuel s hk

/-- C114 for the authentication code of GOST 28147-89. -/
theorem C114_data_mac (m : Machine) (I : Ω → Prop) (k : Live.Key (Nat × Ω × V)) (q : Key)
    (hk : AnswersUnlessOut V I k q) (data : List Byte) :
    UnlessOutWith I (fun v v' => v' = v) Eq (ScarceLive.Gost89.DataImit.value m data (some k))
      (Io.lift (Gost89.DataImit.value m data (some q))) :=
  ScarceLive.UW.alloc (P := ScarceLive.Same) (fun _ => rfl) (ScarceLive.DataImit_loop_unless
    (ko := some k) (qo := some q) hk _ _)

/-! ### Histories -/

/-- C114. After any sequence of uses of one key, each with whatever memory there was, the next one has the result of
unlimited memory, or throws `bad_alloc`. The latter does not happen if there is as much memory as this use needs,
whatever has happened to the key: so a use that failed can be repeated. -/
theorem C114_history (m : Machine) (I : Ω → Prop) (k : Live.Key (Nat × Ω × Unit)) (q : Key)
    (hk : AnswersUnlessOut Unit I k q) (f : Fin 8 → BitVec 32 → BitVec 32) (h : Computes q f)
    (hl : q.isLazy = true) (ω : Ω) (hω : I ω) (u : MagmaUse) :
    ∃ need, ∀ (tries : List (Nat × MagmaUse)) (memory : Nat),
      let next := (MagmaUse.attempt m k (memory, u) (runCalls (MagmaUse.attempt m k) tries ω).2).1
      next = (u.unlimited m q ()).1 ∨ (memory < need ∧ next = .throw .badAlloc) := by
  have step : ∀ (a : Nat × MagmaUse) ω, I ω → I (MagmaUse.attempt m k a ω).2 := by
    intro a ω hω
    obtain ⟨N, hN⟩ := ScarceLive.use_unless (m := m) hk h hl a.2 ()
    obtain ⟨r, n', ω', v', e, h1, -⟩ := hN ω a.1 hω
    simpa [MagmaUse.attempt, e] using h1
  have all : ∀ (tries : List (Nat × MagmaUse)) ω, I ω → I (runCalls (MagmaUse.attempt m k) tries ω).2 := by
    intro tries
    induction tries with
    | nil => exact fun _ h => h
    | cons a tries ih => exact fun ω hω => ih _ (step a ω hω)
  obtain ⟨N, hN⟩ := ScarceLive.use_unless (m := m) hk h hl u ()
  refine ⟨N, fun tries n => ?_⟩
  obtain ⟨r, n', ω', v', e, -, h2⟩ := hN _ n (all tries ω hω)
  simp only [MagmaUse.attempt, e]
  rcases h2 with ⟨h2, -, -⟩ | ⟨h2, h3, -⟩
  · left
    revert h2
    generalize (u.unlimited m q ()).1 = y
    cases r <;> cases y <;> simp [SameOutcome]
  · exact .inr ⟨h2, h3⟩

/-- C114 for a new key given by 64 hexadecimal digits. -/
theorem C114_text_key_history (m : Machine) (s : List Char) (hs : IsHex s) (hl : s.length = 64) (u : MagmaUse) :
    ∃ need, ∀ (tries : List (Nat × MagmaUse)) (memory : Nat),
      let attempt := MagmaUse.attempt m (ScarceLive.textKey s SboxR3412)
      let next := (attempt (memory, u) (runCalls attempt tries {}).2).1
      next = (u.unlimited m (LazyKey.ofString s) ()).1 ∨ (memory < need ∧ next = .throw .badAlloc) := by
  obtain ⟨I, h0, hk⟩ := C114_text_key Unit s SboxR3412
  exact C114_history m I _ (LazyKey.ofString s) hk _ (LazyKey_ofString_computes hs hl) rfl {} h0 u

/-- C114: the results of unlimited memory are those of the standards. -/
theorem C114_unlimited_standard (m : Machine) (s : List Char) (hs : IsHex s) (hl : s.length = 64) :
    let K := BitVec.ofNat 256 (hexNat s)
    let result := fun u : MagmaUse => (u.unlimited m (LazyKey.ofString s) ()).1
    (∀ x, result (.encrypt x) = .ok (bytesOf64 (Spec.Magma.enc K x))) ∧
    (∀ x, result (.decrypt x) = .ok (bytesOf64 (Spec.Magma.dec K x))) ∧
    (∀ x, result (.base x) = .ok (bytesOf64 (Spec.Magma.enc K x))) ∧
    (∀ ds : List (List Byte), (∀ d ∈ ds, d.length % 8 = 0) →
      result (.ecbWrite ds) = .ok (((blocks64 ds.flatten).map (Spec.Magma.enc K)).flatMap bytesOf64)) ∧
    (∀ ivl ivr, ∀ ds : List (List Byte), ds.flatten.length % 8 = 0 → result (.cfbWrite ivl ivr ds) =
      .ok ((cfbEnc (Spec.Magma.enc K) [ivl, ivr] (blocks64 ds.flatten)).flatMap bytesOf64)) := by
  have hc := LazyKey_ofString_computes hs hl
  have hE : encF (fun i => g pi (keyWord (BitVec.ofNat 256 (hexNat s)) i)) =
    Spec.Magma.enc (BitVec.ofNat 256 (hexNat s)) := rfl
  intro K result
  refine ⟨fun x => ?_, fun x => ?_, fun x => ?_, fun ds hd => ?_, fun ivl ivr ds hd => ?_⟩
  · obtain ⟨v, h1, h2⟩ := C03_encrypt_conforms m s hs hl (BlkRaw.ofU64 x) _ (by rw [ofU64_eq]; rfl)
    rw [join32_surj] at h2
    show (((Io.lift _ : Io Unit _) >>= _) ()).1 = _
    rw [h1, ← h2, ← bytes32_pair]
    rfl
  · obtain ⟨v, h1, h2⟩ := C03_decrypt_conforms m s hs hl (BlkRaw.ofU64 x) _ (by rw [ofU64_eq]; rfl)
    rw [join32_surj] at h2
    show (((Io.lift _ : Io Unit _) >>= _) ()).1 = _
    rw [h1, ← h2, ← bytes32_pair]
    rfl
  · show (((Io.lift _ : Io Unit _) >>= _) ()).1 = _
    rw [C03_encryptionBase_conforms s hs hl, ← bytes64_eq_spec]
    rfl
  · obtain ⟨s', w', e1, e2⟩ := (memWrite_collects (W := Unit)).writeAll
      ((ecb (Spec.Magma.enc K) (blocks64 ds.flatten)).map bytesOf64) [] ()
    have e := congrFun (ECBSink_writes_eq (W := Unit) memWrite hc [] ds hd) ()
    rw [hE, show (_ >>= _ : Io Unit (ECBSink (List Byte))) () = _ from Io.bind_run_ok e1] at e
    show (((_ : Io Unit (ECBSink (List Byte))) >>= _ : Io Unit _) ()).1 = _
    rw [Io.bind_run_ok e]
    exact congrArg Exec.ok (by rw [List.flatMap_def]; exact e2)
  · obtain ⟨s', w', e1, e2⟩ := (memWrite_collects (W := Unit)).writeAll
      ((cfbEnc (Spec.Magma.enc K) [ivl, ivr] (blocks64 ds.flatten)).map bytesOf64) [] ()
    have e := congrFun (CFBSink_writes_eq (W := Unit) m memWrite hc rfl ds [] ivl ivr _ rfl) ()
    rw [hE, show (_ >>= _ : Io Unit (CFBSink (List Byte))) () = _ from Io.bind_run_ok e1] at e
    have hz : ds.flatten.drop (8 * (ds.flatten.length / 8)) = [] := List.drop_eq_nil_of_le (by omega)
    show ((writeAll (CFBSink.write m memWrite) (CFBSink.new [] _ ivl ivr) ds >>= _ : Io Unit _) ()).1 = _
    rw [Io.bind_run_ok e, hz]
    exact congrArg Exec.ok (by rw [List.flatMap_def]; exact e2)

/-! ### Examples -/

/-- The hypotheses can be met: a new key of this text. -/
example : IsHex sampleKeyText ∧ sampleKeyText.length = 64 ∧
    Computes (LazyKey.ofString sampleKeyText) (fun i => g pi (keyWord (BitVec.ofNat 256 (hexNat sampleKeyText)) i)) :=
  ⟨by decide, by decide, sampleKey_computes⟩

/-- The cache after memory has run out at the fourth word: three words have been stored, and it does not count as
filled. With more memory the next use has a result. -/
example :
    let first := (ScarceLive.textKey sampleKeyText SboxR3412).transform 0 7 (3, {}, ())
    let again := (ScarceLive.textKey sampleKeyText SboxR3412).transform 0 7 (8, first.2.2.1, ())
    first.1 = .throw .badAlloc ∧ first.2.2.1.cached = false ∧
      first.2.2.1.key.take 4 = [0xffeeddcc, 0xbbaa9988, 0x77665544, 0] ∧
      again.1 = (LazyKey.ofString sampleKeyText).transform 0 7 ∧ again.2.2.1.cached = true := by
  decide +kernel

/-- A container with a key of 32 bytes and a table of 64: four requests for memory give an `ECBSource`, three do not,
and the container has been asked for both (the world counts the questions). -/
example :
    let c : UserContainer Nat := ⟨fun n => (.ok (List.replicate 32 7), n + 1), fun n => (.ok [], n + 10),
      fun n => (.ok (List.replicate 64 0x31), n + 1)⟩
    let make := ScarceLive.ECBSource.ofContainer (σ := Unit) () (asideContainer (Ω := Unit) c)
    (make (3, (), 0)).1 = .throw .badAlloc ∧ (make (3, (), 0)).2 = (0, (), 2) ∧ (make (1, (), 0)).2 = (0, (), 1) ∧
      (∃ x, (make (4, (), 0)).1 = .ok x) ∧ ∃ y, (ECBSource.ofUserContainer (σ := Unit) () c 0).1 = .ok y := by
  refine ⟨rfl, rfl, rfl, ⟨_, rfl⟩, ⟨_, rfl⟩⟩

/-! The theorems at a key made of the text of the standard's example. -/

example (m : Machine) : True := by
  obtain ⟨I, h0, hk⟩ := C114_text_key (List Byte) sampleKeyText SboxR3412
  have := C114_ecb_sink I _ _ hk _ sampleKey_computes fileWrite () [sampleData]
  have := C114_cfb_sink m I _ _ hk _ sampleKey_computes rfl fileWrite () 1 2 [sampleData]
  have := C114_gost89_cfb_sink m I _ _ hk _ sampleKey_computes rfl fileWrite () 1 [sampleData]
  have := C114_finalize m I _ _ hk fileWrite () 1 2 3 [4, 5]
  have := C114_ecb_source m I _ _ hk memRead sampleData 10
  have := C114_cfb_source m I _ _ hk memRead sampleData 1 2 [4, 5] 10
  have := C114_gost89_cfb_source m I _ _ hk memRead sampleData 1 [4, 5] 10
  have := C114_mac m I _ _ hk memRead 20 sampleData
  have := C114_data_mac m I _ _ hk sampleData
  trivial

example (m : Machine) (u : MagmaUse) : True := by
  obtain ⟨I, h0, hk⟩ := C114_text_key Unit sampleKeyText SboxR3412
  have := C114_history m I _ _ hk _ sampleKey_computes rfl _ h0 u
  trivial

example (m : Machine) (u : MagmaUse) := C114_text_key_history m sampleKeyText (by decide) (by decide) u

end Goost.Props
