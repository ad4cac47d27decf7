import Verif.Lemmas.LiveAsk
import Verif.Props.Layers
/-
Properties C105 and C106: keys that have a state of their own — a cache, a token, a file.
-/
namespace Goost.Props
open Goost.Magma Spec Spec.Magma Spec.Modes
variable {Ω V σ τ σ' τ' : Type}

/-! ### The state of a key that always gives the same answers is not observable -/

/-- C105 for `ECBSink`: with a key that has a state of its own but always answers like `q`, over a sink that
does the same as another sink, every write does the same as with `q` over that sink. -/
theorem C105_ecb_sink (I : Ω → Prop) (R : τ → τ' → Prop) (wr : τ → List Byte → Io (Ω × V) τ)
    (wr' : τ' → List Byte → Io V τ') (hw : SameSink I R wr wr') (k : Live.Key (Ω × V)) (q : Key)
    (hk : AnswersLike I k q) :
    SameSink I (fun t t' => R t.sink t'.sink ∧ t.key = k ∧ t'.key = q) (Live.ECBSink.write wr)
      (ECBSink.write wr') := by
  rintro ⟨s, _⟩ ⟨s', _⟩ d ⟨hs, rfl, rfl⟩
  exact ECBSink_loop_same hw hk d [] s s' hs

/-- C105 for `CFBSink`. -/
theorem C105_cfb_sink (m : Machine) (I : Ω → Prop) (R : τ → τ' → Prop) (wr : τ → List Byte → Io (Ω × V) τ)
    (wr' : τ' → List Byte → Io V τ') (hw : SameSink I R wr wr') (k : Live.Key (Ω × V)) (q : Key)
    (hk : AnswersLike I k q) :
    SameSink I (SameCFBSink R k q) (Live.CFBSink.write m wr) (CFBSink.write m wr') ∧
      ∀ t t', SameCFBSink R k q t t' →
        SameCall I R (Live.CFBSink.finalize m wr t) (CFBSink.finalize m wr' t') := by
  constructor
  · rintro ⟨s, _, ivl, ivr, p⟩ ⟨s', _, ivl', ivr', p'⟩ d ⟨hs, rfl, rfl, h⟩
    cases h
    exact CFBSink_loop_same hw hk d s s' hs p ivl ivr
  · rintro ⟨s, _, ivl, ivr, p⟩ ⟨s', _, ivl', ivr', p'⟩ ⟨hs, rfl, rfl, h⟩
    cases h
    unfold Live.CFBSink.finalize CFBSink.finalize
    by_cases hp : p = []
    · simp only [hp, ne_eq, not_true, if_false]
      exact SameCall.pure hs
    · simp only [hp, ne_eq, not_false_iff, if_true]
      refine SameCall.bind (SameBlk.encrypted (SameBlk.ofU64 _) (SamePointer.asLazy hk)) ?_
      rintro e _ rfl
      refine SameCall.bind (SameCall.rfl_lift _) ?_
      rintro c _ rfl
      exact hw _ _ _ hs

/-- C105 for `gost89::CFBSink`. -/
theorem C105_gost89_cfb_sink (m : Machine) (I : Ω → Prop) (R : τ → τ' → Prop)
    (wr : τ → List Byte → Io (Ω × V) τ) (wr' : τ' → List Byte → Io V τ') (hw : SameSink I R wr wr')
    (k : Live.Key (Ω × V)) (q : Key) (hk : AnswersLike I k q) :
    SameSink I (SameGostSink R k q) (Live.Gost89.CFBSink.write m wr) (Gost89.CFBSink.write m wr') ∧
      ∀ t t', SameGostSink R k q t t' →
        SameCall I R (Live.Gost89.CFBSink.finalize m wr t) (Gost89.CFBSink.finalize m wr' t') := by
  constructor
  · rintro ⟨s, _, iv, p⟩ ⟨s', _, iv', p'⟩ d ⟨hs, rfl, rfl, h⟩
    cases h
    exact gost89_CFBSink_loop_same hw hk d s s' hs p iv
  · rintro ⟨s, _, iv, p⟩ ⟨s', _, iv', p'⟩ ⟨hs, rfl, rfl, h⟩
    cases h
    unfold Live.Gost89.CFBSink.finalize Gost89.CFBSink.finalize
    by_cases hp : p = []
    · simp only [hp, ne_eq, not_true, if_false]
      exact SameCall.pure hs
    · simp only [hp, ne_eq, not_false_iff, if_true]
      refine SameCall.bind (SameBlk.encrypted (SameBlk.ofU64 _) (SamePointer.asLazy hk)) ?_
      rintro e _ rfl
      refine SameCall.bind (SameCall.rfl_lift _) ?_
      rintro c _ rfl
      exact hw _ _ _ hs

/-- C105 for `ECBSource`. -/
theorem C105_ecb_source (m : Machine) (I : Ω → Prop) (R : σ → σ' → Prop)
    (rd : σ → Nat → Io (Ω × V) (List Byte × σ)) (rd' : σ' → Nat → Io V (List Byte × σ'))
    (hr : SameSource I R rd rd') (k : Live.Key (Ω × V)) (q : Key) (hk : AnswersLike I k q) :
    SameSource I (SameECBSource R k q) (Live.ECBSource.read m rd) (ECBSource.read m rd') :=
  ECBSource_read_same hr hk

/-- C105 for `CFBSource`. -/
theorem C105_cfb_source (m : Machine) (I : Ω → Prop) (R : σ → σ' → Prop)
    (rd : σ → Nat → Io (Ω × V) (List Byte × σ)) (rd' : σ' → Nat → Io V (List Byte × σ'))
    (hr : SameSource I R rd rd') (k : Live.Key (Ω × V)) (q : Key) (hk : AnswersLike I k q) :
    SameSource I (SameCFBSource R k q) (Live.CFBSource.read m rd) (CFBSource.read m rd') := by
  rintro ⟨s, _, ivl, ivr, p⟩ ⟨s', _, ivl', ivr', p'⟩ d ⟨hs, rfl, rfl, h⟩
  cases h
  exact CFBSource_loop_same hr hk d (d + 1) s s' hs p ivl ivr []

/-- C105 for `gost89::CFBSource`. -/
theorem C105_gost89_cfb_source (m : Machine) (I : Ω → Prop) (R : σ → σ' → Prop)
    (rd : σ → Nat → Io (Ω × V) (List Byte × σ)) (rd' : σ' → Nat → Io V (List Byte × σ'))
    (hr : SameSource I R rd rd') (k : Live.Key (Ω × V)) (q : Key) (hk : AnswersLike I k q) :
    SameSource I (SameGostSource R k q) (Live.Gost89.CFBSource.read m rd) (Gost89.CFBSource.read m rd') := by
  rintro ⟨s, _, iv, p⟩ ⟨s', _, iv', p'⟩ d ⟨hs, rfl, rfl, h⟩
  cases h
  exact gost89_CFBSource_loop_same hr hk d (d + 1) s s' hs p iv []

/-- C105 for `Imit` and for `gost89::DataImit`. -/
theorem C105_mac (m : Machine) (I : Ω → Prop) (R : σ → σ' → Prop)
    (rd : σ → Nat → Io (Ω × V) (List Byte × σ)) (rd' : σ' → Nat → Io V (List Byte × σ'))
    (hr : SameSource I R rd rd') (k : Live.Key (Ω × V)) (q : Key) (hk : AnswersLike I k q) :
    (∀ fuel s s', R s s' →
      SameCall I Eq (Live.Imit.value m rd fuel s (some k)) (Imit.value m rd' fuel s' (some q))) ∧
    ∀ data, SameCall I Eq (Live.Gost89.DataImit.value m data (some k))
      (Io.lift (Gost89.DataImit.value m data (some q)) : Io V _) := by
  have hp : SamePointer I (some k) (some q) := hk
  constructor
  · intro fuel s s' hs
    unfold Live.Imit.value Imit.value Imit.build
    rw [bind_assoc]
    refine SameCall.bind (hr _ _ _ hs) ?_
    rintro ⟨b, s⟩ ⟨b', s'⟩ ⟨rfl, hs⟩
    simp only [bind_assoc]
    refine SameCall.bind (Imit_loop_same (m := m) hr hp fuel s s' hs b _ _ (SameBlk.ofU64 0)) ?_
    rintro ⟨x, y⟩ ⟨x', y'⟩ ⟨h1, h2⟩
    exact SameBlk.encrypted (SameBlk.xored h1 h2) hp
  · intro data
    exact DataImit_loop_same hp _ _

/-! ### The cache of `KeyCachedData` -/

/-- C105: the key that `LazyKey` builds over a `KeyCachedData`, with the cache as what it is — a mutable part
of the world, filled at the first question — answers like the key without a cache. A new cache meets the
invariant. So by the theorems above the cache is not observable through any stream. -/
theorem C105_cached_key (kd : KeyData) (sbox : Sbox) :
    ∃ I : CachedData → Prop, I {} ∧
      AnswersLike (V := V) I
        (Live.LazyKey (Live.KeyCachedData (·.1) (fun c w => (c, w.2)) fun i => aside (Io.lift (kd i)))
          fun v => Io.lift (sbox v))
        (LazyKey (KeyCachedData kd) sbox) := by
  refine ⟨CacheOf kd, ⟨none, fresh_rel, by simp⟩, rfl, fun v i => ?_⟩
  show SameCall _ _ _ (Io.lift (KeyCachedData kd i >>= fun k => sbox (k + v)))
  rw [Io.lift_bind]
  refine SameCall.bind (cached_same kd i) ?_
  rintro k _ rfl
  exact SameCall.rfl_lift _

/-- C105, from end to end: data written in any pieces to a `CFBSink` whose key has a real, initially empty
cache leave the standard's ciphertext with the sink below. -/
theorem C105_cached_cfb_conforms (m : Machine) (kd : KeyData) (sbox : Sbox)
    (f : Fin 8 → BitVec 32 → BitVec 32) (hf : Computes (LazyKey (KeyCachedData kd) sbox) f)
    (wr : τ → List Byte → Io V τ) (content : τ → V → List Byte) (hw : Collects wr content)
    (s : τ) (w : V) (ivl ivr : BitVec 64) (ds : List (List Byte)) (hd : ds.flatten.length % 8 = 0) :
    ∃ s1 c w1, (do
        let t ← writeAll (Live.CFBSink.write m fun s d => aside (wr s d))
          ⟨s, Live.LazyKey (Live.KeyCachedData (·.1) (fun c w => (c, w.2)) fun i => aside (Io.lift (kd i)))
            fun v => Io.lift (sbox v), ivl, ivr, []⟩ ds
        Live.CFBSink.finalize m (fun s d => aside (wr s d)) t) (({}, w) : CachedData × V) =
          (.ok s1, (c, w1)) ∧
      content s1 w1 = content s w ++ unblocks64 (cfbEnc (encF f) [ivl, ivr] (blocks64 ds.flatten)) := by
  obtain ⟨I, h0, hk⟩ := C105_cached_key (V := V) kd sbox
  have hs : SameSink I Eq (fun s d => aside (wr s d)) wr := by
    rintro s _ d rfl
    exact SameCall.aside _
  obtain ⟨h1, h2⟩ := C105_cfb_sink m I Eq _ wr hs _ _ hk
  have hc : SameCall I Eq (do
      let t ← writeAll (Live.CFBSink.write m fun s d => aside (wr s d))
        ⟨s, Live.LazyKey (Live.KeyCachedData (·.1) (fun c w => (c, w.2)) fun i => aside (Io.lift (kd i)))
          fun v => Io.lift (sbox v), ivl, ivr, []⟩ ds
      Live.CFBSink.finalize m (fun s d => aside (wr s d)) t)
      (do
        let t ← writeAll (CFBSink.write m wr) (CFBSink.new s (LazyKey (KeyCachedData kd) sbox) ivl ivr) ds
        CFBSink.finalize m wr t) :=
    SameCall.bind (writeAll_same h1 ds _ _ ⟨rfl, rfl, rfl, rfl⟩) h2
  have he : (do
      let t ← writeAll (CFBSink.write m wr) (CFBSink.new s (LazyKey (KeyCachedData kd) sbox) ivl ivr) ds
      CFBSink.finalize m wr t) =
      writeAll wr s ((cfbEnc (encF f) [ivl, ivr] (blocks64 ds.flatten)).map bytesOf64) := by
    have e8 : 8 * (ds.flatten.length / 8) = ds.flatten.length := by omega
    rw [CFBSink_writes_eq m wr hf rfl ds s ivl ivr _ rfl, bind_assoc, e8, List.drop_length]
    simp [CFBSink.finalize]
  rw [he] at hc
  obtain ⟨s1, w1, e3, e4⟩ := hw.writeAll
    ((cfbEnc (encF f) [ivl, ivr] (blocks64 ds.flatten)).map bytesOf64) s w
  obtain ⟨c', -, e1, e2⟩ := hc {} w h0
  rw [e3] at e1 e2
  refine ⟨s1, c', w1, Prod.ext ?_ e1, by rw [e4, pieces_flatten]⟩
  revert e2
  generalize Prod.fst _ = r
  cases r <;> simp [SameOutcome]

/-! ### Which words of the key are asked for -/

/-- C106: evaluating the encryption of a block asks for the words of the key in the order of the standard,
and for nothing else; decryption asks in the reverse order. The same holds for `EncryptionBase`. -/
theorem C106_words_asked (m : Machine) (q : Key) (f : Fin 8 → BitVec 32 → BitVec 32) (hf : Computes q f)
    (a b : BitVec 32) (x : BitVec 64) (l : List (Fin 8)) (w : V) :
    (∃ v, (Live.BlkEncrypted (.raw a b) (some (recordedKey q))).value m (l, w) =
        (.ok v, (l ++ schedule, w)) ∧ join32 v = encF f (join32 (a, b))) ∧
    (∃ v, (Live.BlkDecrypted (.raw a b) (some (recordedKey q))).value m (l, w) =
        (.ok v, (l ++ schedule.reverse, w)) ∧ join32 v = decF f (join32 (a, b))) ∧
    Live.EncryptionBase.transform (recordedKey q) x (l, w) = (.ok (encF f x), (l ++ schedule, w)) := by
  have h := recordedKey_asks (V := V) hf (.user 0)
  refine ⟨?_, ?_, ?_⟩
  · exact ⟨_, by rw [BlkEncrypted_asks h, askAll_record]; rfl, join32_encP f (a, b)⟩
  · exact ⟨_, by rw [BlkDecrypted_asks h, askAll_record]; rfl, join32_decP f (a, b)⟩
  · rw [EncryptionBase_asks h, askAll_record]; rfl

/-- C106: a write of whole blocks to an `ECBSink` asks for the words of the key once per block. -/
theorem C106_ecb_asked (q : Key) (f : Fin 8 → BitVec 32 → BitVec 32) (hf : Computes q f)
    (wr : τ → List Byte → Io V τ) (s s1 : τ) (w w1 : V) (d : List Byte) (hd : d.length % 8 = 0)
    (l : List (Fin 8)) (h : writeAll wr s ((ecb (encF f) (blocks64 d)).map bytesOf64) w = (.ok s1, w1)) :
    Live.ECBSink.write (fun s d => aside (wr s d)) ⟨s, recordedKey q⟩ d (l, w) =
      (.ok ⟨s1, recordedKey q⟩, (l ++ (List.replicate (d.length / 8) schedule).flatten, w1)) := by
  have hl := ECBSink_loop_asks wr (recordedKey_asks (V := V) hf (.user 0)) d [] (by simp) s
  have h' := askedWrites_record (e := .user 0) wr (ecbPieces f d) s s1 w w1 l h
  unfold Live.ECBSink.write
  rw [hl, List.nil_append, Io.bind_run_ok h', if_pos hd, ecbPieces_length]
  rfl

/-- C106: so do writes of any sizes to a `CFBSink`, once per complete block. -/
theorem C106_cfb_asked (m : Machine) (q : Key) (f : Fin 8 → BitVec 32 → BitVec 32) (hf : Computes q f)
    (hq : q.isLazy = true) (wr : τ → List Byte → Io V τ) (s s1 : τ) (w w1 : V) (ivl ivr : BitVec 64)
    (d : List Byte) (l : List (Fin 8))
    (h : writeAll wr s ((cfbEnc (encF f) [ivl, ivr] (blocks64 d)).map bytesOf64) w = (.ok s1, w1)) :
    ∃ t, Live.CFBSink.write m (fun s d => aside (wr s d)) ⟨s, recordedKey q, ivl, ivr, []⟩ d (l, w) =
      (.ok t, (l ++ (List.replicate (d.length / 8) schedule).flatten, w1)) ∧ t.sink = s1 := by
  have hl := CFBSink_loop_asks m wr (recordedKey_asks (V := V) hf (.user 0)) hq d [] (by simp) s ivl ivr _ rfl
  rw [List.nil_append] at hl
  have h' := askedWrites_record (e := .user 0) wr _ s s1 w w1 l h
  rw [List.length_map, cfbEnc_length _ _ _ (by simp), blocks64_length] at h'
  unfold Live.CFBSink.write
  rw [hl, Io.bind_run_ok h']
  exact ⟨_, rfl, rfl⟩

/-! ### A token is withdrawn -/

/-- C106: the key answers `n` questions and throws `e` then. A write of whole blocks to an `ECBSink` hands
down exactly the first ⌊n/32⌋ blocks of the ciphertext, and nothing of the next one, and throws `e`; if `n`
suffices, the token is not noticed. -/
theorem C106_ecb_withdrawn (q : Key) (f : Fin 8 → BitVec 32 → BitVec 32) (hf : Computes q f) (e : Exn)
    (wr : τ → List Byte → Io V τ) (s s1 : τ) (w w1 : V) (d : List Byte) (hd : d.length % 8 = 0) (n : Nat)
    (h : writeAll wr s (((ecb (encF f) (blocks64 d)).take (n / 32)).map bytesOf64) w = (.ok s1, w1)) :
    Live.ECBSink.write (fun s d => aside (wr s d)) ⟨s, tokenKey q e⟩ d (n, w) =
      if 32 * (d.length / 8) ≤ n then (.ok ⟨s1, tokenKey q e⟩, (n - 32 * (d.length / 8), w1))
      else (.throw e, (0, w1)) := by
  have hl := ECBSink_loop_asks wr (tokenKey_asks (V := V) hf e) d [] (by simp) s
  have h' := askedWrites_token (e := e) wr (ecbPieces f d) s s1 w w1 n (by
    rw [List.map_take] at h; exact h)
  unfold Live.ECBSink.write
  rw [hl, List.nil_append]
  rw [ecbPieces_length] at h'
  by_cases hn : 32 * (d.length / 8) ≤ n
  · rw [if_pos hn] at h' ⊢
    rw [Io.bind_run_ok h', if_pos hd]
    rfl
  · rw [if_neg hn] at h' ⊢
    rw [bind_run_throw h']

/-- C106: the same for writes of any size to a `CFBSink`. -/
theorem C106_cfb_withdrawn (m : Machine) (q : Key) (f : Fin 8 → BitVec 32 → BitVec 32) (hf : Computes q f)
    (hq : q.isLazy = true) (e : Exn) (wr : τ → List Byte → Io V τ) (s s1 : τ) (w w1 : V)
    (ivl ivr : BitVec 64) (d : List Byte) (n : Nat)
    (h : writeAll wr s (((cfbEnc (encF f) [ivl, ivr] (blocks64 d)).take (n / 32)).map bytesOf64) w =
      (.ok s1, w1)) :
    (32 * (d.length / 8) ≤ n → ∃ t,
      Live.CFBSink.write m (fun s d => aside (wr s d)) ⟨s, tokenKey q e, ivl, ivr, []⟩ d (n, w) =
        (.ok t, (n - 32 * (d.length / 8), w1)) ∧ t.sink = s1) ∧
    (n < 32 * (d.length / 8) →
      Live.CFBSink.write m (fun s d => aside (wr s d)) ⟨s, tokenKey q e, ivl, ivr, []⟩ d (n, w) =
        (.throw e, (0, w1))) := by
  have hl := CFBSink_loop_asks m wr (tokenKey_asks (V := V) hf e) hq d [] (by simp) s ivl ivr _ rfl
  rw [List.nil_append] at hl
  have h' := askedWrites_token (e := e) wr ((cfbEnc (encF f) [ivl, ivr] (blocks64 d)).map bytesOf64) s s1
    w w1 n (by rw [List.map_take] at h; exact h)
  rw [List.length_map, cfbEnc_length _ _ _ (by simp), blocks64_length] at h'
  unfold Live.CFBSink.write
  rw [hl]
  constructor
  · intro hn
    rw [if_pos hn] at h'
    rw [Io.bind_run_ok h']
    exact ⟨_, rfl, rfl⟩
  · intro hn
    rw [if_neg (by omega)] at h'
    rw [bind_run_throw h']

/-- C106, the part that holds for reads: a `CFBSource` without buffered bytes whose key refuses to answer has not touched the source below
(it encrypts the register first): the world is as before, so the same read can be repeated when the token
is back. -/
theorem C106_cfb_source_retry_partial (m : Machine) (q : Key) (f : Fin 8 → BitVec 32 → BitVec 32)
    (hf : Computes q f) (hq : q.isLazy = true) (e : Exn) (rd : σ → Nat → Io V (List Byte × σ)) (s : σ) (w : V)
    (ivl ivr : BitVec 64) (size n : Nat) (h0 : 0 < size) (hn : n < 32) :
    Live.CFBSource.read m (fun s n => aside (rd s n)) ⟨s, tokenKey q e, ivl, ivr, []⟩ size (n, w) =
      (.throw e, (0, w)) := by
  obtain ⟨v, hv, -⟩ := BlkEncrypted_ofU64_asks (V := V) (tokenKey_asks (V := V) hf e) hq m ivl
  have hq' : (question askToken e schedule : Io (Nat × V) Unit) (n, w) = (.throw e, (0, w)) := by
    have hl : schedule.length = 32 := rfl
    simp only [question, askAll_token, hl]
    have hn' : ¬ 32 ≤ n := by omega
    simp [hn']
  unfold Live.CFBSource.read Live.CFBSource.loop
  simp only [List.length_nil, h0, if_true]
  have hdr : drain size [] [] = ([], []) := by simp [drain]
  rw [hdr]
  simp only [List.length_nil]
  rw [if_neg (by omega), hv, bind_assoc, bind_run_throw hq']

/-- C106 is false of the code for `ECBSource`: one whose key refuses to answer has already taken the block from the source below: the
block is lost. -/
theorem C106_ecb_source_loses (m : Machine) (q : Key) (f : Fin 8 → BitVec 32 → BitVec 32)
    (hf : Computes q f) (hq : q.isLazy = true) (e : Exn) (rd : σ → Nat → Io V (List Byte × σ)) (s s1 : σ)
    (w w1 : V) (p : List Byte) (hp : p.length = 8) (hr : rd s 8 w = (.ok (p, s1), w1)) (size n : Nat)
    (h8 : 8 ≤ size) (hn : n < 32) :
    Live.ECBSource.read m (fun s n => aside (rd s n)) (.ecb s (tokenKey q e)) size (n, w) =
      (.throw e, (0, w1)) := by
  have ha : (aside (rd s 8) : Io (Nat × V) _) (n, w) = (.ok (p, s1), (n, w1)) := by simp [aside, hr]
  have hne : p ≠ [] := by rintro rfl; simp at hp
  unfold Live.ECBSource.read
  simp only
  rw [if_neg (by omega), Io.bind_run_ok ha]
  simp only [hne, if_false]
  have hb : Live.BlkRaw.ofBytes (W := Nat × V) p =
      .ok (.raw ((block64 p).extractLsb' 0 32) ((block64 p).extractLsb' 32 32)) := by
    have := ofBytes_eq hp
    obtain ⟨b0, b1, b2, b3, b4, b5, b6, b7, rfl⟩ := exists_of_length_eight hp
    injection this with this
    injection this with h1 h2
    rw [← h1, ← h2]
    rfl
  have hz : (tokenKey (V := V) q e).asLazy = some (tokenKey q e) := by
    simp [Live.Key.asLazy, tokenKey, hq]
  have hx := BlkDecrypted_asks (tokenKey_asks (V := V) hf e) m ((block64 p).extractLsb' 0 32)
    ((block64 p).extractLsb' 32 32) n w1
  have hl : schedule.reverse.length = 32 := rfl
  have hn' : ¬ 32 ≤ n := by omega
  rw [askAll_token, hl, if_neg hn'] at hx
  rw [hb, Io.lift_ok_bind, hz]
  exact bind_run_throw hx

/-! ### The hypotheses are met -/

/-- The key text of the standard's example, with a real cache over it, and a sink in memory. -/
example : Computes (LazyKey (KeyCachedData (KeyDataString sampleKeyText)) SboxR3412)
      (fun i => g pi (keyWord (BitVec.ofNat 256 (hexNat sampleKeyText)) i)) ∧
    Collects (W := Unit) memWrite (fun s _ => s) ∧ [sampleData.take 5, sampleData.drop 5].flatten.length % 8 = 0 :=
  ⟨sampleKey_computes, memWrite_collects, by decide⟩

/-- A cache that has not been filled, and then one that has: the first question fills it. -/
example :
    Live.KeyCachedData (W := CachedData × Unit) (·.1) (fun c w => (c, w.2))
      (fun i => aside (Io.lift (KeyDataString sampleKeyText i))) 2 ({}, ()) =
    (KeyDataString sampleKeyText 2, (⟨true, (List.range 8).map fun (i : Nat) =>
      keyWord (BitVec.ofNat 256 (hexNat sampleKeyText)) (Fin.ofNat 8 i)⟩, ())) := by
  decide +kernel

/-- Three blocks with a token that answers 70 questions: two blocks get to the sink. -/
example :
    (Live.ECBSink.write (fun s d => aside (memWrite (W := Unit) s d))
      ⟨[], tokenKey (LazyKey.ofString sampleKeyText) (.user 3)⟩ sampleData (70, ())).1 = .throw (.user 3) := by
  obtain ⟨s1, w1, h, -⟩ := memWrite_collects.writeAll (W := Unit)
    (((ecb (encF fun i => g pi (keyWord (BitVec.ofNat 256 (hexNat sampleKeyText)) i)) (blocks64 sampleData)).take
      (70 / 32)).map bytesOf64) [] ()
  rw [C106_ecb_withdrawn _ _ sampleKey_computes (.user 3) memWrite [] s1 () w1 sampleData (by decide) 70 h]
  rfl

/-! The theorems of C105 at a key with a real cache over the text of the standard's example, and sinks and sources in
memory; those of C106 with a record of the questions, or a token that answers 70 of them. -/

theorem asideSink_same (I : Ω → Prop) (wr : τ → List Byte → Io V τ) : SameSink I Eq (fun s d => aside (wr s d)) wr := by
  rintro s _ d rfl
  exact SameCall.aside _

theorem asideSource_same (I : Ω → Prop) (rd : σ → Nat → Io V (List Byte × σ)) :
    SameSource I Eq (fun s n => aside (rd s n)) rd := by
  rintro s _ n rfl ω v hω
  refine ⟨ω, hω, rfl, ?_⟩
  show SameOutcome _ (rd s n v).1 (rd s n v).1
  cases (rd s n v).1 <;> simp [SameOutcome]

example (m : Machine) : True := by
  obtain ⟨I, -, hk⟩ := C105_cached_key (V := Unit) (KeyDataString sampleKeyText) SboxR3412
  have := C105_ecb_sink I Eq _ _ (asideSink_same I memWrite) _ _ hk
  have := C105_cfb_sink m I Eq _ _ (asideSink_same I memWrite) _ _ hk
  have := C105_gost89_cfb_sink m I Eq _ _ (asideSink_same I memWrite) _ _ hk
  have := C105_ecb_source m I Eq _ _ (asideSource_same I memRead) _ _ hk
  have := C105_cfb_source m I Eq _ _ (asideSource_same I memRead) _ _ hk
  have := C105_gost89_cfb_source m I Eq _ _ (asideSource_same I memRead) _ _ hk
  have := C105_mac m I Eq _ _ (asideSource_same I memRead) _ _ hk
  trivial

example (m : Machine) := C105_cached_cfb_conforms m (KeyDataString sampleKeyText) SboxR3412 _ sampleKey_computes memWrite _
  (memWrite_collects (W := Unit)) [] () 1 2 [sampleData.take 5, sampleData.drop 5] (by decide)

example (m : Machine) (l : List (Fin 8)) := C106_words_asked m _ _ sampleKey_computes 1 2 3 l ()

example (l : List (Fin 8)) := C106_ecb_asked _ _ sampleKey_computes (memWrite (W := Unit)) [] _ () _ sampleData (by decide) l rfl

example (m : Machine) (l : List (Fin 8)) := C106_cfb_asked m _ _ sampleKey_computes rfl (memWrite (W := Unit)) [] _ () _ 1 2
  (sampleData.take 19) l rfl

example (m : Machine) := C106_cfb_withdrawn m _ _ sampleKey_computes rfl (.user 3) (memWrite (W := Unit)) [] _ () _ 1 2
  (sampleData.take 19) 70 rfl

example (m : Machine) := C106_cfb_source_retry_partial m _ _ sampleKey_computes rfl (.user 3) (memRead (W := Unit)) sampleData ()
  1 2 20 31 (by decide) (by decide)

end Goost.Props
