import Verif.Lemmas.SharedStreamsKuz
import Verif.Lemmas.SharedStreamsCalls
import Verif.Props.Mutex
import Verif.Props.Ecb
import Verif.Props.Cfb
import Verif.Props.Mac
import Verif.Props.KuzStream
/-
Property C122: threads that each run streams and MACs of their own over one shared key.

The streams of Model/SharedStreams ask the shared key for its words one by one; a thread locks one mutex around every
call of `write`, `read`, `value`, … (`lockedCalls`), on a processor that may answer loads with old values (`Locked`, as in
C117). `callsAlone` is what the calls do in a program with one thread.
-/
namespace Goost.Props
open Goost.Conc Spec

variable {W σ τ : Type}

section
open Goost.Magma Spec.Magma Spec.Modes

/-- C122 for keys of the 64-bit cipher made from text, the streams being any (`calls`, on what belongs to the thread): a
thread that has returned has done what it does alone, whatever the others do. -/
theorem C122_with_mutex {S : Type} (kd : KeyData) (calls : Nat → List (S → AskKey W S)) (s : Nat → S) (w : Nat → W)
    (events : List (Nat × Nat)) (t : Nat) (r : Exec S × W)
    (hr : Returned (((Locked.start fun t => lockedCalls (calls t) (s t) (w t)).run
      (fun use => use.handle (evalKey kd)) events).threads t) r) :
    r = callsAlone (KeyCachedData kd) (calls t) (s t) (w t) := by
  rw [C117_magma_results_right kd _ events t r hr, alone_lockedCalls]

/-- C122 without a mutex: if the key has been used once before the threads are started, then a thread that has returned
has done what it does alone. `x` is the whole code of a thread. -/
theorem C122_after_first {α : Type} (kd : KeyData) (hall : ∀ i : Nat, i < 8 → ∃ k, kd i = .ok k) (first : Int)
    (a : Exec W32) (mem : KeyLoc → W32) (hfirst : runAlone (evalKey kd first) (fun _ => 0) = (a, mem))
    (x : Nat → AskKey W α) (w : Nat → W) (events : List (Nat × Nat)) (t : Nat) (r : Exec α × W)
    (hr : (Free.run ⟨fun t => (x t (w t)).handle (evalKey kd), ⟨fun l _ => mem l, fun _ => 0, fun _ _ => 0⟩⟩
      events).threads t = .ret r) : r = aloneIo (KeyCachedData kd) (x t) (w t) :=
  C117_magma_after_first kd hall first a mem hfirst (fun t => x t (w t)) events t r hr

/-- A key that has answered once with its fourth word. -/
example (x : Nat → AskKey Unit Unit) (events : List (Nat × Nat)) := C122_after_first (fun i => .ok (BitVec.ofInt 32 i + 10))
  (fun _ _ => ⟨_, rfl⟩) 3 _ _ rfl x (fun _ => ()) events 1

/-- C122: what a call does alone is what the call of the model of one thread does (of which the other properties speak),
for every stream and MAC of the library over such a key. -/
theorem C122_calls_alone (m : Machine) (kd : KeyData) (sbox : Sbox) (wr : τ → List Byte → Io W τ)
    (rd : σ → Nat → Io W (List Byte × σ)) (s : τ) (i : σ) (a b : W64) (p d : List Byte) (n : Nat) :
    let K := KeyCachedData kd
    let key := LazyKey K sbox
    aloneIo K (askECBSink.write wr sbox ⟨s, key⟩ d) = ECBSink.write wr ⟨s, key⟩ d ∧
    aloneIo K (askECBSource.read m rd sbox (.ecb i key) n) = ECBSource.read m rd (.ecb i key) n ∧
    aloneIo K (askCFBSink.write m wr sbox ⟨s, key, a, b, p⟩ d) = CFBSink.write m wr ⟨s, key, a, b, p⟩ d ∧
    aloneIo K (askCFBSink.finalize m wr sbox ⟨s, key, a, b, p⟩) = CFBSink.finalize m wr ⟨s, key, a, b, p⟩ ∧
    aloneIo K (askCFBSource.read m rd sbox ⟨i, key, a, b, p⟩ n) = CFBSource.read m rd ⟨i, key, a, b, p⟩ n ∧
    aloneIo K (askImit.value m rd sbox n i (some key)) = Imit.value m rd n i (some key) ∧
    aloneIo K (askGost89CFBSink.write m wr sbox ⟨s, key, a, p⟩ d) = Gost89.CFBSink.write m wr ⟨s, key, a, p⟩ d ∧
    aloneIo K (askGost89CFBSink.finalize m wr sbox ⟨s, key, a, p⟩) = Gost89.CFBSink.finalize m wr ⟨s, key, a, p⟩ ∧
    aloneIo K (askGost89CFBSource.read m rd sbox ⟨i, key, a, p⟩ n) = Gost89.CFBSource.read m rd ⟨i, key, a, p⟩ n ∧
    alone K (askDataImit.value m sbox d (some key)) = Gost89.DataImit.value m d (some key) :=
  ⟨ecbSink_loop _ _ _ _ _ _, ecbSource_read _ _ _ _ _ (fun _ _ e => by cases e; rfl) _, cfbSink_loop _ _ _ _ _ _ _ _ _,
    cfbSink_finalize _ _ _ _ _ rfl, cfbSource_loop _ _ _ _ _ _ _ _ _ _ _, imit_value _ _ _ _ _ _,
    gost89CfbSink_loop _ _ _ _ _ _ _ _, gost89CfbSink_finalize _ _ _ _ _ rfl, gost89CfbSource_loop _ _ _ _ _ _ _ _ _ _,
    dataImit_loop _ _ _ _ _⟩

private theorem back {α β : Type} (f : β → α) (g : α → β) (hfg : ∀ a, f (g a) = a) (x : Io W α) (w : W) :
    (f <$> ((x >>= fun a => pure (g a)) w).1, ((x >>= fun a => pure (g a)) w).2) = x w := by
  change (f <$> (Io.bind x (fun a => pure (g a)) w).1, (Io.bind x (fun a => pure (g a)) w).2) = x w
  unfold Io.bind
  obtain ⟨r, w'⟩ := x w
  cases r <;> first | rfl | skip
  show (Exec.ok (f (g _)), w') = _
  rw [hfg]

/-- C122 for cipher feedback sinks: thread `t` makes the writes `ds t` to its own sink, with its own starting values, over
the shared key. On its underlying sink it has done exactly the writes of the encrypted blocks of the standard. -/
theorem C122_cfb_conforms (m : Machine) (k : List Char) (hk : IsHex k) (hl : k.length = 64)
    (wr : Nat → τ → List Byte → Io W τ) (s : Nat → τ) (w : Nat → W) (ivl ivr : Nat → W64)
    (ds : Nat → List (List Byte)) (events : List (Nat × Nat)) (t : Nat) (r : Exec (CFBSink τ) × W)
    (hr : Returned (((Locked.start fun t => lockedCalls
        ((ds t).map fun d c => askCFBSink.write m (wr t) SboxR3412 c d)
        (CFBSink.new (s t) (LazyKey.ofString k) (ivl t) (ivr t)) (w t)).run
      (fun use => use.handle (evalKey (KeyDataString k))) events).threads t) r) :
    ((·.sink) <$> r.1, r.2) = writeAll (wr t) (s t) ((cfbEnc (Spec.Magma.enc (BitVec.ofNat 256 (hexNat k)))
      [ivl t, ivr t] (blocks64 (ds t).flatten)).map bytesOf64) (w t) := by
  rw [C122_with_mutex (KeyDataString k) _ _ _ events t r hr,
    writes_alone (KeyCachedData (KeyDataString k)) (askCFBSink.write m (wr t) SboxR3412) (CFBSink.write m (wr t))
      (fun c => c.key = LazyKey.ofString k)
      (fun c d h => by
        show aloneIo _ (askCFBSink.loop m (wr t) SboxR3412 c.key d c.sink c.plain c.ivl c.ivr) = _
        rw [h, CFBSink.write, h]
        exact cfbSink_loop _ SboxR3412 m (wr t) _ _ _ _ _)
      (fun c d w s' w' h e => by rw [cfbSink_key m (wr t) _ _ _ _ _ _ _ _ _ e, h]) _ _ rfl,
    ← C18_conforms m (wr t) (s t) k hk hl (ivl t) (ivr t) (ds t)]
  show _ = Io.bind _ _ _
  unfold Io.bind
  generalize writeAll (CFBSink.write m (wr t)) _ (ds t) (w t) = x
  obtain ⟨x, w'⟩ := x
  cases x <;> rfl

/-- C122 for `gost89::CFBSink`, any key made from text with any S-box: `f` are the round functions. -/
theorem C122_gost89_cfb_conforms (m : Machine) (kd : KeyData) (sbox : Sbox) (f : Fin 8 → BitVec 32 → BitVec 32)
    (hf : Computes (LazyKey (KeyCachedData kd) sbox) f)
    (wr : Nat → τ → List Byte → Io W τ) (s : Nat → τ) (w : Nat → W) (iv : Nat → W64)
    (ds : Nat → List (List Byte)) (events : List (Nat × Nat)) (t : Nat) (r : Exec (Gost89.CFBSink τ) × W)
    (hr : Returned (((Locked.start fun t => lockedCalls
        ((ds t).map fun d c => askGost89CFBSink.write m (wr t) sbox c d)
        (Gost89.CFBSink.new (s t) (LazyKey (KeyCachedData kd) sbox) (iv t)) (w t)).run
      (fun use => use.handle (evalKey kd)) events).threads t) r) :
    ((·.sink) <$> r.1, r.2) = writeAll (wr t) (s t)
      ((cfbEnc (encF f) [iv t] (blocks64 (ds t).flatten)).map bytesOf64) (w t) := by
  rw [C122_with_mutex kd _ _ _ events t r hr,
    writes_alone (KeyCachedData kd) (askGost89CFBSink.write m (wr t) sbox) (Gost89.CFBSink.write m (wr t))
      (fun c => c.key = LazyKey (KeyCachedData kd) sbox)
      (fun c d h => by
        show aloneIo _ (askGost89CFBSink.loop m (wr t) sbox c.key d c.sink c.plain c.iv) = _
        rw [h, Gost89.CFBSink.write, h]
        exact gost89CfbSink_loop _ sbox m (wr t) _ _ _ _)
      (fun c d w s' w' h e => by rw [gost89CfbSink_key m (wr t) _ _ _ _ _ _ _ _ e, h]) _ _ rfl,
    ← C27_ciphertext m (wr t) (s t) _ f hf rfl (iv t) (ds t)]
  show _ = Io.bind _ _ _
  unfold Io.bind
  generalize writeAll (Gost89.CFBSink.write m (wr t)) _ (ds t) (w t) = x
  obtain ⟨x, w'⟩ := x
  cases x <;> rfl

/-- C122 for `ECBSink`: thread `t` writes the pieces `ds t`, each of whole blocks. -/
theorem C122_ecb_conforms (k : List Char) (hk : IsHex k) (hl : k.length = 64)
    (wr : Nat → τ → List Byte → Io W τ) (s : Nat → τ) (w : Nat → W) (ds : Nat → List (List Byte))
    (hd : ∀ t, ∀ d ∈ ds t, d.length % 8 = 0) (events : List (Nat × Nat)) (t : Nat) (r : Exec (ECBSink τ) × W)
    (hr : Returned (((Locked.start fun t => lockedCalls
        ((ds t).map fun d c => askECBSink.write (wr t) SboxR3412 c d) ⟨s t, LazyKey.ofString k⟩ (w t)).run
      (fun use => use.handle (evalKey (KeyDataString k))) events).threads t) r) :
    ((·.sink) <$> r.1, r.2) = writeAll (wr t) (s t) ((ecb (Spec.Magma.enc (BitVec.ofNat 256 (hexNat k)))
      (blocks64 (ds t).flatten)).map bytesOf64) (w t) := by
  rw [C122_with_mutex (KeyDataString k) _ _ _ events t r hr,
    writes_alone (KeyCachedData (KeyDataString k)) (askECBSink.write (wr t) SboxR3412) (ECBSink.write (wr t))
      (fun c => c.key = LazyKey.ofString k)
      (fun c d h => by
        show aloneIo _ (askECBSink.loop (wr t) SboxR3412 c.key d [] c.sink) = _
        rw [h, ECBSink.write, h]
        exact ecbSink_loop _ SboxR3412 (wr t) _ _ _)
      (fun c d w s' w' h e => by rw [ecbSink_key (wr t) _ _ _ _ _ _ _ e, h]) _ _ rfl]
  have hflat : (ds t).flatten.length % 8 = 0 := by
    have h := hd t
    generalize ds t = l at h
    induction l with
    | nil => rfl
    | cons d l ih =>
      have h1 := h d (by simp)
      have h2 := ih fun d hd => h d (by simp [hd])
      rw [List.flatten_cons, List.length_append]
      omega
  rw [C14_any_split (wr t) _ (ds t) (hd t), C12_conforms (wr t) (s t) k hk hl _ hflat]
  exact back (fun c : ECBSink τ => c.sink) (fun s' => ⟨s', LazyKey.ofString k⟩) (fun _ => rfl) _ (w t)

/-- C122 for `CFBSource`: thread `t` makes reads of any sizes `sizes t` over its own source of whole blocks `c t`. It has
got the first bytes of the decryption, as many as it has asked for in total. -/
theorem C122_cfb_source_conforms (m : Machine) (k : List Char) (hk : IsHex k) (hl : k.length = 64)
    (rd : Nat → σ → Nat → Io W (List Byte × σ)) (s : Nat → σ) (w : Nat → W) (ivl ivr : Nat → W64)
    (c : Nat → List (BitVec 64)) (hs : ∀ t, SuppliesBlocks (rd t) (s t) (w t) (unblocks64 (c t)))
    (sizes : Nat → List Nat) (events : List (Nat × Nat)) (t : Nat) (r : Exec (List (List Byte) × CFBSource σ) × W)
    (hr : Returned (((Locked.start fun t => lockedCalls
        ((sizes t).map fun n => readCall (askCFBSource.read m (rd t) SboxR3412) n)
        ([], CFBSource.new (s t) (LazyKey.ofString k) (ivl t) (ivr t)) (w t)).run
      (fun use => use.handle (evalKey (KeyDataString k))) events).threads t) r) :
    ∃ pieces source w', r = (.ok (pieces, source), w') ∧
      pieces.flatten = (unblocks64 (cfbDec (Spec.Magma.enc (BitVec.ofNat 256 (hexNat k))) [ivl t, ivr t] (c t))).take
        (sizes t).sum := by
  rw [C122_with_mutex (KeyDataString k) _ _ _ events t r hr,
    reads_alone (KeyCachedData (KeyDataString k)) (askCFBSource.read m (rd t) SboxR3412) (CFBSource.read m (rd t))
      (fun c => c.key = LazyKey.ofString k)
      (fun c n h => by
        show aloneIo _ (askCFBSource.loop m (rd t) SboxR3412 c.key n (n + 1) c.source c.plain c.ivl c.ivr []) = _
        rw [h, CFBSource.read, h]
        exact cfbSource_loop _ SboxR3412 m (rd t) _ _ _ _ _ _ _)
      (fun c n w r w' h e => by rw [cfbSource_key m (rd t) _ _ _ _ _ _ _ _ _ _ _ e, h]) _ _ _ rfl]
  obtain ⟨pieces, source, w', e1, e2⟩ := C22_reads_concatenate m (rd t) (s t) (w t) (LazyKey.ofString k) _
    (LazyKey_ofString_computes hk hl) rfl (ivl t) (ivr t) (c t) (hs t) (sizes t)
  refine ⟨pieces, source, w', ?_, ?_⟩
  · show Io.bind _ _ _ = _
    unfold Io.bind
    rw [e1]
    rfl
  · exact e2

/-- C122 for the MAC of the 64-bit cipher, on a processor that takes shift counts modulo 32: thread `t` computes the MAC
of its own message `p t ‖ last t` of whole blocks. -/
theorem C122_mac_conforms (k : List Char) (hk : IsHex k) (hl : k.length = 64)
    (rd : Nat → σ → Nat → Io W (List Byte × σ)) (s : Nat → σ) (w : Nat → W) (p : Nat → List (BitVec 64))
    (last : Nat → BitVec 64) (hs : ∀ t, SuppliesBlocks (rd t) (s t) (w t) (unblocks64 (p t ++ [last t])))
    (fuel : Nat → Nat) (hf : ∀ t, (p t).length < fuel t) (v0 : W32 × W32) (events : List (Nat × Nat)) (t : Nat)
    (r : Exec (W32 × W32) × W)
    (hr : Returned (((Locked.start fun t => lockedCalls
        [fun _ => askImit.value .x86 (rd t) SboxR3412 (fuel t) (s t) (some (LazyKey.ofString k))] v0 (w t)).run
      (fun use => use.handle (evalKey (KeyDataString k))) events).threads t) r) :
    let E := Spec.Magma.enc (BitVec.ofNat 256 (hexNat k))
    ∃ v w', r = (.ok v, w') ∧ join32 v = omac E (macK1 E 0x1b) (p t) (last t) := by
  intro E
  rw [C122_with_mutex (KeyDataString k) _ _ _ events t r hr]
  obtain ⟨v, w', e1, e2⟩ := C32_conforms k hk hl (rd t) (s t) (w t) (p t) (last t) (hs t) (fuel t) (hf t)
  refine ⟨v, w', ?_, e2⟩
  show (aloneIo _ (askImit.value .x86 (rd t) SboxR3412 (fuel t) (s t) (some (LazyKey.ofString k))) >>= fun s => pure s)
    (w t) = _
  rw [bind_pure, ← e1]
  exact congrFun (imit_value (KeyCachedData (KeyDataString k)) SboxR3412 .x86 (rd t) (fuel t) (s t)) (w t)

/-- C122 for the MAC of GOST 28147-89: thread `t` computes the MAC of its own data `d t`. -/
theorem C122_gost89_mac_conforms (m : Machine) (kd : KeyData) (sbox : Sbox) (f : Fin 8 → BitVec 32 → BitVec 32)
    (hf : Computes (LazyKey (KeyCachedData kd) sbox) f) (d : Nat → List Byte) (v0 : List Byte)
    (events : List (Nat × Nat)) (t : Nat) (r : Exec (List Byte) × Unit)
    (hr : Returned (((Locked.start fun t => lockedCalls
        [fun _ => Ask.use (askDataImit.value m sbox (d t) (some (LazyKey (KeyCachedData kd) sbox)))] v0 ()).run
      (fun use => use.handle (evalKey kd)) events).threads t) r) :
    r.1 = .ok (bytesOf64 (chain (macStep f) 0 (blocks64 (zeroPadded (d t))))) := by
  rw [C122_with_mutex kd _ _ _ events t r hr]
  show ((aloneIo _ (Ask.use (askDataImit.value m sbox (d t) (some (LazyKey (KeyCachedData kd) sbox)))) >>=
    fun s => pure s) ()).1 = _
  rw [bind_pure, aloneIo_use, ← C29_gost89_mac m _ f hf (d t)]
  exact dataImit_loop (KeyCachedData kd) sbox m _ _


/-- Threads over one key, each with a sink of its own: every one can return. -/
example (k : List Char) (ds : Nat → List (List Byte)) (t : Nat) : ∃ events r,
    Returned (((Locked.start fun t => lockedCalls ((ds t).map fun d c => askCFBSink.write .iso memWrite SboxR3412 c d)
        (CFBSink.new [] (LazyKey.ofString k) 1 2) ()).run
      (fun use => use.handle (evalKey (KeyDataString k))) events).threads t) r :=
  C117_magma_no_deadlock (KeyDataString k) (fun t => lockedCalls
    ((ds t).map fun d c => askCFBSink.write .iso memWrite SboxR3412 c d)
      (CFBSink.new [] (LazyKey.ofString k) 1 2) ()) [] t

end

section
open Goost.Kuz Spec.Modes

variable {ι : Type}

/-- C122 for the 128-bit cipher, the streams and MACs being any: threads whose calls evaluate blocks (also many blocks in
one call) with shared caches, with a mutex locked around every call. A thread that has returned has done what it does
alone. -/
theorem C122_kuznyechik_with_mutex {S : Type} (m : Machine) (own : Nat → Kuz.Blk)
    (calls : Nat → List (S → AskBlk W S)) (s : Nat → S) (w : Nat → W)
    (h : ∀ t, AllRequests (AllRequests (Owned own) (Kuz.Blk.value m)) (alone (Kuz.Blk.value m))
      (lockedCalls (calls t) (s t) (w t))) (events : List (Nat × Nat)) (t : Nat) (r : Exec S × W)
    (hr : Returned (((Locked.start fun t => lockedCalls (calls t) (s t) (w t)).run
      (fun use => use.handle (evalBlk m)) events).threads t) r) :
    r = callsAlone (Kuz.Blk.value m) (calls t) (s t) (w t) := by
  have inv := Locked.Inv.run (I := Good (cacheDiscipline m own)) (P := AllRequests (Owned own) (Kuz.Blk.value m))
    (answer := alone (Kuz.Blk.value m))
    (handler := fun use : Prog Kuz.Blk (Exec (W64 × W64)) (Exec S × W) => use.handle (evalBlk m))
    (fun o ho mem hm => Safe.run_alone (Safe.handle (P := Owned own) (fun b hb K => evalBlk_safe m own b hb K) o ho
      (fun _ => False)) hm (fun _ h => h.elim))
    events (Locked.Inv.start (good_fresh m own) _ h)
  exact (inv.outside t _ hr).2.trans (alone_lockedCalls _ _ _ _)

/-- C122 for counter mode: thread `t` walks through its own encrypted stream, over its own stream `p t` and with its own
starting value, all with one fresh key. It has got the encrypted blocks of the standard. -/
theorem C122_ctr_conforms (m : Machine) (hm : m.unalignedLoad = true) (high low : Kuz.Blk) (hh : Plain high)
    (hl : Plain low) (h l : W64 × W64) (hhv : high.value m = .ok h) (hlv : low.value m = .ok l)
    (it : Nat → IterImpl ι) (size : Nat → Nat) (i : Nat → ι) (p : Nat → List (W64 × W64))
    (hs : ∀ t, Shows (it t) (size t) (i t) (p t)) (iv : Nat → W64) (events : List (Nat × Nat)) (t : Nat)
    (r : Exec (List (W64 × W64) × Option (ItCTR ι)) × Unit)
    (hr : Returned (((Locked.start fun t => lockedCalls (walkCalls (AskIter.own (it t)).ctr ((p t).length - 1))
        ([], some ⟨some (i t), Kuz.Key.ofBlocks high low, .raw 0 (iv t)⟩) ()).run
      (fun use => use.handle (evalBlk m)) events).threads t) r) :
    ∃ cs j, r = (.ok (cs, j), ()) ∧
      cs.map join64 = ctr (k := 64) (Spec.Kuz.enc (join64 h ++ join64 l)) (iv t) ((p t).map join64) := by
  have own : ∀ b, Owned (keyOwn (Kuz.Key.ofBlocks high low) 0 fun _ => high) b → Owned (keyOwn (Kuz.Key.ofBlocks high low) 0 fun _ => high)
      (Kuz.BlkEncrypted b (Kuz.Key.ofBlocks high low)) := fun b hb => Owned.encrypted 0 hh.owned hl.owned hb
  have e := C122_kuznyechik_with_mutex m _ _ _ _ (fun t =>
    ((Fine.own m _ (it t)).ctr (Kuz.Key.ofBlocks high low) own).walk ((p t).length - 1) _
      (by rintro j ⟨⟩; exact ⟨rfl, trivial, fun _ _ => trivial⟩)) events t r hr
  obtain ⟨j, cs, h1, h2, h3⟩ := C44_ctr_conforms m (Kuz.Key.ofBlocks high low) _
    (fun b v hb => encrypts_ofBlocks hm hhv hlv 0 b v hb) (it t) (size t) (i t) (p t) (hs t) (iv t)
  cases h1
  have hlen : cs.length = (p t).length := by
    have := congrArg List.length h3
    simpa [ctr] using this
  have h4 := walk_shows m (AskIter.own (it t)).ctr (size t) cs _ (by rw [iterAlone_ctr, iterAlone_own]; exact h2) []
  rw [hlen] at h4
  obtain ⟨j, h4⟩ := h4
  exact ⟨cs, j, e.trans h4, h3⟩

/-- C122 for the MAC of the 128-bit cipher: thread `t` computes the MAC of its own stream, all with one fresh key. -/
theorem C122_kuznyechik_mac_conforms (m : Machine) (hm : m.unalignedLoad = true) (high low : Kuz.Blk) (hh : Plain high)
    (hl : Plain low) (h l : W64 × W64) (hhv : high.value m = .ok h) (hlv : low.value m = .ok l)
    (it : Nat → IterImpl ι) (size : Nat → Nat) (i : Nat → ι) (p : Nat → List (W64 × W64)) (last : Nat → W64 × W64)
    (hs : ∀ t, Shows (it t) (size t) (i t) (p t ++ [last t])) (fuel : Nat → Nat) (hf : ∀ t, (p t).length < fuel t)
    (v0 : W64 × W64) (events : List (Nat × Nat)) (t : Nat) (r : Exec (W64 × W64) × Unit)
    (hr : Returned (((Locked.start fun t => lockedCalls
        [fun _ => Ask.use (askKuzImit.value (AskIter.own (it t)) (.ok (some (i t))) (fuel t) (Kuz.Key.ofBlocks high low))]
        v0 ()).run (fun use => use.handle (evalBlk m)) events).threads t) r) :
    let E := Spec.Kuz.enc (join64 h ++ join64 l)
    ∃ v, r = (.ok v, ()) ∧ join64 v =
      omac E (if size t = 16 then macK1 E 0x87 else macK2 E 0x87) ((p t).map join64) (join64 (last t)) := by
  intro E
  have own : ∀ b, Owned (keyOwn (Kuz.Key.ofBlocks high low) 0 fun _ => high) b → Owned (keyOwn (Kuz.Key.ofBlocks high low) 0 fun _ => high)
      (Kuz.BlkEncrypted b (Kuz.Key.ofBlocks high low)) := fun b hb => Owned.encrypted 0 hh.owned hl.owned hb
  have e := C122_kuznyechik_with_mutex m _ _ _ _ (fun t => AllRequests.calls (fun _ => True) _ (fun c hc s w _ => by
      obtain rfl := List.mem_singleton.1 hc
      exact ⟨AllRequests.use ((Fine.own m _ (it t)).imit _ own (fuel t) _ fun _ _ => trivial) w, fun _ _ _ => trivial⟩)
    _ _ trivial) events t r hr
  obtain ⟨v, h1, h2⟩ := C50_mac_any_stream m (Kuz.Key.ofBlocks high low) _
    (fun b v hb => encrypts_ofBlocks hm hhv hlv 0 b v hb) (it t) (size t) (i t) (p t) (last t) (hs t) (fuel t) (hf t)
  refine ⟨v, e.trans ?_, h2⟩
  show ((aloneIo _ (Ask.use (askKuzImit.value (AskIter.own (it t)) (.ok (some (i t))) (fuel t)
    (Kuz.Key.ofBlocks high low)))) >>= fun s => pure s) () = _
  rw [bind_pure, aloneIo_use, kuzImit_value, iterAlone_own, h1]
  rfl

private theorem mac_of_encrypted (m : Machine) (own : Nat → Kuz.Blk) (key : Kuz.Key) (K : BitVec 256)
    (hk : Encrypts m key K) (ho : ∀ b, Owned own b → Owned own (Kuz.BlkEncrypted b key))
    (it : Nat → IterImpl ι) (i : Nat → ι) (p : Nat → List (W64 × W64)) (hs : ∀ t, Shows (it t) 16 (i t) (p t))
    (iv : Nat → W64) (fuel : Nat → Nat) (hf : ∀ t, (p t).length ≤ fuel t)
    (v0 : W64 × W64) (events : List (Nat × Nat)) (t : Nat) (r : Exec (W64 × W64) × Unit)
    (hr : Returned (((Locked.start fun t => lockedCalls
        [fun _ => Ask.use (askKuzImit.value (AskIter.own (it t)).ctr (StCTREncrypted.iter (.ok (some (i t))) key (iv t))
          (fuel t) key)] v0 ()).run (fun use => use.handle (evalBlk m)) events).threads t) r) :
    ∃ v c last, r = (.ok v, ()) ∧ ctr (k := 64) (Spec.Kuz.enc K) (iv t) ((p t).map join64) = c ++ [last] ∧
      join64 v = omac (Spec.Kuz.enc K) (macK1 (Spec.Kuz.enc K) 0x87) c last := by
  have e := C122_kuznyechik_with_mutex m _ _ _ _ (fun t => AllRequests.calls (fun _ => True) _ (fun c hc s w _ => by
      obtain rfl := List.mem_singleton.1 hc
      exact ⟨AllRequests.use (((Fine.own m own (it t)).ctr key ho).imit _ ho (fuel t) _
        (by rintro j ⟨⟩; exact ⟨rfl, trivial, fun _ _ => trivial⟩)) w, fun _ _ _ => trivial⟩)
    _ _ trivial) events t r hr
  obtain ⟨j, cs, h1, h2, h3⟩ := C44_ctr_conforms m _ _ hk (it t) 16 (i t) (p t) (hs t) (iv t)
  have hlen : cs.length = (p t).length := by
    have := congrArg List.length h3
    simpa [ctr] using this
  rcases List.eq_nil_or_concat cs with rfl | ⟨c, last, rfl⟩
  · exact h2.elim
  rw [List.concat_eq_append] at h2 h3 hlen
  obtain ⟨v, h4, h5⟩ := C50_mac_any_stream m _ _ hk (ItCTR.impl m (it t)) 16 j c last h2 (fuel t)
    (by have := hf t; simp at hlen; omega)
  refine ⟨v, c.map join64, join64 last, e.trans ?_, by rw [← h3, List.map_append]; rfl, by rw [h5, if_pos rfl]⟩
  show ((aloneIo _ (Ask.use (askKuzImit.value (AskIter.own (it t)).ctr
    (StCTREncrypted.iter (.ok (some (i t))) key (iv t)) (fuel t) key))) >>= fun s => pure s) () = _
  rw [bind_pure, aloneIo_use, kuzImit_value, iterAlone_ctr, iterAlone_own, h1, h4]
  rfl

/-- C122 for a stack: thread `t` computes the MAC of its own stream encrypted in counter mode, encryption and MAC both
with the one fresh key that all threads share. It has got the MAC of the encrypted blocks of the standard. -/
theorem C122_mac_of_encrypted_conforms (m : Machine) (hm : m.unalignedLoad = true) (high low : Kuz.Blk) (hh : Plain high)
    (hl : Plain low) (h l : W64 × W64) (hhv : high.value m = .ok h) (hlv : low.value m = .ok l)
    (it : Nat → IterImpl ι) (i : Nat → ι) (p : Nat → List (W64 × W64)) (hs : ∀ t, Shows (it t) 16 (i t) (p t))
    (iv : Nat → W64) (fuel : Nat → Nat) (hf : ∀ t, (p t).length ≤ fuel t)
    (v0 : W64 × W64) (events : List (Nat × Nat)) (t : Nat) (r : Exec (W64 × W64) × Unit)
    (hr : Returned (((Locked.start fun t => lockedCalls
        [fun _ => Ask.use (askKuzImit.value (AskIter.own (it t)).ctr
          (StCTREncrypted.iter (.ok (some (i t))) (Kuz.Key.ofBlocks high low) (iv t)) (fuel t)
          (Kuz.Key.ofBlocks high low))]
        v0 ()).run (fun use => use.handle (evalBlk m)) events).threads t) r) :
    let E := Spec.Kuz.enc (join64 h ++ join64 l)
    ∃ v c last, r = (.ok v, ()) ∧ ctr (k := 64) E (iv t) ((p t).map join64) = c ++ [last] ∧
      join64 v = omac E (macK1 E 0x87) c last := by
  intro E
  exact mac_of_encrypted m (keyOwn (Kuz.Key.ofBlocks high low) 0 fun _ => high) (Kuz.Key.ofBlocks high low) _
    (fun b v hb => encrypts_ofBlocks hm hhv hlv 0 b v hb) (fun b hb => Owned.encrypted 0 hh.owned hl.owned hb)
    it i p hs iv fuel hf v0 events t r hr

/-- C122: there is no deadlock, for the keys of both ciphers; from every state that can be reached, every thread can be
run to its end. -/
theorem C122_no_deadlock {S : Type} (m : Machine) (kd : Magma.KeyData) (calls : Nat → List (S → AskKey W S))
    (calls' : Nat → List (S → AskBlk W S)) (s : Nat → S) (w : Nat → W) (events : List (Nat × Nat)) (t : Nat) :
    (∃ more r, Returned (((Locked.start fun t => lockedCalls (calls t) (s t) (w t)).run
      (fun use => use.handle (evalKey kd)) (events ++ more)).threads t) r) ∧
    (∃ more r, Returned (((Locked.start fun t => lockedCalls (calls' t) (s t) (w t)).run
      (fun use => use.handle (evalBlk m)) (events ++ more)).threads t) r) := by
  refine ⟨C117_magma_no_deadlock kd _ events t, ?_⟩
  obtain ⟨more, a, h⟩ := Locked.no_deadlock (fun use : Prog Kuz.Blk (Exec (W64 × W64)) (Exec S × W) =>
    use.handle (evalBlk m)) ((Locked.Owns.start fun t => lockedCalls (calls' t) (s t) (w t)).run
      (handler := fun use => use.handle (evalBlk m)) events) t
  exact ⟨more, a, by rw [Locked.run_append]; exact h⟩

/-- Keys and streams as in these theorems exist: two halves given by numbers, and a stream of two blocks for every
thread. -/
example : Plain (.raw 3 4) ∧ Plain (.raw 5 6) ∧ (Kuz.Blk.raw 3 4).value .x86 = .ok (3, 4) ∧
    ∃ i, StMemory.iter [1, 2, 3, 4] = .ok (some i) ∧ Shows (ItMemory.impl [1, 2, 3, 4]) 16 i [(1, 2), (3, 4)] :=
  ⟨trivial, trivial, rfl, C47_memory_shows [1, 2, 3, 4] rfl (by simp)⟩

/-! The theorems at the key of the standard's example; that threads return is `C117_magma_no_deadlock`. -/

example (events : List (Nat × Nat)) := C122_cfb_conforms .iso sampleKeyText (by decide) (by decide) (fun _ => memWrite (W := Unit))
  (fun _ => []) (fun _ => ()) (fun t => BitVec.ofNat 64 t) (fun _ => 2) (fun _ => [sampleData]) events 1

example (events : List (Nat × Nat)) := C122_gost89_cfb_conforms .iso _ _ _ sampleKey_computes (fun _ => memWrite (W := Unit))
  (fun _ => []) (fun _ => ()) (fun t => BitVec.ofNat 64 t) (fun _ => [sampleData]) events 1

example (events : List (Nat × Nat)) := C122_ecb_conforms sampleKeyText (by decide) (by decide) (fun _ => memWrite (W := Unit))
  (fun _ => []) (fun _ => ()) (fun _ => [sampleData]) (fun _ => by decide) events 1

example (events : List (Nat × Nat)) := C122_cfb_source_conforms .iso sampleKeyText (by decide) (by decide)
  (fun _ => memRead (W := Unit)) (fun _ => unblocks64 [5, 6]) (fun _ => ()) (fun _ => 1) (fun _ => 2) (fun _ => [5, 6])
  (fun _ => (memRead_supplies _ ()).blocks) (fun t => [t, 9]) events 1

example (events : List (Nat × Nat)) := C122_mac_conforms sampleKeyText (by decide) (by decide)
  (fun _ => memRead (W := Unit)) (fun _ => unblocks64 ([5] ++ [6])) (fun _ => ()) (fun _ => [5]) (fun _ => 6)
  (fun _ => (memRead_supplies _ ()).blocks) (fun _ => 2) (fun _ => by decide) (0, 0) events 1

example (events : List (Nat × Nat)) : True := by
  obtain ⟨i, -, hi⟩ := C47_memory_shows [1, 2, 3, 4] rfl (by simp)
  have := C122_ctr_conforms .x86 rfl (.raw 3 4) (.raw 5 6) trivial trivial _ _ rfl rfl _ _ _ _ (fun _ => hi)
    (fun t => BitVec.ofNat 64 t) events 1
  have := C122_kuznyechik_mac_conforms .x86 rfl (.raw 3 4) (.raw 5 6) trivial trivial _ _ rfl rfl _ _ _ (fun _ => [(1, 2)])
    (fun _ => (3, 4)) (fun _ => hi) (fun _ => 5) (fun _ => by decide) (0, 0) events 1
  have := C122_mac_of_encrypted_conforms .x86 rfl (.raw 3 4) (.raw 5 6) trivial trivial _ _ rfl rfl _ _ _ (fun _ => hi)
    (fun t => BitVec.ofNat 64 t) (fun _ => 5) (fun _ => by decide) (0, 0) events 1
  trivial

end
end Goost.Props
