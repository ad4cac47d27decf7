import Verif.Spec.SharedStreams
import Verif.Lemmas.MagmaConc
/-
The streams that ask for their key, if the thread is alone, are those of Model/MagmaModes and Model/Gost89.
-/
namespace Goost.Conc
open Spec Goost.Magma

variable {Op Res W α β σ τ : Type}

theorem aloneIo_bind (answer : Op → Res) (x : Ask Op Res W α) (f : α → Ask Op Res W β) :
    aloneIo answer (x >>= f) = aloneIo answer x >>= fun a => aloneIo answer (f a) := by
  funext w
  show alone answer ((x w).bind _) = Io.bind _ _ w
  rw [alone_bind]
  simp only [Io.bind, aloneIo]
  generalize alone answer (x w) = r
  obtain ⟨r, w'⟩ := r
  cases r <;> rfl

theorem aloneIo_pure (answer : Op → Res) (a : α) : aloneIo answer (pure a : Ask Op Res W α) = pure a := rfl

theorem aloneIo_lift (answer : Op → Res) (x : Exec α) : aloneIo answer (Ask.lift x : Ask Op Res W α) = Io.lift x := rfl

theorem aloneIo_io (answer : Op → Res) (x : Io W α) : aloneIo answer (Ask.io x : Ask Op Res W α) = x := rfl

theorem aloneIo_use (answer : Op → Res) (p : Prog Op Res (Exec α)) :
    aloneIo answer (Ask.use p : Ask Op Res W α) = Io.lift (alone answer p) := by
  funext w
  show alone answer (p.bind _) = _
  rw [alone_bind]
  rfl

theorem aloneIo_ite (answer : Op → Res) (c : Prop) [Decidable c] (x y : Ask Op Res W α) :
    aloneIo answer (if c then x else y) = if c then aloneIo answer x else aloneIo answer y := by
  split <;> rfl

theorem alone_lockedCalls {S : Type} (answer : Op → Res) (calls : List (S → Ask Op Res W S)) (s : S) (w : W) :
    alone (alone answer) (lockedCalls calls s w) = callsAlone answer calls s w := by
  induction calls generalizing s w with
  | nil => rfl
  | cons c cs ih =>
    simp only [lockedCalls, alone, callsAlone, List.foldlM_cons]
    show _ = Io.bind _ _ w
    simp only [Io.bind, aloneIo]
    generalize alone answer (c s w) = r
    obtain ⟨r, w'⟩ := r
    cases r <;> first | exact ih _ _ | rfl

/-! ### blocks -/

section
variable (kd : KeyData) (sbox : Sbox)

theorem alone_askBlk (m : Machine) (b : Magma.Blk) (h : OnlyKey (LazyKey kd sbox) b) :
    alone kd (askBlk m sbox b) = b.value m := by
  induction b with
  | raw _ _ => rfl
  | str _ => rfl
  | user _ => rfl
  | swapped b ih => simp only [askBlk, alone_bindE, ih h, Blk.value, alone]; rfl
  | xored a b iha ihb => simp only [askBlk, alone_bindE, iha h.1, ihb h.2, Blk.value, alone]; rfl
  | shifted b n ih => simp only [askBlk, alone_bindE, ih h, Blk.value, alone]
  | forwarded b k ih =>
    obtain ⟨h, rfl⟩ := h
    simp only [askBlk, alone_bindE, ih h, Blk.value, alone_forward]
  | backwarded b k ih =>
    obtain ⟨h, rfl⟩ := h
    simp only [askBlk, alone_bindE, ih h, Blk.value, alone_backward]
  | imitShifted b ih =>
    simp only [askBlk, alone_bindE, ih h, Blk.value]
    congr 1
    funext v
    split
    · simp only [alone_bindE, ih h, alone]
    · simp only [alone_bindE, ih h, alone]; rfl

theorem onlyKey_encrypted {key : Key} (b : Magma.Blk) (h : OnlyKey key b) :
    OnlyKey key (BlkEncrypted b (some key)) := ⟨⟨⟨⟨h, rfl⟩, rfl⟩, rfl⟩, rfl⟩

theorem onlyKey_decrypted {key : Key} (b : Magma.Blk) (h : OnlyKey key b) :
    OnlyKey key (BlkDecrypted b (some key)) := ⟨⟨⟨⟨h, rfl⟩, rfl⟩, rfl⟩, rfl⟩

theorem alone_askBase (x : W64) :
    alone kd (askBase sbox x) = EncryptionBase.transform (LazyKey kd sbox) x := by
  simp only [askBase, alone_bindE, alone_askRounds_cons, EncryptionBase.transform, bind_assoc]
  rfl

theorem asLazy_lazy : (LazyKey kd sbox).asLazy = some (LazyKey kd sbox) := rfl

theorem alone_ofU64 (m : Machine) (x : W64) :
    alone kd (askBlk m sbox (BlkEncrypted (BlkRaw.ofU64 x) (LazyKey kd sbox).asLazy)) =
      (BlkEncrypted (BlkRaw.ofU64 x) (LazyKey kd sbox).asLazy).value m :=
  alone_askBlk kd sbox m _ (onlyKey_encrypted _ trivial)

/-! ### the streams -/

theorem ecbSink_loop (wr : τ → List Byte → Io W τ) (data p : List Byte) (s : τ) :
    aloneIo kd (askECBSink.loop wr sbox (LazyKey kd sbox) data p s) =
      ECBSink.loop wr (LazyKey kd sbox) data p s := by
  induction data generalizing p s with
  | nil => simp only [askECBSink.loop, ECBSink.loop, aloneIo_ite, aloneIo_lift, aloneIo_pure]
  | cons b data ih =>
    simp only [askECBSink.loop, ECBSink.loop, aloneIo_ite, aloneIo_bind, aloneIo_lift, aloneIo_use, aloneIo_io,
      alone_askBase, ih]

theorem ecbSource_read (m : Machine) (rd : σ → Nat → Io W (List Byte × σ)) (t : ECBSource σ)
    (ht : ∀ s k, t = .ecb s k → k = LazyKey kd sbox) (size : Nat) :
    aloneIo kd (askECBSource.read m rd sbox t size) = ECBSource.read m rd t size := by
  cases t with
  | bare s => simp only [askECBSource.read, ECBSource.read, aloneIo_bind, aloneIo_io, aloneIo_pure]
  | ecb s key =>
    obtain rfl := ht s key rfl
    have e : ∀ p : List Byte, (BlkRaw.ofBytes p >>= fun b =>
          alone kd (askBlk m sbox (BlkDecrypted b (LazyKey kd sbox).asLazy))) =
        (BlkRaw.ofBytes p >>= fun b => (BlkDecrypted b (LazyKey kd sbox).asLazy).value m) := by
      intro p
      simp only [BlkRaw.ofBytes, bind_assoc, pure_bind]
      simp only [asLazy_lazy, alone_askBlk kd sbox m _ (onlyKey_decrypted (.raw _ _) trivial)]
    have e2 : ∀ (p : List Byte) (f : W32 × W32 → Io W (List Byte × ECBSource σ)),
        (Io.lift (BlkRaw.ofBytes p) >>= fun b =>
          Io.lift (alone kd (askBlk m sbox (BlkDecrypted b (LazyKey kd sbox).asLazy))) >>= f) =
        (Io.lift (BlkRaw.ofBytes p) >>= fun b =>
          Io.lift ((BlkDecrypted b (LazyKey kd sbox).asLazy).value m) >>= f) := by
      intro p f
      have l : ∀ g : Blk → Exec (W32 × W32), (Io.lift (BlkRaw.ofBytes p) >>= fun b => Io.lift (g b) >>= f) =
          (Io.lift (BlkRaw.ofBytes p >>= g) >>= f : Io W _) := by
        intro g
        funext w
        show Io.bind _ _ w = Io.bind _ _ w
        simp only [Io.bind, Io.lift]
        cases BlkRaw.ofBytes p <;> rfl
      rw [l, l, e]
    simp only [askECBSource.read, ECBSource.read, aloneIo_ite, aloneIo_bind, aloneIo_io, aloneIo_lift, aloneIo_pure,
      aloneIo_use, e2]

theorem cfbSink_loop (m : Machine) (wr : τ → List Byte → Io W τ) (data : List Byte) (s : τ) (p : List Byte)
    (rl rr : W64) : aloneIo kd (askCFBSink.loop m wr sbox (LazyKey kd sbox) data s p rl rr) =
      CFBSink.loop m wr (LazyKey kd sbox) data s p rl rr := by
  induction data generalizing s p rl rr with
  | nil => rfl
  | cons b data ih =>
    simp only [askCFBSink.loop, CFBSink.loop, aloneIo_ite, aloneIo_bind, aloneIo_lift, aloneIo_use, aloneIo_io,
      alone_ofU64, ih]

theorem cfbSink_finalize (m : Machine) (wr : τ → List Byte → Io W τ) (t : CFBSink τ) (ht : t.key = LazyKey kd sbox) :
    aloneIo kd (askCFBSink.finalize m wr sbox t) = CFBSink.finalize m wr t := by
  simp only [askCFBSink.finalize, CFBSink.finalize, aloneIo_ite, aloneIo_bind, aloneIo_lift, aloneIo_use, aloneIo_io,
    aloneIo_pure, ht, alone_ofU64]

theorem cfbSource_loop (m : Machine) (rd : σ → Nat → Io W (List Byte × σ)) (size fuel : Nat) (s : σ)
    (p : List Byte) (rl rr : W64) (res : List Byte) :
    aloneIo kd (askCFBSource.loop m rd sbox (LazyKey kd sbox) size fuel s p rl rr res) =
      CFBSource.loop m rd (LazyKey kd sbox) size fuel s p rl rr res := by
  induction fuel generalizing s p rl rr res with
  | zero => rfl
  | succ fuel ih =>
    simp only [askCFBSource.loop, CFBSource.loop, aloneIo_ite, aloneIo_bind, aloneIo_lift, aloneIo_use, aloneIo_io,
      aloneIo_pure, alone_ofU64, ih]

theorem gost89CfbSink_loop (m : Machine) (wr : τ → List Byte → Io W τ) (data : List Byte) (s : τ) (p : List Byte)
    (l : W64) : aloneIo kd (askGost89CFBSink.loop m wr sbox (LazyKey kd sbox) data s p l) =
      Gost89.CFBSink.loop m wr (LazyKey kd sbox) data s p l := by
  induction data generalizing s p l with
  | nil => rfl
  | cons b data ih =>
    simp only [askGost89CFBSink.loop, Gost89.CFBSink.loop, aloneIo_ite, aloneIo_bind, aloneIo_lift, aloneIo_use,
      aloneIo_io, alone_ofU64, ih]

theorem gost89CfbSink_finalize (m : Machine) (wr : τ → List Byte → Io W τ) (t : Gost89.CFBSink τ)
    (ht : t.key = LazyKey kd sbox) :
    aloneIo kd (askGost89CFBSink.finalize m wr sbox t) = Gost89.CFBSink.finalize m wr t := by
  simp only [askGost89CFBSink.finalize, Gost89.CFBSink.finalize, aloneIo_ite, aloneIo_bind, aloneIo_lift, aloneIo_use,
    aloneIo_io, aloneIo_pure, ht, alone_ofU64]

theorem gost89CfbSource_loop (m : Machine) (rd : σ → Nat → Io W (List Byte × σ)) (size fuel : Nat) (s : σ)
    (p : List Byte) (r : W64) (res : List Byte) :
    aloneIo kd (askGost89CFBSource.loop m rd sbox (LazyKey kd sbox) size fuel s p r res) =
      Gost89.CFBSource.loop m rd (LazyKey kd sbox) size fuel s p r res := by
  induction fuel generalizing s p r res with
  | zero => rfl
  | succ fuel ih =>
    simp only [askGost89CFBSource.loop, Gost89.CFBSource.loop, aloneIo_ite, aloneIo_bind, aloneIo_lift, aloneIo_use,
      aloneIo_io, aloneIo_pure, alone_ofU64, ih]

/-! ### the MACs -/

theorem io_ok {x : Io W α} {f : α → Io W β} {w w' : W} {b : β} (h : (x >>= f) w = (.ok b, w')) :
    ∃ a v, x w = (.ok a, v) ∧ f a v = (.ok b, w') := by
  change Io.bind x f w = _ at h
  unfold Io.bind at h
  split at h
  · next a v e => exact ⟨a, v, e, h⟩
  all_goals cases h

theorem imit_loop_onlyKey {key : Key} (rd : σ → Nat → Io W (List Byte × σ)) (fuel : Nat) (s : σ) (b : List Byte)
    (block : Magma.Blk) (hb : OnlyKey key block) (w w' : W) (r : Magma.Blk × Magma.Blk)
    (h : Imit.loop rd (some key) fuel s b block w = (.ok r, w')) : OnlyKey key r.1 ∧ OnlyKey key r.2 := by
  have hk : ∀ n, OnlyKey key (BlkImitFinalKey (some key) n) := by
    intro n
    unfold BlkImitFinalKey
    dsimp only
    split <;> exact onlyKey_encrypted BlkRaw.zero trivial
  induction fuel generalizing s b block w with
  | zero => cases h
  | succ fuel ih =>
    simp only [Imit.loop] at h
    obtain ⟨v, w1, -, h⟩ := io_ok h
    have hx : OnlyKey key (.xored block (BlkRaw.ofU64 v)) := ⟨hb, trivial⟩
    split at h
    · cases h; exact ⟨hx, hk _⟩
    · obtain ⟨p, w2, -, h⟩ := io_ok h
      split at h
      · cases h; exact ⟨hx, hk _⟩
      · exact ih _ _ _ (onlyKey_encrypted _ hx) _ h

theorem imit_value (m : Machine) (rd : σ → Nat → Io W (List Byte × σ)) (fuel : Nat) (data : σ) :
    aloneIo kd (askImit.value m rd sbox fuel data (some (LazyKey kd sbox))) =
      Imit.value m rd fuel data (some (LazyKey kd sbox)) := by
  simp only [askImit.value, Imit.value, aloneIo_bind, aloneIo_io, aloneIo_use]
  funext w
  show Io.bind _ _ w = Io.bind _ _ w
  unfold Io.bind
  split
  · next b w' e =>
    have hb : OnlyKey (LazyKey kd sbox) b := by
      simp only [Imit.build] at e
      obtain ⟨p, w1, -, e⟩ := io_ok e
      obtain ⟨q, w2, e1, e⟩ := io_ok e
      cases e
      exact onlyKey_encrypted _ (imit_loop_onlyKey rd fuel _ _ BlkRaw.zero trivial _ _ _ e1)
    exact congrArg (fun x => Io.lift x w') (alone_askBlk kd sbox m b hb)
  all_goals rfl

theorem dataImit_loop (m : Machine) (data state : List Byte) :
    alone kd (askDataImit.loop m sbox (some (LazyKey kd sbox)) data state) =
      Gost89.DataImit.loop m (some (LazyKey kd sbox)) data state := by
  fun_induction askDataImit.loop m sbox (some (LazyKey kd sbox)) data state with
  | case1 state b0 b1 b2 b3 b4 b5 b6 b7 rest state' ih =>
    have e : ∀ v, alone kd (askBlk m sbox (.forwarded (.forwarded (BlkRaw.ofPair v) (some (LazyKey kd sbox)))
        (some (LazyKey kd sbox)))) = (Magma.Blk.forwarded (.forwarded (BlkRaw.ofPair v) (some (LazyKey kd sbox)))
        (some (LazyKey kd sbox))).value m := fun v => alone_askBlk kd sbox m _ ⟨⟨trivial, rfl⟩, rfl⟩
    simp only [Gost89.DataImit.loop, alone_bindE, alone, Gost89.ImitedBlock.value, BlkRaw.ofBlock, e, ih, BlkRaw.ofBytes,
      bind_assoc, pure_bind]
    rfl
  | case2 => rfl
  | case3 => rename_i h1 h2; rw [Gost89.DataImit.loop] <;> first | rfl | assumption
end
end Goost.Conc
