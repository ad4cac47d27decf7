import Verif.Lemmas.Streams
import Verif.Lemmas.Keys
/-
ECBSink and both CFBSinks.
-/
namespace Goost
open Spec Spec.Magma Spec.Modes Goost.Magma
variable {W σ τ : Type}

/-- The pieces that ECB writes. -/
def ecbPieces (f : Fin 8 → W32 → W32) (d : List Byte) : List (List Byte) :=
  (ecb (encF f) (blocks64 d)).map bytesOf64

theorem ecbPieces_append (f : Fin 8 → W32 → W32) {p : List Byte} (h : p.length = 8)
    (d : List Byte) :
    ecbPieces f (p ++ d) = bytesOf64 (encF f (block64 p)) :: ecbPieces f d := by
  rw [ecbPieces, blocks64_append h]; rfl

theorem ecbPieces_short (f : Fin 8 → W32 → W32) {p : List Byte} (h : p.length < 8) :
    ecbPieces f p = [] := by
  rw [ecbPieces, blocks64_short h]; rfl

theorem overwrite8_eq {p e : List Byte} (h : p.length = 8) : overwrite8 p e = .ok e := by
  have h1 : ¬ p.length < 8 := by omega
  have h2 : p.drop 8 = [] := List.drop_of_length_le (by omega)
  simp [overwrite8, h1, h2]

theorem ECBSink_loop_eq (wr : τ → List Byte → Io W τ) {key : Key} {f} (h : Computes key f)
    (d p : List Byte) (hp : p.length < 8) (s : τ) :
    ECBSink.loop wr key d p s = writeAll wr s (ecbPieces f (p ++ d)) >>= fun s =>
      if (p ++ d).length % 8 = 0 then pure ⟨s, key⟩
      else Io.lift (.throw (.runtimeError "Unaligned ECB encryption")) := by
  induction d generalizing p s with
  | nil =>
    rw [List.append_nil, ecbPieces_short f hp, writeAll_nil]
    unfold ECBSink.loop
    by_cases e : p = []
    · subst e; rfl
    · have : ¬ p.length % 8 = 0 := by
        have : p.length ≠ 0 := by simpa using e
        omega
      simp [e, this]
  | cons b d ih =>
    unfold ECBSink.loop
    simp only
    have e : p ++ b :: d = (p ++ [b]) ++ d := by simp
    by_cases h8 : (p ++ [b]).length = 8
    · rw [if_pos h8, load64_eq h8, Io.lift_ok_bind, EncryptionBase_eq h, Io.lift_ok_bind,
        overwrite8_eq h8, Io.lift_ok_bind, e, ecbPieces_append f h8, writeAll_cons, bind_assoc,
        bytes64_eq_spec]
      congr 1
      funext s
      rw [ih [] (by simp), List.nil_append, List.length_append, h8]
      have : (8 + d.length) % 8 = d.length % 8 := by omega
      rw [this]
    · rw [if_neg h8, e]
      refine ih _ ?_ s
      simp only [List.length_append, List.length_cons, List.length_nil] at h8 ⊢
      omega

theorem ECBSink_write_eq (wr : τ → List Byte → Io W τ) {key : Key} {f} (h : Computes key f)
    (d : List Byte) (s : τ) :
    ECBSink.write wr ⟨s, key⟩ d = writeAll wr s (ecbPieces f d) >>= fun s =>
      if d.length % 8 = 0 then pure ⟨s, key⟩
      else Io.lift (.throw (.runtimeError "Unaligned ECB encryption")) :=
  ECBSink_loop_eq wr h d [] (by simp) s

theorem ECBSink_loop_append (wr : τ → List Byte → Io W τ) (key : Key) (d1 d2 p : List Byte)
    (hp : p.length < 8) (h : (p ++ d1).length % 8 = 0) (s : τ) :
    ECBSink.loop wr key (d1 ++ d2) p s =
      ECBSink.loop wr key d1 p s >>= fun t => ECBSink.write wr t d2 := by
  induction d1 generalizing p s with
  | nil =>
    have : p = [] := by
      rw [List.append_nil] at h
      exact List.eq_nil_of_length_eq_zero (by omega)
    subst this
    rfl
  | cons b d ih =>
    have e : p ++ b :: d = (p ++ [b]) ++ d := by simp
    rw [e] at h
    rw [List.cons_append]
    unfold ECBSink.loop
    simp only
    by_cases h8 : (p ++ [b]).length = 8
    · rw [if_pos h8, if_pos h8]
      simp only [bind_assoc]
      congr 1; funext x
      congr 1; funext e
      congr 1; funext q
      congr 1; funext s
      refine ih [] (by simp) ?_ s
      rw [List.length_append, h8] at h
      rw [List.nil_append]
      omega
    · rw [if_neg h8, if_neg h8]
      refine ih _ ?_ h s
      simp only [List.length_append, List.length_cons, List.length_nil] at h8 ⊢
      omega

theorem ECBSink_write_append (wr : τ → List Byte → Io W τ) (t : ECBSink τ) (d1 d2 : List Byte)
    (h : d1.length % 8 = 0) :
    ECBSink.write wr t (d1 ++ d2) =
      ECBSink.write wr t d1 >>= fun t => ECBSink.write wr t d2 :=
  ECBSink_loop_append wr t.key d1 d2 [] (by simp) h t.sink

/-! ### Cipher feedback -/

theorem cfbEnc_length (E : W64 → W64) (R p : List W64) (hR : R ≠ []) :
    (cfbEnc E R p).length = p.length := by
  induction p generalizing R with
  | nil => cases R <;> rfl
  | cons x p ih =>
    match R, hR with
    | r :: R, _ => simp only [cfbEnc, List.length_cons]; rw [ih _ (by simp)]

theorem cfbDec_length (E : W64 → W64) (R p : List W64) (hR : R ≠ []) :
    (cfbDec E R p).length = p.length := by
  induction p generalizing R with
  | nil => cases R <;> rfl
  | cons x p ih =>
    match R, hR with
    | r :: R, _ => simp only [cfbDec, List.length_cons]; rw [ih _ (by simp)]

theorem cfbDec_cfbEnc (E : W64 → W64) (R p : List W64) (hR : R ≠ []) :
    cfbDec E R (cfbEnc E R p) = p := by
  induction p generalizing R with
  | nil => cases R <;> rfl
  | cons x p ih =>
    match R, hR with
    | r :: R, _ => simp only [cfbEnc, cfbDec]; rw [ih _ (by simp), xor_cancel]

theorem cfbEnc_cfbDec (E : W64 → W64) (R p : List W64) (hR : R ≠ []) :
    cfbEnc E R (cfbDec E R p) = p := by
  induction p generalizing R with
  | nil => cases R <;> rfl
  | cons x p ih =>
    match R, hR with
    | r :: R, _ => simp only [cfbEnc, cfbDec]; rw [xor_cancel, ih _ (by simp)]

/-- Every decrypted block is the ciphertext block xored with the encryption of the block that is as
many places before it in `R ++ c` as the register is long. -/
theorem cfbDec_getElem? (E : W64 → W64) (R c : List W64) (hR : R ≠ []) (i : Nat) :
    (cfbDec E R c)[i]? = (c[i]?).map fun x => x ^^^ E ((R ++ c).getD i 0) := by
  induction c generalizing R i with
  | nil => cases R <;> simp [cfbDec]
  | cons x c ih =>
    match R, hR with
    | r :: R, _ =>
      cases i with
      | zero => simp [cfbDec]
      | succ i =>
        simp only [cfbDec, List.getElem?_cons_succ]
        rw [ih _ (by simp)]
        simp

/-! ### magma::CFBSink -/

theorem CFBSink_loop_append (m : Machine) (wr : τ → List Byte → Io W τ) (key : Key)
    (d1 d2 : List Byte) (s : τ) (p : List Byte) (rl rr : W64) :
    CFBSink.loop m wr key (d1 ++ d2) s p rl rr =
      CFBSink.loop m wr key d1 s p rl rr >>= fun t => CFBSink.write m wr t d2 := by
  induction d1 generalizing s p rl rr with
  | nil => rfl
  | cons b d ih =>
    rw [List.cons_append]
    unfold CFBSink.loop
    simp only
    split
    · simp only [bind_assoc]
      congr 1; funext e
      congr 1; funext c
      congr 1; funext s
      congr 1; funext rr
      exact ih _ _ _ _
    · exact ih _ _ _ _

theorem CFBSink_write_append (m : Machine) (wr : τ → List Byte → Io W τ) (t : CFBSink τ)
    (d1 d2 : List Byte) :
    CFBSink.write m wr t (d1 ++ d2) =
      CFBSink.write m wr t d1 >>= fun t => CFBSink.write m wr t d2 :=
  CFBSink_loop_append m wr t.key d1 d2 t.sink t.plain t.ivl t.ivr

theorem CFBSink_writes (m : Machine) (wr : τ → List Byte → Io W τ) (t : CFBSink τ)
    (ds : List (List Byte)) :
    writeAll (CFBSink.write m wr) t ds = CFBSink.write m wr t ds.flatten := by
  induction ds generalizing t with
  | nil => rfl
  | cons d ds ih =>
    rw [writeAll_cons, List.flatten_cons, CFBSink_write_append]
    congr 1
    funext t
    exact ih t

/-- What `CFBSink::write` does to the underlying sink and which object it returns: the register then
holds the last two blocks of the initialisation vector followed by the ciphertext. -/
theorem CFBSink_loop_eq (m : Machine) (wr : τ → List Byte → Io W τ) {key : Key} {f}
    (h : Computes key f) (hl : key.isLazy = true) (d p : List Byte) (hp : p.length < 8) (s : τ)
    (rl rr : W64) (c : List W64) (hc : c = cfbEnc (encF f) [rl, rr] (blocks64 (p ++ d))) :
    CFBSink.loop m wr key d s p rl rr =
      writeAll wr s (c.map bytesOf64) >>= fun s =>
        pure ⟨s, key, ([rl, rr] ++ c).getD c.length 0, ([rl, rr] ++ c).getD (c.length + 1) 0,
          (p ++ d).drop (8 * ((p ++ d).length / 8))⟩ := by
  induction d generalizing p s rl rr c with
  | nil =>
    rw [List.append_nil, blocks64_short hp] at hc
    rw [List.append_nil]
    have : p.length / 8 = 0 := by omega
    rw [this, hc]
    rfl
  | cons b d ih =>
    have e : p ++ b :: d = (p ++ [b]) ++ d := by simp
    rw [e] at hc ⊢
    unfold CFBSink.loop
    simp only
    by_cases h8 : (p ++ [b]).length = 8
    · obtain ⟨v, hv, hx⟩ := BlkEncrypted_ofU64 h m rl
      rw [if_pos h8, asLazy_of hl, hv, Io.lift_ok_bind, xorWords_eq h8, Io.lift_ok_bind, hx]
      rw [blocks64_append h8] at hc
      simp only [cfbEnc, List.cons_append, List.nil_append] at hc
      rw [hc, List.map_cons, writeAll_cons, bind_assoc]
      congr 1; funext s
      rw [load64_eq (by simp), Io.lift_ok_bind, block64_bytesOf64]
      rw [ih [] (by simp) s rr _ _ rfl]
      have e2 : 8 * (((p ++ [b]) ++ d).length / 8) = (p ++ [b]).length + 8 * (d.length / 8) := by
        rw [List.length_append, h8]; omega
      rw [e2, List.drop_length_add_append]
      rfl
    · rw [if_neg h8]
      refine ih _ ?_ s _ _ _ hc
      simp only [List.length_append, List.length_cons, List.length_nil] at h8 ⊢
      omega

theorem CFBSink_writes_eq (m : Machine) (wr : τ → List Byte → Io W τ) {key : Key} {f}
    (h : Computes key f) (hl : key.isLazy = true) (ds : List (List Byte)) (s : τ) (ivl ivr : W64)
    (c : List W64) (hc : c = cfbEnc (encF f) [ivl, ivr] (blocks64 ds.flatten)) :
    writeAll (CFBSink.write m wr) (CFBSink.new s key ivl ivr) ds =
      writeAll wr s (c.map bytesOf64) >>= fun s =>
        pure ⟨s, key, ([ivl, ivr] ++ c).getD c.length 0, ([ivl, ivr] ++ c).getD (c.length + 1) 0,
          ds.flatten.drop (8 * (ds.flatten.length / 8))⟩ := by
  rw [CFBSink_writes]
  exact CFBSink_loop_eq m wr h hl ds.flatten [] (by simp) s ivl ivr c hc

/-- Whatever the key and the sink do, a write that succeeds emits as many whole blocks as there are
and keeps the rest. -/
theorem CFBSink_loop_plain (m : Machine) (wr : τ → List Byte → Io W τ) (key : Key)
    (content : τ → W → List Byte) (hw : Collects wr content) (d p : List Byte) (hp : p.length < 8)
    (s : τ) (rl rr : W64) (w w' : W) (t : CFBSink τ)
    (h : CFBSink.loop m wr key d s p rl rr w = (.ok t, w')) :
    t.plain = (p ++ d).drop (8 * ((p ++ d).length / 8)) ∧
      ∃ c, content t.sink w' = content s w ++ c ∧ c.length = 8 * ((p ++ d).length / 8) := by
  induction d generalizing p s rl rr w with
  | nil =>
    rw [List.append_nil]
    have : p.length / 8 = 0 := by omega
    simp only [CFBSink.loop, Io.pure_def, Io.lift, Prod.mk.injEq, Exec.ok.injEq] at h
    rw [← h.1, ← h.2, this]
    exact ⟨rfl, [], by simp, rfl⟩
  | cons b d ih =>
    have e : p ++ b :: d = (p ++ [b]) ++ d := by simp
    rw [e]
    unfold CFBSink.loop at h
    simp only at h
    by_cases h8 : (p ++ [b]).length = 8
    · rw [if_pos h8] at h
      cases hv : (BlkEncrypted (BlkRaw.ofU64 rl) key.asLazy).value m with
      | ok v =>
        rw [hv, Io.lift_ok_bind, xorWords_eq h8, Io.lift_ok_bind] at h
        obtain ⟨s1, w1, e1, c1⟩ := hw s w (bytesOf64 (block64 (p ++ [b]) ^^^ join32 v))
        rw [Io.bind_run_ok e1, load64_eq (by simp), Io.lift_ok_bind] at h
        obtain ⟨h1, c, h2, h3⟩ := ih [] (by simp) _ _ _ _ h
        have e2 : 8 * (((p ++ [b]) ++ d).length / 8) = (p ++ [b]).length + 8 * (d.length / 8) := by
          rw [List.length_append, h8]; omega
        rw [e2, List.drop_length_add_append]
        refine ⟨h1, bytesOf64 (block64 (p ++ [b]) ^^^ join32 v) ++ c, by rw [h2, c1, List.append_assoc], ?_⟩
        rw [List.length_append, h3, h8, bytesOf64_length]
        rfl
      | throw e => rw [hv] at h; simp [Io.lift] at h
      | ub u => rw [hv] at h; simp [Io.lift] at h
      | diverge => rw [hv] at h; simp [Io.lift] at h
    · rw [if_neg h8] at h
      refine ih _ ?_ _ _ _ _ h
      simp only [List.length_append, List.length_cons, List.length_nil] at h8 ⊢
      omega

/-! ### gost89::CFBSink -/

theorem gost89_CFBSink_loop_append (m : Machine) (wr : τ → List Byte → Io W τ) (key : Key)
    (d1 d2 : List Byte) (s : τ) (p : List Byte) (r : W64) :
    Gost89.CFBSink.loop m wr key (d1 ++ d2) s p r =
      Gost89.CFBSink.loop m wr key d1 s p r >>= fun t => Gost89.CFBSink.write m wr t d2 := by
  induction d1 generalizing s p r with
  | nil => rfl
  | cons b d ih =>
    rw [List.cons_append]
    unfold Gost89.CFBSink.loop
    simp only
    split
    · simp only [bind_assoc]
      congr 1; funext e
      congr 1; funext c
      congr 1; funext s
      congr 1; funext r
      exact ih _ _ _
    · exact ih _ _ _

theorem gost89_CFBSink_write_append (m : Machine) (wr : τ → List Byte → Io W τ) (t : Gost89.CFBSink τ)
    (d1 d2 : List Byte) :
    Gost89.CFBSink.write m wr t (d1 ++ d2) =
      Gost89.CFBSink.write m wr t d1 >>= fun t => Gost89.CFBSink.write m wr t d2 :=
  gost89_CFBSink_loop_append m wr t.key d1 d2 t.sink t.plain t.iv

theorem gost89_CFBSink_writes (m : Machine) (wr : τ → List Byte → Io W τ) (t : Gost89.CFBSink τ)
    (ds : List (List Byte)) :
    writeAll (Gost89.CFBSink.write m wr) t ds = Gost89.CFBSink.write m wr t ds.flatten := by
  induction ds generalizing t with
  | nil => rfl
  | cons d ds ih =>
    rw [writeAll_cons, List.flatten_cons, gost89_CFBSink_write_append]
    congr 1
    funext t
    exact ih t

/-- What `Gost89.CFBSink::write` does to the underlying sink and which object it returns: the register then
holds the last block of the initialisation vector followed by the ciphertext. -/
theorem gost89_CFBSink_loop_eq (m : Machine) (wr : τ → List Byte → Io W τ) {key : Key} {f}
    (h : Computes key f) (hl : key.isLazy = true) (d p : List Byte) (hp : p.length < 8) (s : τ)
    (r : W64) (c : List W64) (hc : c = cfbEnc (encF f) [r] (blocks64 (p ++ d))) :
    Gost89.CFBSink.loop m wr key d s p r =
      writeAll wr s (c.map bytesOf64) >>= fun s =>
        pure ⟨s, key, ([r] ++ c).getD c.length 0,
          (p ++ d).drop (8 * ((p ++ d).length / 8))⟩ := by
  induction d generalizing p s r c with
  | nil =>
    rw [List.append_nil, blocks64_short hp] at hc
    rw [List.append_nil]
    have : p.length / 8 = 0 := by omega
    rw [this, hc]
    rfl
  | cons b d ih =>
    have e : p ++ b :: d = (p ++ [b]) ++ d := by simp
    rw [e] at hc ⊢
    unfold Gost89.CFBSink.loop
    simp only
    by_cases h8 : (p ++ [b]).length = 8
    · obtain ⟨v, hv, hx⟩ := BlkEncrypted_ofU64 h m r
      rw [if_pos h8, asLazy_of hl, hv, Io.lift_ok_bind, xorWords_eq h8, Io.lift_ok_bind, hx]
      rw [blocks64_append h8] at hc
      simp only [cfbEnc, List.nil_append] at hc
      rw [hc, List.map_cons, writeAll_cons, bind_assoc]
      congr 1; funext s
      rw [load64_eq (by simp), Io.lift_ok_bind, block64_bytesOf64]
      rw [ih [] (by simp) s _ _ rfl]
      have e2 : 8 * (((p ++ [b]) ++ d).length / 8) = (p ++ [b]).length + 8 * (d.length / 8) := by
        rw [List.length_append, h8]; omega
      rw [e2, List.drop_length_add_append]
      rfl
    · rw [if_neg h8]
      refine ih _ ?_ s _ _ hc
      simp only [List.length_append, List.length_cons, List.length_nil] at h8 ⊢
      omega

theorem gost89_CFBSink_writes_eq (m : Machine) (wr : τ → List Byte → Io W τ) {key : Key} {f}
    (h : Computes key f) (hl : key.isLazy = true) (ds : List (List Byte)) (s : τ) (iv : W64)
    (c : List W64) (hc : c = cfbEnc (encF f) [iv] (blocks64 ds.flatten)) :
    writeAll (Gost89.CFBSink.write m wr) (Gost89.CFBSink.new s key iv) ds =
      writeAll wr s (c.map bytesOf64) >>= fun s =>
        pure ⟨s, key, ([iv] ++ c).getD c.length 0,
          ds.flatten.drop (8 * (ds.flatten.length / 8))⟩ := by
  rw [gost89_CFBSink_writes]
  exact gost89_CFBSink_loop_eq m wr h hl ds.flatten [] (by simp) s iv c hc

/-- Whatever the key and the sink do, a write that succeeds emits as many whole blocks as there are
and keeps the rest. -/
theorem gost89_CFBSink_loop_plain (m : Machine) (wr : τ → List Byte → Io W τ) (key : Key)
    (content : τ → W → List Byte) (hw : Collects wr content) (d p : List Byte) (hp : p.length < 8)
    (s : τ) (r : W64) (w w' : W) (t : Gost89.CFBSink τ)
    (h : Gost89.CFBSink.loop m wr key d s p r w = (.ok t, w')) :
    t.plain = (p ++ d).drop (8 * ((p ++ d).length / 8)) ∧
      ∃ c, content t.sink w' = content s w ++ c ∧ c.length = 8 * ((p ++ d).length / 8) := by
  induction d generalizing p s r w with
  | nil =>
    rw [List.append_nil]
    have : p.length / 8 = 0 := by omega
    simp only [Gost89.CFBSink.loop, Io.pure_def, Io.lift, Prod.mk.injEq, Exec.ok.injEq] at h
    rw [← h.1, ← h.2, this]
    exact ⟨rfl, [], by simp, rfl⟩
  | cons b d ih =>
    have e : p ++ b :: d = (p ++ [b]) ++ d := by simp
    rw [e]
    unfold Gost89.CFBSink.loop at h
    simp only at h
    by_cases h8 : (p ++ [b]).length = 8
    · rw [if_pos h8] at h
      cases hv : (BlkEncrypted (BlkRaw.ofU64 r) key.asLazy).value m with
      | ok v =>
        rw [hv, Io.lift_ok_bind, xorWords_eq h8, Io.lift_ok_bind] at h
        obtain ⟨s1, w1, e1, c1⟩ := hw s w (bytesOf64 (block64 (p ++ [b]) ^^^ join32 v))
        rw [Io.bind_run_ok e1, load64_eq (by simp), Io.lift_ok_bind] at h
        obtain ⟨h1, c, h2, h3⟩ := ih [] (by simp) _ _ _ h
        have e2 : 8 * (((p ++ [b]) ++ d).length / 8) = (p ++ [b]).length + 8 * (d.length / 8) := by
          rw [List.length_append, h8]; omega
        rw [e2, List.drop_length_add_append]
        refine ⟨h1, bytesOf64 (block64 (p ++ [b]) ^^^ join32 v) ++ c, by rw [h2, c1, List.append_assoc], ?_⟩
        rw [List.length_append, h3, h8, bytesOf64_length]
        rfl
      | throw e => rw [hv] at h; simp [Io.lift] at h
      | ub u => rw [hv] at h; simp [Io.lift] at h
      | diverge => rw [hv] at h; simp [Io.lift] at h
    · rw [if_neg h8] at h
      refine ih _ ?_ _ _ _ h
      simp only [List.length_append, List.length_cons, List.length_nil] at h8 ⊢
      omega

/-- `xorWords` on fewer than 8 bytes. -/
theorem xorWords_short : ∀ {p : List Byte}, p.length < 8 → ∀ x y : W32,
    xorWords p x y = .ub .oobWrite
  | [], _, _, _ | [_], _, _, _ | [_, _], _, _, _ | [_, _, _], _, _, _ | [_, _, _, _], _, _, _
  | [_, _, _, _, _], _, _, _ | [_, _, _, _, _, _], _, _, _
  | [_, _, _, _, _, _, _], _, _, _ => rfl
  | _ :: _ :: _ :: _ :: _ :: _ :: _ :: _ :: _, h, _, _ => by simp at h; omega

end Goost
