import Verif.Lemmas.Imit
import Verif.Lemmas.Sources
import Verif.Lemmas.Kuz
import Verif.Model.ByteOrder
/-
The code on machines of either byte order.
-/
namespace Goost
open Spec Spec.Magma Spec.Modes Goost.Magma
variable {W σ τ : Type}

theorem load64In_eq {o : ByteOrder} {l : List Byte} (h : l.length = 8) :
    load64In o l 0 = .ok (blockIn o l) := by
  cases o
  · exact load64_eq h
  · obtain ⟨b0, b1, b2, b3, b4, b5, b6, b7, rfl⟩ := exists_of_length_eight h
    show _ = Exec.ok (block64 [b7, b6, b5, b4, b3, b2, b1, b0])
    rw [block64_eq_of8]; rfl

theorem bytes64In_eq {o : ByteOrder} (x : W64) : bytes64In o x = bytesIn o x := by
  cases o
  · exact bytes64_eq_spec x
  · show _ = (bytesOf64 x).reverse
    rw [← bytes64_eq_spec]; rfl

theorem ofBytesIn_eq {o : ByteOrder} {l : List Byte} (h : l.length = 8) :
    BlkRaw.ofBytesIn o l =
      .ok (.raw ((wordsIn o l).extractLsb' 0 32) ((wordsIn o l).extractLsb' 32 32)) := by
  cases o
  · exact ofBytes_eq h
  · obtain ⟨b0, b1, b2, b3, b4, b5, b6, b7, rfl⟩ := exists_of_length_eight h
    exact ofBytes_eq (l := [b3, b2, b1, b0, b7, b6, b5, b4]) rfl

theorem bytes32In_pair {o : ByteOrder} (v : W32 × W32) :
    bytes32In o v.1 ++ bytes32In o v.2 = wordBytesIn o (join32 v) := by
  cases o
  · exact bytes32_pair v
  · show _ = swapWords _
    rw [← bytes32_pair]; rfl

@[simp] theorem bytesIn_length (o : ByteOrder) (x : W64) : (bytesIn o x).length = 8 := by
  cases o <;> simp [bytesIn]

@[simp] theorem swapWords_length (l : List Byte) : (swapWords l).length = l.length := by
  simp only [swapWords, List.length_append, List.length_reverse, List.length_take, List.length_drop]
  omega

@[simp] theorem wordBytesIn_length (o : ByteOrder) (x : W64) : (wordBytesIn o x).length = 8 := by
  cases o <;> simp [wordBytesIn]

theorem swapWords_swapWords {l : List Byte} (h : l.length = 8) : swapWords (swapWords l) = l := by
  obtain ⟨b0, b1, b2, b3, b4, b5, b6, b7, rfl⟩ := exists_of_length_eight h
  rfl

theorem swap64_swap64 (x : W64) : swap64 (swap64 x) = x := by
  rw [swap64, swap64, bytesOf64_block64 (by simp), List.reverse_reverse, block64_bytesOf64]

theorem seen_seen (o : ByteOrder) (x : W64) : seen o (seen o x) = x := by
  cases o
  · rfl
  · exact swap64_swap64 x

theorem blockIn_bytesOf64 (o : ByteOrder) (x : W64) : blockIn o (bytesOf64 x) = seen o x := by
  cases o
  · exact block64_bytesOf64 x
  · rfl

theorem seen_blockIn (o : ByteOrder) {l : List Byte} (h : l.length = 8) :
    seen o (blockIn o l) = block64 l := by
  rw [← bytesOf64_block64 h, blockIn_bytesOf64, seen_seen, block64_bytesOf64]

theorem bytesIn_eq (o : ByteOrder) (x : W64) : bytesIn o x = bytesOf64 (seen o x) := by
  cases o
  · rfl
  · show _ = bytesOf64 (swap64 x)
    rw [swap64, bytesOf64_block64 (by simp)]; rfl

theorem blockIn_bytesIn (o : ByteOrder) (x : W64) : blockIn o (bytesIn o x) = x := by
  rw [bytesIn_eq, blockIn_bytesOf64, seen_seen]

theorem wordsIn_wordBytesIn (o : ByteOrder) (x : W64) : wordsIn o (wordBytesIn o x) = x := by
  cases o
  · exact block64_bytesOf64 x
  · show block64 (swapWords (swapWords (bytesOf64 x))) = x
    rw [swapWords_swapWords (by simp), block64_bytesOf64]

/-- The pieces that ECB writes. -/
def ecbPiecesIn (o : ByteOrder) (f : Fin 8 → W32 → W32) (d : List Byte) : List (List Byte) :=
  (chunks8 d).map fun p => bytesIn o (encF f (blockIn o p))

theorem ecbPiecesIn_append (o : ByteOrder) (f : Fin 8 → W32 → W32) {p : List Byte} (h : p.length = 8)
    (d : List Byte) :
    ecbPiecesIn o f (p ++ d) = bytesIn o (encF f (blockIn o p)) :: ecbPiecesIn o f d := by
  rw [ecbPiecesIn, chunks8_append h]; rfl

theorem ecbPiecesIn_short (o : ByteOrder) (f : Fin 8 → W32 → W32) {p : List Byte} (h : p.length < 8) :
    ecbPiecesIn o f p = [] := by
  rw [ecbPiecesIn, chunks8_short h]; rfl

theorem copyMaxIn_eq {o : ByteOrder} {p : List Byte} (h : p.length = 8) :
    copyMaxIn o p = .ok (blockIn o p) := by
  simp only [copyMaxIn, h]
  exact load64In_eq h

/-- What a source of cipher feedback makes of the bytes `c`. -/
def cfbPlainIn (o : ByteOrder) (f : Fin 8 → W32 → W32) (R : List W64) (c : List Byte) : List Byte :=
  unblocks64 (cfbDec (fun x => encF f (seen o x)) R (blocks64 c))

@[simp] theorem cfbPlainIn_nil (o : ByteOrder) (f : Fin 8 → W32 → W32) (R : List W64) :
    cfbPlainIn o f R [] = [] := by
  have : blocks64 [] = [] := rfl
  rw [cfbPlainIn, this]
  cases R <;> rfl

theorem cfbPlainIn_append (o : ByteOrder) (f : Fin 8 → W32 → W32) (r : W64) (R : List W64)
    {p : List Byte} (h : p.length = 8) (c : List Byte) :
    cfbPlainIn o f (r :: R) (p ++ c) =
      bytesOf64 (block64 p ^^^ encF f (seen o r)) ++ cfbPlainIn o f (R ++ [block64 p]) c := by
  rw [cfbPlainIn, blocks64_append h]; rfl

theorem CFBSink_loop_append_in (o : ByteOrder) (m : Machine) (wr : τ → List Byte → Io W τ) (key : Key)
    (d1 d2 : List Byte) (s : τ) (p : List Byte) (rl rr : W64) :
    CFBSink.loopIn o m wr key (d1 ++ d2) s p rl rr =
      CFBSink.loopIn o m wr key d1 s p rl rr >>= fun t => CFBSink.writeIn o m wr t d2 := by
  induction d1 generalizing s p rl rr with
  | nil => rfl
  | cons b d ih =>
    rw [List.cons_append]
    unfold CFBSink.loopIn
    simp only
    split
    · simp only [bind_assoc]
      congr 1; funext e
      congr 1; funext c
      congr 1; funext s
      congr 1; funext rr
      exact ih _ _ _ _
    · exact ih _ _ _ _

theorem CFBSink_write_append_in (o : ByteOrder) (m : Machine) (wr : τ → List Byte → Io W τ) (t : CFBSink τ)
    (d1 d2 : List Byte) :
    CFBSink.writeIn o m wr t (d1 ++ d2) =
      CFBSink.writeIn o m wr t d1 >>= fun t => CFBSink.writeIn o m wr t d2 :=
  CFBSink_loop_append_in o m wr t.key d1 d2 t.sink t.plain t.ivl t.ivr

theorem CFBSink_writes_in (o : ByteOrder) (m : Machine) (wr : τ → List Byte → Io W τ) (t : CFBSink τ)
    (ds : List (List Byte)) :
    writeAll (CFBSink.writeIn o m wr) t ds = CFBSink.writeIn o m wr t ds.flatten := by
  induction ds generalizing t with
  | nil => rfl
  | cons d ds ih =>
    rw [writeAll_cons, List.flatten_cons, CFBSink_write_append_in]
    congr 1
    funext t
    exact ih t

theorem gost89_CFBSink_loop_append_in (o : ByteOrder) (m : Machine) (wr : τ → List Byte → Io W τ) (key : Key)
    (d1 d2 : List Byte) (s : τ) (p : List Byte) (r : W64) :
    Gost89.CFBSink.loopIn o m wr key (d1 ++ d2) s p r =
      Gost89.CFBSink.loopIn o m wr key d1 s p r >>= fun t => Gost89.CFBSink.writeIn o m wr t d2 := by
  induction d1 generalizing s p r with
  | nil => rfl
  | cons b d ih =>
    rw [List.cons_append]
    unfold Gost89.CFBSink.loopIn
    simp only
    split
    · simp only [bind_assoc]
      congr 1; funext e
      congr 1; funext c
      congr 1; funext s
      congr 1; funext r
      exact ih _ _ _
    · exact ih _ _ _

theorem gost89_CFBSink_write_append_in (o : ByteOrder) (m : Machine) (wr : τ → List Byte → Io W τ) (t : Gost89.CFBSink τ)
    (d1 d2 : List Byte) :
    Gost89.CFBSink.writeIn o m wr t (d1 ++ d2) =
      Gost89.CFBSink.writeIn o m wr t d1 >>= fun t => Gost89.CFBSink.writeIn o m wr t d2 :=
  gost89_CFBSink_loop_append_in o m wr t.key d1 d2 t.sink t.plain t.iv

theorem gost89_CFBSink_writes_in (o : ByteOrder) (m : Machine) (wr : τ → List Byte → Io W τ) (t : Gost89.CFBSink τ)
    (ds : List (List Byte)) :
    writeAll (Gost89.CFBSink.writeIn o m wr) t ds = Gost89.CFBSink.writeIn o m wr t ds.flatten := by
  induction ds generalizing t with
  | nil => rfl
  | cons d ds ih =>
    rw [writeAll_cons, List.flatten_cons, gost89_CFBSink_write_append_in]
    congr 1
    funext t
    exact ih t

theorem CFBSink_loop_eq_in (o : ByteOrder) (m : Machine) (wr : τ → List Byte → Io W τ) {key : Key} {f}
    (h : Computes key f) (hl : key.isLazy = true) (d p : List Byte) (hp : p.length < 8) (s : τ)
    (rl rr : W64) (c : List W64) (hc : c = cfbEnc (fun x => encF f (seen o x)) [seen o rl, seen o rr] (blocks64 (p ++ d))) :
    CFBSink.loopIn o m wr key d s p rl rr =
      writeAll wr s (c.map bytesOf64) >>= fun s =>
        pure ⟨s, key, seen o (([seen o rl, seen o rr] ++ c).getD c.length 0), seen o (([seen o rl, seen o rr] ++ c).getD (c.length + 1) 0),
          (p ++ d).drop (8 * ((p ++ d).length / 8))⟩ := by
  induction d generalizing p s rl rr c with
  | nil =>
    rw [List.append_nil, blocks64_short hp] at hc
    rw [List.append_nil]
    have : p.length / 8 = 0 := by omega
    rw [this, hc]
    simp [cfbEnc, seen_seen, writeAll_nil, CFBSink.loopIn]
  | cons b d ih =>
    have e : p ++ b :: d = (p ++ [b]) ++ d := by simp
    rw [e] at hc ⊢
    unfold CFBSink.loopIn
    simp only
    by_cases h8 : (p ++ [b]).length = 8
    · obtain ⟨v, hv, hx⟩ := BlkEncrypted_ofU64 h m rl
      rw [if_pos h8, asLazy_of hl, hv, Io.lift_ok_bind, xorWords_eq h8, Io.lift_ok_bind, hx]
      rw [blocks64_append h8] at hc
      simp only [cfbEnc, List.cons_append, List.nil_append, seen_seen] at hc
      rw [hc, List.map_cons, writeAll_cons, bind_assoc]
      congr 1; funext s
      rw [load64In_eq (by simp), Io.lift_ok_bind, blockIn_bytesOf64]
      rw [ih [] (by simp) s rr _ _ rfl, seen_seen]
      have e2 : 8 * (((p ++ [b]) ++ d).length / 8) = (p ++ [b]).length + 8 * (d.length / 8) := by
        rw [List.length_append, h8]; omega
      rw [e2, List.drop_length_add_append]
      rfl
    · rw [if_neg h8]
      refine ih _ ?_ s _ _ _ hc
      simp only [List.length_append, List.length_cons, List.length_nil] at h8 ⊢
      omega

theorem CFBSink_writes_eq_in (o : ByteOrder) (m : Machine) (wr : τ → List Byte → Io W τ) {key : Key} {f}
    (h : Computes key f) (hl : key.isLazy = true) (ds : List (List Byte)) (s : τ) (ivl ivr : W64)
    (c : List W64) (hc : c = cfbEnc (fun x => encF f (seen o x)) [seen o ivl, seen o ivr] (blocks64 ds.flatten)) :
    writeAll (CFBSink.writeIn o m wr) (CFBSink.new s key ivl ivr) ds =
      writeAll wr s (c.map bytesOf64) >>= fun s =>
        pure ⟨s, key, seen o (([seen o ivl, seen o ivr] ++ c).getD c.length 0), seen o (([seen o ivl, seen o ivr] ++ c).getD (c.length + 1) 0),
          ds.flatten.drop (8 * (ds.flatten.length / 8))⟩ := by
  rw [CFBSink_writes_in]
  exact CFBSink_loop_eq_in o m wr h hl ds.flatten [] (by simp) s ivl ivr c hc

theorem gost89_CFBSink_loop_eq_in (o : ByteOrder) (m : Machine) (wr : τ → List Byte → Io W τ) {key : Key} {f}
    (h : Computes key f) (hl : key.isLazy = true) (d p : List Byte) (hp : p.length < 8) (s : τ)
    (r : W64) (c : List W64) (hc : c = cfbEnc (fun x => encF f (seen o x)) [seen o r] (blocks64 (p ++ d))) :
    Gost89.CFBSink.loopIn o m wr key d s p r =
      writeAll wr s (c.map bytesOf64) >>= fun s =>
        pure ⟨s, key, seen o (([seen o r] ++ c).getD c.length 0),
          (p ++ d).drop (8 * ((p ++ d).length / 8))⟩ := by
  induction d generalizing p s r c with
  | nil =>
    rw [List.append_nil, blocks64_short hp] at hc
    rw [List.append_nil]
    have : p.length / 8 = 0 := by omega
    rw [this, hc]
    simp [cfbEnc, seen_seen, writeAll_nil, Gost89.CFBSink.loopIn]
  | cons b d ih =>
    have e : p ++ b :: d = (p ++ [b]) ++ d := by simp
    rw [e] at hc ⊢
    unfold Gost89.CFBSink.loopIn
    simp only
    by_cases h8 : (p ++ [b]).length = 8
    · obtain ⟨v, hv, hx⟩ := BlkEncrypted_ofU64 h m r
      rw [if_pos h8, asLazy_of hl, hv, Io.lift_ok_bind, xorWords_eq h8, Io.lift_ok_bind, hx]
      rw [blocks64_append h8] at hc
      simp only [cfbEnc, List.nil_append, seen_seen] at hc
      rw [hc, List.map_cons, writeAll_cons, bind_assoc]
      congr 1; funext s
      rw [load64In_eq (by simp), Io.lift_ok_bind, blockIn_bytesOf64]
      rw [ih [] (by simp) s _ _ rfl, seen_seen]
      have e2 : 8 * (((p ++ [b]) ++ d).length / 8) = (p ++ [b]).length + 8 * (d.length / 8) := by
        rw [List.length_append, h8]; omega
      rw [e2, List.drop_length_add_append]
      rfl
    · rw [if_neg h8]
      refine ih _ ?_ s _ _ hc
      simp only [List.length_append, List.length_cons, List.length_nil] at h8 ⊢
      omega

theorem gost89_CFBSink_writes_eq_in (o : ByteOrder) (m : Machine) (wr : τ → List Byte → Io W τ) {key : Key} {f}
    (h : Computes key f) (hl : key.isLazy = true) (ds : List (List Byte)) (s : τ) (iv : W64)
    (c : List W64) (hc : c = cfbEnc (fun x => encF f (seen o x)) [seen o iv] (blocks64 ds.flatten)) :
    writeAll (Gost89.CFBSink.writeIn o m wr) (Gost89.CFBSink.new s key iv) ds =
      writeAll wr s (c.map bytesOf64) >>= fun s =>
        pure ⟨s, key, seen o (([seen o iv] ++ c).getD c.length 0),
          ds.flatten.drop (8 * (ds.flatten.length / 8))⟩ := by
  rw [gost89_CFBSink_writes_in]
  exact gost89_CFBSink_loop_eq_in o m wr h hl ds.flatten [] (by simp) s iv c hc

theorem ECBSink_loop_eq_in (o : ByteOrder) (wr : τ → List Byte → Io W τ) {key : Key} {f} (h : Computes key f)
    (d p : List Byte) (hp : p.length < 8) (s : τ) :
    ECBSink.loopIn o wr key d p s = writeAll wr s (ecbPiecesIn o f (p ++ d)) >>= fun s =>
      if (p ++ d).length % 8 = 0 then pure ⟨s, key⟩
      else Io.lift (.throw (.runtimeError "Unaligned ECB encryption")) := by
  induction d generalizing p s with
  | nil =>
    rw [List.append_nil, ecbPiecesIn_short o f hp, writeAll_nil]
    unfold ECBSink.loopIn
    by_cases e : p = []
    · subst e; rfl
    · have : ¬ p.length % 8 = 0 := by
        have : p.length ≠ 0 := by simpa using e
        omega
      simp [e, this]
  | cons b d ih =>
    unfold ECBSink.loopIn
    simp only
    have e : p ++ b :: d = (p ++ [b]) ++ d := by simp
    by_cases h8 : (p ++ [b]).length = 8
    · rw [if_pos h8, load64In_eq h8, Io.lift_ok_bind, EncryptionBase_eq h, Io.lift_ok_bind,
        overwrite8_eq h8, Io.lift_ok_bind, e, ecbPiecesIn_append o f h8, writeAll_cons, bind_assoc,
        bytes64In_eq]
      congr 1
      funext s
      rw [ih [] (by simp), List.nil_append, List.length_append, h8]
      have : (8 + d.length) % 8 = d.length % 8 := by omega
      rw [this]
    · rw [if_neg h8, e]
      refine ih _ ?_ s
      simp only [List.length_append, List.length_cons, List.length_nil] at h8 ⊢
      omega

theorem CFBSource_loop_eq_in (o : ByteOrder) (m : Machine) (rd : σ → Nat → Io W (List Byte × σ)) {key : Key} {f}
    (h : Computes key f) (hl : key.isLazy = true) (size : Nat) (R : σ → W → List Byte → Prop)
    (hR : ∀ s w d, R s w d → ∃ s' w', rd s 8 w = (.ok (d.take 8, s'), w') ∧ R s' w' (d.drop 8))
    (fuel : Nat) (s : σ) (w : W) (c p : List Byte) (rl rr : W64) (res : List Byte)
    (hs : R s w c) (hc : c.length % 8 = 0) (hres : res.length ≤ size) (hf : 1 ≤ fuel)
    (hf' : size - res.length + (if p = [] then 1 else 0) ≤ fuel) :
    ∃ t w' c', CFBSource.loopIn o m rd key size fuel s p rl rr res w =
        (.ok (res ++ (p ++ cfbPlainIn o f [seen o rl, seen o rr] c).take (size - res.length), t), w') ∧
      t.key = key ∧ R t.source w' c' ∧ c'.length % 8 = 0 ∧
      t.plain ++ cfbPlainIn o f [seen o t.ivl, seen o t.ivr] c' =
        (p ++ cfbPlainIn o f [seen o rl, seen o rr] c).drop (size - res.length) := by
  induction fuel generalizing s w c p rl rr res with
  | zero => omega
  | succ fuel ih =>
    unfold CFBSource.loopIn
    by_cases hlt : res.length < size
    · rw [if_pos hlt, drain_eq]
      simp only
      by_cases hp : size - res.length ≤ p.length
      · have hfull : (res ++ p.take (size - res.length)).length = size := by simp; omega
        rw [if_pos hfull]
        refine ⟨⟨s, key, rl, rr, p.drop (size - res.length)⟩, w, c, ?_, rfl, hs, hc, ?_⟩
        · rw [List.take_append_of_le_length hp]; rfl
        · rw [List.drop_append_of_le_length hp]
      · have hfull : ¬ (res ++ p.take (size - res.length)).length = size := by simp; omega
        rw [if_neg hfull]
        obtain ⟨v, hv, hx⟩ := BlkEncrypted_ofU64 h m rl
        obtain ⟨s1, w1, e1, r1⟩ := hR s w c hs
        rw [asLazy_of hl, hv, Io.lift_ok_bind, Io.bind_run_ok e1]
        simp only
        have hp' : p.take (size - res.length) = p := List.take_of_length_le (by omega)
        rw [hp']
        by_cases hce : c = []
        · subst hce
          simp only [List.take_nil, if_true]
          refine ⟨⟨s1, key, rl, rr, []⟩, w1, [], ?_, rfl, r1, rfl, ?_⟩
          · rw [cfbPlainIn_nil, List.append_nil, hp']; rfl
          · simp only [cfbPlainIn_nil, List.append_nil]
            rw [List.drop_of_length_le (by omega)]
        · have hc8 : 8 ≤ c.length := by
            have : c.length ≠ 0 := by simpa using hce
            omega
          have ht : (c.take 8).length = 8 := by simp; omega
          have hne : c.take 8 ≠ [] := by intro e; rw [e] at ht; simp at ht
          rw [if_neg hne, copyMaxIn_eq ht, Io.lift_ok_bind, chunk_eq ht, Io.lift_ok_bind, hx]
          have hsum : (res ++ p).length = res.length + p.length := List.length_append
          have hpl : p ≠ [] → 1 ≤ p.length := by
            intro hne; exact List.length_pos_iff.2 hne
          have hpe : (if p = [] then 1 else 0) + p.length ≥ 1 := by
            by_cases e : p = []
            · simp [e]
            · simp only [e, if_false]; have := hpl e; omega
          obtain ⟨t, w', c', g1, g2, g3, g4, g5⟩ := ih s1 w1 (c.drop 8)
            (bytesOf64 (block64 (c.take 8) ^^^ encF f rl)) rr (blockIn o (c.take 8)) (res ++ p) r1
            (by simp; omega) (by omega) (by omega)
            (by rw [if_neg (bytesOf64_ne _)]; omega)
          have hD : cfbPlainIn o f [seen o rl, seen o rr] c = bytesOf64 (block64 (c.take 8) ^^^ encF f rl) ++
              cfbPlainIn o f [seen o rr, seen o (blockIn o (c.take 8))] (c.drop 8) := by
            have := cfbPlainIn_append o f (seen o rl) [seen o rr] ht (c.drop 8)
            rw [List.take_append_drop] at this
            rw [seen_seen] at this
            rw [seen_blockIn _ ht]
            exact this
          rw [← hD] at g1 g5
          have hk : size - (res ++ p).length = size - res.length - p.length := by omega
          rw [hk] at g1 g5
          refine ⟨t, w', c', ?_, g2, g3, g4, ?_⟩
          · rw [g1, List.take_append, hp', List.append_assoc]
          · rw [g5, List.drop_append, List.drop_of_length_le (l := p) (by omega), List.nil_append]
    · rw [if_neg hlt]
      have : size - res.length = 0 := by omega
      rw [this]
      exact ⟨⟨s, key, rl, rr, p⟩, w, c, by simp; rfl, rfl, hs, hc, by simp⟩

theorem CFBSource_supplies_in (o : ByteOrder) (m : Machine) (rd : σ → Nat → Io W (List Byte × σ)) {key : Key} {f}
    (h : Computes key f) (hl : key.isLazy = true) (s : σ) (w : W) (c : List Byte)
    (hs : SuppliesBlocks rd s w c) (hc : c.length % 8 = 0) (ivl ivr : W64) :
    Supplies (CFBSource.readIn o m rd) (CFBSource.new s key ivl ivr) w (cfbPlainIn o f [seen o ivl, seen o ivr] c) := by
  obtain ⟨R, h0, hR⟩ := hs
  refine ⟨fun t w d => t.key = key ∧ ∃ c, R t.source w c ∧ c.length % 8 = 0 ∧
    d = t.plain ++ cfbPlainIn o f [seen o t.ivl, seen o t.ivr] c, ⟨rfl, c, h0, hc, rfl⟩, ?_⟩
  rintro t w d ⟨hk, c, hr, hc, rfl⟩ n
  obtain ⟨t', w', c', g1, g2, g3, g4, g5⟩ := CFBSource_loop_eq_in o m rd h hl n R hR (n + 1) t.source w c
    t.plain t.ivl t.ivr [] hr hc (Nat.zero_le _) (by omega)
    (by simp only [List.length_nil]; split <;> omega)
  refine ⟨t', w', ?_, g2, c', g3, g4, ?_⟩
  · rw [CFBSource.readIn, hk, g1]; rfl
  · rw [g5]; rfl

theorem gost89_CFBSource_loop_eq_in (o : ByteOrder) (m : Machine) (rd : σ → Nat → Io W (List Byte × σ)) {key : Key} {f}
    (h : Computes key f) (hl : key.isLazy = true) (size : Nat) (R : σ → W → List Byte → Prop)
    (hR : ∀ s w d, R s w d → ∃ s' w', rd s 8 w = (.ok (d.take 8, s'), w') ∧ R s' w' (d.drop 8))
    (fuel : Nat) (s : σ) (w : W) (c p : List Byte) (r : W64) (res : List Byte)
    (hs : R s w c) (hc : c.length % 8 = 0) (hres : res.length ≤ size) (hf : 1 ≤ fuel)
    (hf' : size - res.length + (if p = [] then 1 else 0) ≤ fuel) :
    ∃ t w' c', Gost89.CFBSource.loopIn o m rd key size fuel s p r res w =
        (.ok (res ++ (p ++ cfbPlainIn o f [seen o r] c).take (size - res.length), t), w') ∧
      t.key = key ∧ R t.source w' c' ∧ c'.length % 8 = 0 ∧
      t.plain ++ cfbPlainIn o f [seen o t.iv] c' =
        (p ++ cfbPlainIn o f [seen o r] c).drop (size - res.length) := by
  induction fuel generalizing s w c p r res with
  | zero => omega
  | succ fuel ih =>
    unfold Gost89.CFBSource.loopIn
    by_cases hlt : res.length < size
    · rw [if_pos hlt, drain_eq]
      simp only
      by_cases hp : size - res.length ≤ p.length
      · have hfull : (res ++ p.take (size - res.length)).length = size := by simp; omega
        rw [if_pos hfull]
        refine ⟨⟨s, key, r, p.drop (size - res.length)⟩, w, c, ?_, rfl, hs, hc, ?_⟩
        · rw [List.take_append_of_le_length hp]; rfl
        · rw [List.drop_append_of_le_length hp]
      · have hfull : ¬ (res ++ p.take (size - res.length)).length = size := by simp; omega
        rw [if_neg hfull]
        obtain ⟨v, hv, hx⟩ := BlkEncrypted_ofU64 h m r
        obtain ⟨s1, w1, e1, r1⟩ := hR s w c hs
        rw [asLazy_of hl, hv, Io.lift_ok_bind, Io.bind_run_ok e1]
        simp only
        have hp' : p.take (size - res.length) = p := List.take_of_length_le (by omega)
        rw [hp']
        by_cases hce : c = []
        · subst hce
          simp only [List.take_nil, if_true]
          refine ⟨⟨s1, key, r, []⟩, w1, [], ?_, rfl, r1, rfl, ?_⟩
          · rw [cfbPlainIn_nil, List.append_nil, hp']; rfl
          · simp only [cfbPlainIn_nil, List.append_nil]
            rw [List.drop_of_length_le (by omega)]
        · have hc8 : 8 ≤ c.length := by
            have : c.length ≠ 0 := by simpa using hce
            omega
          have ht : (c.take 8).length = 8 := by simp; omega
          have hne : c.take 8 ≠ [] := by intro e; rw [e] at ht; simp at ht
          rw [if_neg hne, copyMaxIn_eq ht, Io.lift_ok_bind, chunk_eq ht, Io.lift_ok_bind, hx]
          have hsum : (res ++ p).length = res.length + p.length := List.length_append
          have hpl : p ≠ [] → 1 ≤ p.length := by
            intro hne; exact List.length_pos_iff.2 hne
          have hpe : (if p = [] then 1 else 0) + p.length ≥ 1 := by
            by_cases e : p = []
            · simp [e]
            · simp only [e, if_false]; have := hpl e; omega
          obtain ⟨t, w', c', g1, g2, g3, g4, g5⟩ := ih s1 w1 (c.drop 8)
            (bytesOf64 (block64 (c.take 8) ^^^ encF f r)) (blockIn o (c.take 8)) (res ++ p) r1
            (by simp; omega) (by omega) (by omega)
            (by rw [if_neg (bytesOf64_ne _)]; omega)
          have hD : cfbPlainIn o f [seen o r] c = bytesOf64 (block64 (c.take 8) ^^^ encF f r) ++
              cfbPlainIn o f [seen o (blockIn o (c.take 8))] (c.drop 8) := by
            have := cfbPlainIn_append o f (seen o r) [] ht (c.drop 8)
            rw [List.take_append_drop] at this
            rw [seen_seen] at this
            rw [seen_blockIn _ ht]
            exact this
          rw [← hD] at g1 g5
          have hk : size - (res ++ p).length = size - res.length - p.length := by omega
          rw [hk] at g1 g5
          refine ⟨t, w', c', ?_, g2, g3, g4, ?_⟩
          · rw [g1, List.take_append, hp', List.append_assoc]
          · rw [g5, List.drop_append, List.drop_of_length_le (l := p) (by omega), List.nil_append]
    · rw [if_neg hlt]
      have : size - res.length = 0 := by omega
      rw [this]
      exact ⟨⟨s, key, r, p⟩, w, c, by simp; rfl, rfl, hs, hc, by simp⟩

theorem gost89_CFBSource_supplies_in (o : ByteOrder) (m : Machine) (rd : σ → Nat → Io W (List Byte × σ)) {key : Key} {f}
    (h : Computes key f) (hl : key.isLazy = true) (s : σ) (w : W) (c : List Byte)
    (hs : SuppliesBlocks rd s w c) (hc : c.length % 8 = 0) (iv : W64) :
    Supplies (Gost89.CFBSource.readIn o m rd) (Gost89.CFBSource.new s key iv) w (cfbPlainIn o f [seen o iv] c) := by
  obtain ⟨R, h0, hR⟩ := hs
  refine ⟨fun t w d => t.key = key ∧ ∃ c, R t.source w c ∧ c.length % 8 = 0 ∧
    d = t.plain ++ cfbPlainIn o f [seen o t.iv] c, ⟨rfl, c, h0, hc, rfl⟩, ?_⟩
  rintro t w d ⟨hk, c, hr, hc, rfl⟩ n
  obtain ⟨t', w', c', g1, g2, g3, g4, g5⟩ := gost89_CFBSource_loop_eq_in o m rd h hl n R hR (n + 1) t.source w c
    t.plain t.iv [] hr hc (Nat.zero_le _) (by omega)
    (by simp only [List.length_nil]; split <;> omega)
  refine ⟨t', w', ?_, g2, c', g3, g4, ?_⟩
  · rw [Gost89.CFBSource.readIn, hk, g1]; rfl
  · rw [g5]; rfl

theorem ECBSource_read_ecb_in (o : ByteOrder) (m : Machine) (rd : σ → Nat → Io W (List Byte × σ)) (s : σ)
    (key : Key) (n : Nat) (hn : 8 ≤ n) :
    ECBSource.readIn o m rd (.ecb s key) n = (rd s 8 >>= fun x =>
      if x.1 = [] then pure (x.1, .bare x.2)
      else do
        let b ← Io.lift (BlkRaw.ofBytesIn o x.1)
        let e ← Io.lift ((BlkDecrypted b key.asLazy).value m)
        let p ← Io.lift (overwrite8 x.1 (bytes32In o e.1 ++ bytes32In o e.2))
        return (p, .ecb x.2 key)) := by
  simp only [ECBSource.readIn]
  rw [if_neg (by omega)]

theorem ECBSource_block_in (o : ByteOrder) {key : Key} {f} (h : Computes key f)
    (hl : key.isLazy = true) (m : Machine)
    (rd : σ → Nat → Io W (List Byte × σ)) (s s' : σ) (n : Nat) (hn : 8 ≤ n) (w w' : W)
    (p : List Byte) (hr : rd s 8 w = (.ok (p, s'), w')) (hp : p.length = 8) :
    ECBSource.readIn o m rd (.ecb s key) n w =
      (.ok (wordBytesIn o (decF f (wordsIn o p)), .ecb s' key), w') := by
  have hne : p ≠ [] := by intro e; rw [e] at hp; simp at hp
  rw [ECBSource_read_ecb_in o m rd s key n hn, Io.bind_run_ok hr]
  simp only
  rw [if_neg hne, ofBytesIn_eq hp, Io.lift_ok_bind, asLazy_of hl, BlkDecrypted_value h m rfl,
    Io.lift_ok_bind, overwrite8_eq hp, Io.lift_ok_bind, bytes32In_pair, join32_decP, join32_surj]
  rfl

/-- The block that `Imit` loads from a piece of up to 8 bytes. -/
def padIn (o : ByteOrder) (b : List Byte) : W64 := blockIn o (b ++ List.replicate (8 - b.length) 0)

theorem padIn_bytesOf64 (o : ByteOrder) (x : W64) : padIn o (bytesOf64 x) = seen o x := by
  rw [padIn, bytesOf64_length, Nat.sub_self, List.replicate_zero, List.append_nil, blockIn_bytesOf64]

theorem loadPartialIn_eq {o : ByteOrder} {b : List Byte} (h0 : b ≠ []) (h8 : b.length ≤ 8) :
    Imit.loadPartialIn o b = .ok (padIn o b) := by
  rw [Imit.loadPartialIn, copyInto, if_neg h0, if_pos h8, Exec.ok_bind,
    load64In_eq (by simp; omega)]; rfl

theorem Imit_loop_eq_in (o : ByteOrder) {key : Key} {f} (h : Computes key f) (m : Machine)
    (rd : σ → Nat → Io W (List Byte × σ)) (R : σ → W → List Byte → Prop)
    (hR : ∀ s w d, R s w d → ∃ s' w', rd s 8 w = (.ok (d.take 8, s'), w') ∧ R s' w' (d.drop 8))
    (p : List W64) (tail : List Byte) (ht : tail ≠ []) (ht8 : tail.length ≤ 8) (fuel : Nat)
    (hf : p.length < fuel) (d : List Byte) (hd : d = unblocks64 p ++ tail) (s : σ) (w : W)
    (hs : R s w (d.drop 8)) (block : Blk) (c : W32 × W32) (hb : block.value m = .ok c) :
    ∃ block' v w', Imit.loopIn o rd (some key) fuel s (d.take 8) block w =
        (.ok (block', BlkImitFinalKey (some key) tail.length), w') ∧
      block'.value m = .ok v ∧
      join32 v = padIn o tail ^^^ chain (encF f) (join32 c) (p.map (seen o)) := by
  induction p generalizing fuel d s w block c with
  | nil =>
    obtain ⟨fuel, rfl⟩ : ∃ k, fuel = k + 1 := ⟨fuel - 1, by simp at hf; omega⟩
    simp only [unblocks64_nil, List.nil_append] at hd
    subst hd
    have htk : d.take 8 = d := List.take_of_length_le ht8
    have hdr : d.drop 8 = [] := List.drop_of_length_le ht8
    obtain ⟨u, hu, hux⟩ := ofU64_value m (padIn o d)
    have hval : (Blk.xored block (BlkRaw.ofU64 (padIn o d))).value m =
        .ok (c.1 ^^^ u.1, c.2 ^^^ u.2) := by simp [Blk.value, hb, hu]
    have hjoin : join32 (c.1 ^^^ u.1, c.2 ^^^ u.2) = padIn o d ^^^ chain (encF f) (join32 c) [] := by
      rw [join32_xor, hux, BitVec.xor_comm]; rfl
    unfold Imit.loopIn
    rw [htk, loadPartialIn_eq ht ht8, Io.lift_ok_bind]
    simp only
    by_cases h8 : d.length < 8
    · rw [if_pos h8]
      exact ⟨_, _, w, rfl, hval, hjoin⟩
    · rw [if_neg h8]
      obtain ⟨s1, w1, e1, -⟩ := hR s w _ hs
      rw [Io.bind_run_ok e1, hdr]
      exact ⟨_, _, w1, rfl, hval, hjoin⟩
  | cons x p ih =>
    obtain ⟨fuel, rfl⟩ : ∃ k, fuel = k + 1 := ⟨fuel - 1, by simp at hf; omega⟩
    rw [unblocks64_cons, List.append_assoc] at hd
    have htk : d.take 8 = bytesOf64 x := by rw [hd]; exact List.take_left' (by simp)
    have hdr : d.drop 8 = unblocks64 p ++ tail := by rw [hd]; exact List.drop_left' (by simp)
    obtain ⟨u, hu, hux⟩ := ofU64_value m (seen o x)
    have hval : (Blk.xored block (BlkRaw.ofU64 (seen o x))).value m =
        .ok (c.1 ^^^ u.1, c.2 ^^^ u.2) := by simp [Blk.value, hb, hu]
    have henc := BlkEncrypted_value h m hval
    obtain ⟨s1, w1, e1, r1⟩ := hR s w _ hs
    unfold Imit.loopIn
    rw [htk, loadPartialIn_eq (bytesOf64_ne x) (by simp), Io.lift_ok_bind, padIn_bytesOf64]
    simp only
    rw [if_neg (by simp), Io.bind_run_ok e1]
    simp only
    have hne : (d.drop 8).take 8 ≠ [] := by
      rw [hdr]
      intro e
      have := congrArg List.length e
      have htl : 0 < tail.length := List.length_pos_iff.2 ht
      simp only [List.length_take, List.length_append, List.length_nil] at this
      omega
    rw [if_neg hne]
    obtain ⟨block', v, w', g1, g2, g3⟩ := ih fuel (by simp at hf; omega) (d.drop 8) hdr s1 w1 r1 _ _
      henc
    refine ⟨block', v, w', g1, g2, ?_⟩
    · rw [List.map_cons, g3, join32_encP, join32_xor, hux, chain_cons, BitVec.xor_comm (join32 c)]

theorem Imit_value_x86_in (o : ByteOrder) {key : Key} {f} (h : Computes key f)
    (rd : σ → Nat → Io W (List Byte × σ)) (s : σ) (w : W) (p : List W64) (tail : List Byte)
    (ht : tail ≠ []) (ht8 : tail.length ≤ 8)
    (hs : SuppliesBlocks rd s w (unblocks64 p ++ tail)) (fuel : Nat) (hf : p.length < fuel) :
    ∃ v w', Imit.valueIn o .x86 rd fuel s (some key) w = (.ok v, w') ∧
      join32 v = omac (encF f) (if tail.length = 8 then macK1 (encF f) 0x1b
        else macK2 (encF f) 0x1b) (p.map (seen o)) (padIn o tail) := by
  obtain ⟨R, h0, hR⟩ := hs
  obtain ⟨s1, w1, e1, r1⟩ := hR s w _ h0
  obtain ⟨block, v, w', g1, g2, g3⟩ := Imit_loop_eq_in o h .x86 rd R hR p tail ht ht8 fuel hf _ rfl s1
    w1 r1 BlkRaw.zero (0, 0) rfl
  obtain ⟨k, hk, hkx⟩ := BlkImitFinalKey_x86 h tail.length
  have hx : (Blk.xored block (BlkImitFinalKey (some key) tail.length)).value .x86 =
      .ok (v.1 ^^^ k.1, v.2 ^^^ k.2) := by simp [Blk.value, g2, hk]
  refine ⟨encP f (v.1 ^^^ k.1, v.2 ^^^ k.2), w', ?_, ?_⟩
  · unfold Imit.valueIn
    rw [Io.bind_run_ok e1]
    simp only
    rw [Io.bind_run_ok g1]
    simp only
    rw [BlkEncrypted_value h .x86 hx]
    rfl
  · rw [join32_encP, join32_xor, g3, hkx]; rfl

theorem wordsIn_xor (o : ByteOrder) {a b : List Byte} (ha : a.length = 8) (hb : b.length = 8) :
    wordsIn o (List.zipWith (· ^^^ ·) a b) = wordsIn o a ^^^ wordsIn o b := by
  cases o
  · exact xorBytes_eq ha hb
  · obtain ⟨a0, a1, a2, a3, a4, a5, a6, a7, rfl⟩ := exists_of_length_eight ha
    obtain ⟨b0, b1, b2, b3, b4, b5, b6, b7, rfl⟩ := exists_of_length_eight hb
    exact xorBytes_eq (a := [a3, a2, a1, a0, a7, a6, a5, a4]) (b := [b3, b2, b1, b0, b7, b6, b5, b4]) rfl rfl

theorem wordBytesIn_wordsIn (o : ByteOrder) {l : List Byte} (h : l.length = 8) :
    wordBytesIn o (wordsIn o l) = l := by
  cases o
  · exact bytesOf64_block64 h
  · show swapWords (bytesOf64 (block64 (swapWords l))) = l
    rw [bytesOf64_block64 (by simpa using h), swapWords_swapWords h]

theorem DataImit_loop_eq_in (o : ByteOrder) {key : Key} {f} (h : Computes key f) (m : Machine)
    (p : List (List Byte)) (hp : ∀ x ∈ p, x.length = 8)
    (state : List Byte) (hst : state.length = 8) :
    Gost89.DataImit.loopIn o m (some key) p.flatten state =
      .ok (wordBytesIn o (chain (macStep f) (wordsIn o state) (p.map (wordsIn o)))) := by
  induction p generalizing state with
  | nil =>
    simp only [List.flatten_nil, List.map_nil, chain_nil, Gost89.DataImit.loopIn]
    rw [wordBytesIn_wordsIn o hst]
  | cons x p ih =>
    have h8 := hp x (by simp)
    have hz : (List.zipWith (· ^^^ ·) state x).length = 8 := by
      simp [hst, h8]
    have hv : ∀ y : W64, (Blk.raw (y.extractLsb' 0 32) (y.extractLsb' 32 32)).value m =
      .ok (y.extractLsb' 0 32, y.extractLsb' 32 32) := fun _ => rfl
    obtain ⟨r, hr, hrj⟩ := ImitedBlock_eq h m
      (hv (wordsIn o (List.zipWith (· ^^^ ·) state x)))
    obtain ⟨b0, b1, b2, b3, b4, b5, b6, b7, hx⟩ := exists_of_length_eight h8
    rw [List.flatten_cons]
    conv => lhs; rw [hx]
    simp only [List.cons_append, List.nil_append]
    unfold Gost89.DataImit.loopIn
    simp only
    rw [← hx, ofBytesIn_eq hz, Exec.ok_bind, hr, Exec.ok_bind]
    have : (BlkRaw.ofPair r).value m = .ok r := rfl
    rw [this, Exec.ok_bind, overwrite8_eq hz, Exec.ok_bind, bytes32In_pair,
      ih (fun y hy => hp y (by simp [hy])) _ (by simp), hrj,
      join32_surj, wordsIn_wordBytesIn, wordsIn_xor o hst h8, List.map_cons, chain_cons,
      BitVec.xor_comm]

theorem chunks8_whole {l : List Byte} (h : l.length % 8 = 0) : (chunks8 l).flatten = l := by
  induction l using bytes_induction with
  | short p hp =>
    obtain rfl : p = [] := List.length_eq_zero_iff.1 (by omega)
    rfl
  | step p l hp ih =>
    rw [List.length_append] at h
    rw [chunks8_append hp, List.flatten_cons, ih (by omega)]

theorem chunks8_mem {l x : List Byte} (h : x ∈ chunks8 l) : x.length = 8 := by
  induction l using bytes_induction with
  | short p hp => rw [chunks8_short hp] at h; simp at h
  | step p l hp ih =>
    rw [chunks8_append hp] at h
    rcases List.mem_cons.1 h with rfl | h
    · exact hp
    · exact ih h

theorem wordsIn_zero (o : ByteOrder) : wordsIn o (List.replicate 8 0) = 0 := by
  cases o <;> decide

theorem DataImit_value_eq_in (o : ByteOrder) {key : Key} {f} (h : Computes key f) (m : Machine)
    (d : List Byte) : Gost89.DataImit.valueIn o m d (some key) =
      .ok (wordBytesIn o (chain (macStep f) 0 ((chunks8 (zeroPadded d)).map (wordsIn o)))) := by
  have e := DataImit_loop_eq_in o h m (chunks8 (zeroPadded d)) (fun _ h => chunks8_mem h)
    (List.replicate 8 0) rfl
  rw [chunks8_whole (by rw [← DataImit_pad_eq]; exact DataImit_pad_length d), wordsIn_zero] at e
  rw [Gost89.DataImit.valueIn, DataImit_pad_eq, e]

end Goost
