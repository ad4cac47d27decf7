import Verif.Lemmas.LiveAsk
import Verif.Lemmas.Imit
import Verif.Spec.Failures
/-
Helper lemmas: the questions that a key is asked by the streams of gost89, by reads and by authentication codes.
-/
namespace Goost
open Goost.Magma Spec Spec.Magma Spec.Modes
variable {Ω V σ τ α β : Type}
variable {ask : Ω → Fin 8 → Option Ω} {e : Exn} {f : Fin 8 → W32 → W32} {k : Live.Key (Ω × V)}

theorem GostSink_loop_asks (m : Machine) (wr : τ → List Byte → Io V τ) (h : KeyAsks ask e f k)
    (hl : k.isLazy = true) (d p : List Byte) (hp : p.length < 8) (s : τ)
    (r : W64) (c : List W64) (hc : c = cfbEnc (encF f) [r] (blocks64 (p ++ d))) :
    Live.Gost89.CFBSink.loop m (fun s d => aside (wr s d)) k d s p r =
      askedWrites ask e wr s (c.map bytesOf64) >>= fun s =>
        pure ⟨s, k, ([r] ++ c).getD c.length 0, (p ++ d).drop (8 * ((p ++ d).length / 8))⟩ := by
  induction d generalizing p s r c with
  | nil =>
    rw [List.append_nil, blocks64_short hp] at hc
    rw [List.append_nil]
    have : p.length / 8 = 0 := by omega
    rw [this, hc]
    rfl
  | cons b d ih =>
    have e : p ++ b :: d = (p ++ [b]) ++ d := by simp
    rw [e] at hc ⊢
    unfold Live.Gost89.CFBSink.loop
    simp only
    by_cases h8 : (p ++ [b]).length = 8
    · obtain ⟨v, hq, hv'⟩ := BlkEncrypted_ofU64_asks (V := V) h hl m r
      obtain ⟨v', hv, hx⟩ := BlkEncrypted_ofU64 (plainKey_computes f) m r
      obtain rfl : v' = v := by rw [hv'] at hv; cases hv; rfl
      rw [if_pos h8, hq, bind_assoc]
      rw [blocks64_append h8] at hc
      simp only [cfbEnc, List.nil_append] at hc
      rw [hc, List.map_cons]
      conv => rhs; unfold askedWrites
      rw [bind_assoc]
      congr 1; funext _
      rw [pure_bind, xorWords_eq h8, Io.lift_ok_bind, hx, bind_assoc]
      congr 1; funext s
      rw [load64_eq (by simp), Io.lift_ok_bind, block64_bytesOf64]
      rw [ih [] (by simp) s _ _ rfl]
      have e2 : 8 * (((p ++ [b]) ++ d).length / 8) = (p ++ [b]).length + 8 * (d.length / 8) := by
        rw [List.length_append, h8]; omega
      rw [e2, List.drop_length_add_append]
      rfl
    · rw [if_neg h8]
      refine ih _ ?_ s _ _ hc
      simp only [List.length_append, List.length_cons, List.length_nil] at h8 ⊢
      omega

/-! ### Reads with a token -/

theorem question_token (n : Nat) (w : V) :
    (question askToken e schedule : Io (Nat × V) Unit) (n, w) =
      if 32 ≤ n then (.ok (), (n - 32, w)) else (.throw e, (0, w)) := by
  have hl : schedule.length = 32 := rfl
  simp only [question, askAll_token, hl]
  split <;> rfl

theorem drain_all {size : Nat} {p res : List Byte} (h : res.length + p.length < size) :
    drain size p res = ([], res ++ p) := by
  rw [drain_eq, List.take_of_length_le (by omega), List.drop_of_length_le (by omega)]

theorem Live_ofBytes_eq {W : Type} {p : List Byte} (hp : p.length = 8) :
    Live.BlkRaw.ofBytes (W := W) p =
      .ok (.raw ((block64 p).extractLsb' 0 32) ((block64 p).extractLsb' 32 32)) := by
  have := ofBytes_eq hp
  obtain ⟨b0, b1, b2, b3, b4, b5, b6, b7, rfl⟩ := exists_of_length_eight hp
  injection this with this
  injection this with h1 h2
  rw [← h1, ← h2]
  rfl

theorem CFBSource_loop_token (m : Machine) (rd : σ → Nat → Io V (List Byte × σ)) {kt : Live.Key (Nat × V)}
    (h : KeyAsks askToken e f kt) (hl : kt.isLazy = true) (size : Nat) (c : List W64) (fuel : Nat) (s s1 : σ)
    (w w1 : V) (p : List Byte) (rl rr : W64) (res : List Byte) (n : Nat) (hn : n / 32 = c.length)
    (hr : ReadsBlocks rd s w c s1 w1) (hf : c.length < fuel)
    (hneed : res.length + p.length + 8 * c.length < size) :
    Live.CFBSource.loop m (fun s n => aside (rd s n)) kt size fuel s p rl rr res (n, w) =
      (.throw e, (0, w1)) := by
  induction c generalizing fuel s w p rl rr res n with
  | nil =>
    obtain ⟨fuel, rfl⟩ : ∃ k, fuel = k + 1 := ⟨fuel - 1, by simp at hf; omega⟩
    obtain ⟨rfl, rfl⟩ := hr
    simp only [List.length_nil] at hn hneed
    obtain ⟨v, hv, -⟩ := BlkEncrypted_ofU64_asks (V := V) h hl m rl
    have hq := question_token (e := e) n w1
    rw [if_neg (by omega)] at hq
    unfold Live.CFBSource.loop
    rw [if_pos (by omega), drain_all (by omega)]
    simp only
    rw [if_neg (by simp only [List.length_append]; omega), hv, bind_assoc, bind_run_throw hq]
  | cons x c ih =>
    obtain ⟨fuel, rfl⟩ : ∃ k, fuel = k + 1 := ⟨fuel - 1, by simp at hf; omega⟩
    obtain ⟨s0, w0, e0, hr⟩ := hr
    simp only [List.length_cons] at hn hneed hf
    obtain ⟨v, hv, hv'⟩ := BlkEncrypted_ofU64_asks (V := V) h hl m rl
    have hq := question_token (e := e) n w
    rw [if_pos (by omega)] at hq
    have ha : (aside (rd s 8) : Io (Nat × V) _) (n - 32, w) = (.ok (bytesOf64 x, s0), (n - 32, w0)) := by
      simp [aside, e0]
    have h8 : (bytesOf64 x).length = 8 := by simp
    unfold Live.CFBSource.loop
    rw [if_pos (by omega), drain_all (by omega)]
    simp only
    rw [if_neg (by simp only [List.length_append]; omega), hv, bind_assoc, Io.bind_run_ok hq, pure_bind,
      Io.bind_run_ok ha]
    simp only
    rw [if_neg (bytesOf64_ne x), copyMax_eq h8, Io.lift_ok_bind, chunk_eq h8, Io.lift_ok_bind]
    exact ih fuel s0 w0 _ _ _ _ (n - 32) (by omega) hr (by omega) (by simp; omega)

theorem GostSource_loop_token (m : Machine) (rd : σ → Nat → Io V (List Byte × σ)) {kt : Live.Key (Nat × V)}
    (h : KeyAsks askToken e f kt) (hl : kt.isLazy = true) (size : Nat) (c : List W64) (fuel : Nat) (s s1 : σ)
    (w w1 : V) (p : List Byte) (r : W64) (res : List Byte) (n : Nat) (hn : n / 32 = c.length)
    (hr : ReadsBlocks rd s w c s1 w1) (hf : c.length < fuel)
    (hneed : res.length + p.length + 8 * c.length < size) :
    Live.Gost89.CFBSource.loop m (fun s n => aside (rd s n)) kt size fuel s p r res (n, w) =
      (.throw e, (0, w1)) := by
  induction c generalizing fuel s w p r res n with
  | nil =>
    obtain ⟨fuel, rfl⟩ : ∃ k, fuel = k + 1 := ⟨fuel - 1, by simp at hf; omega⟩
    obtain ⟨rfl, rfl⟩ := hr
    simp only [List.length_nil] at hn hneed
    obtain ⟨v, hv, -⟩ := BlkEncrypted_ofU64_asks (V := V) h hl m r
    have hq := question_token (e := e) n w1
    rw [if_neg (by omega)] at hq
    unfold Live.Gost89.CFBSource.loop
    rw [if_pos (by omega), drain_all (by omega)]
    simp only
    rw [if_neg (by simp only [List.length_append]; omega), hv, bind_assoc, bind_run_throw hq]
  | cons x c ih =>
    obtain ⟨fuel, rfl⟩ : ∃ k, fuel = k + 1 := ⟨fuel - 1, by simp at hf; omega⟩
    obtain ⟨s0, w0, e0, hr⟩ := hr
    simp only [List.length_cons] at hn hneed hf
    obtain ⟨v, hv, hv'⟩ := BlkEncrypted_ofU64_asks (V := V) h hl m r
    have hq := question_token (e := e) n w
    rw [if_pos (by omega)] at hq
    have ha : (aside (rd s 8) : Io (Nat × V) _) (n - 32, w) = (.ok (bytesOf64 x, s0), (n - 32, w0)) := by
      simp [aside, e0]
    have h8 : (bytesOf64 x).length = 8 := by simp
    unfold Live.Gost89.CFBSource.loop
    rw [if_pos (by omega), drain_all (by omega)]
    simp only
    rw [if_neg (by simp only [List.length_append]; omega), hv, bind_assoc, Io.bind_run_ok hq, pure_bind,
      Io.bind_run_ok ha]
    simp only
    rw [if_neg (bytesOf64_ne x), copyMax_eq h8, Io.lift_ok_bind, chunk_eq h8, Io.lift_ok_bind]
    exact ih fuel s0 w0 _ _ _ (n - 32) (by omega) hr (by omega) (by simp; omega)

/-! ### Authentication codes -/

theorem encrypted_asks (h : KeyAsks ask e f k) (m : Machine) {b : Live.Blk (Ω × V)} {is : List (Fin 8)}
    {v : W32 × W32} (hb : Asks ask e is (b.value m) v) :
    Asks ask e (is ++ schedule) ((Live.BlkEncrypted b (some k)).value m) (encP f v) := by
  have h1 := Asks.bind (f := Live.forwardRounds (some k)) hb (forwardRounds_asks h _)
  have h2 := Asks.bind (f := Live.forwardRounds (some k)) h1 (forwardRounds_asks h _)
  have h3 := Asks.bind (f := Live.forwardRounds (some k)) h2 (forwardRounds_asks h _)
  have h4 := Asks.bind (f := Live.backwardRounds (some k)) h3 (backwardRounds_asks h _)
  have h5 := Asks.bind (f := fun v => Pure.pure (v.2, v.1)) h4 (Asks.pure _)
  simp only [List.append_assoc, List.append_nil] at h5
  exact h5

theorem xored_asks (m : Machine) {a b : Live.Blk (Ω × V)} {is js : List (Fin 8)} {v u : W32 × W32}
    (ha : Asks ask e is (a.value m) v) (hb : Asks ask e js (b.value m) u) :
    Asks ask e (is ++ js) ((Live.Blk.xored a b).value m) (v.1 ^^^ u.1, v.2 ^^^ u.2) := by
  have h1 := Asks.bind (f := fun vb => (Pure.pure (v.1 ^^^ vb.1, v.2 ^^^ vb.2) : Io (Ω × V) (W32 × W32))) hb
    (Asks.pure _)
  have h2 := Asks.bind (f := fun va => b.value m >>= fun vb =>
    (Pure.pure (va.1 ^^^ vb.1, va.2 ^^^ vb.2) : Io (Ω × V) (W32 × W32))) ha h1
  rw [List.append_nil] at h2
  exact h2

theorem lift_asks (a : α) : Asks (V := V) ask e [] (Io.lift (.ok a)) a := fun _ _ => rfl

theorem imitShifted_asks {b : Live.Blk (Ω × V)} {is : List (Fin 8)} {v : W32 × W32}
    (hb : Asks ask e is (b.value .x86) v) :
    ∃ r, Asks ask e (is ++ is) ((Live.Blk.imitShifted b).value .x86) r ∧ join32 r = double 0x1b (join32 v) := by
  obtain ⟨r, hr, hj⟩ := imitShifted_x86 (b := Blk.raw v.1 v.2) (v := v) rfl
  refine ⟨r, ?_, hj⟩
  simp only [Blk.value, Exec.pure_eq, Exec.ok_bind] at hr
  unfold Live.Blk.value
  refine Asks.bind hb ?_
  by_cases h : v.2 &&& 0x80000000 = 0
  · rw [if_pos h] at hr ⊢
    have := Asks.bind (f := fun v' => (Io.lift (shiftValue .x86 v' 1) : Io (Ω × V) _)) hb
      (by rw [hr]; exact lift_asks r)
    rwa [List.append_nil] at this
  · rw [if_neg h] at hr ⊢
    obtain ⟨s, hs, -⟩ := shiftValue_x86 v 1 (by omega) (by omega)
    have hs' : Magma.shiftValue .x86 v 1 = .ok s := hs
    rw [hs', Exec.ok_bind] at hr
    cases hr
    have h1 := Asks.bind (f := fun s : W32 × W32 => (Pure.pure (s.1 ^^^ 0x1b, s.2 ^^^ 0) : Io (Ω × V) _))
      (lift_asks (ask := ask) (e := e) (V := V) s) (Asks.pure _)
    have := Asks.bind (f := fun v' => (Io.lift (shiftValue .x86 v' 1) : Io (Ω × V) _) >>= fun s =>
      (Pure.pure (s.1 ^^^ 0x1b, s.2 ^^^ 0) : Io (Ω × V) _)) hb (by rw [hs']; exact h1)
    rwa [List.append_nil, List.append_nil] at this

theorem ofU64_asks (m : Machine) (x : W64) : ∃ v, Asks (V := V) ask e [] ((Live.BlkRaw.ofU64 x).value m) v ∧
    join32 v = x := by
  obtain ⟨v, hv, hj⟩ := ofU64_value m x
  refine ⟨v, ?_, hj⟩
  have : v = (x.setWidth 32, (x >>> 32).setWidth 32) := by
    simp only [BlkRaw.ofU64, Blk.value] at hv
    cases hv; rfl
  rw [this]
  exact Asks.pure _

/-- The 32 questions of an encryption, `n` times. -/
def schedules (n : Nat) : List (Fin 8) := (List.replicate n schedule).flatten

theorem schedules_add (a b : Nat) : schedules a ++ schedules b = schedules (a + b) := by
  rw [schedules, schedules, schedules, ← List.flatten_append, List.replicate_append_replicate]

theorem schedules_one : schedules 1 = schedule := by simp [schedules]

theorem schedules_length (n : Nat) : (schedules n).length = 32 * n := by
  have : schedule.length = 32 := rfl
  simp [schedules, this, Nat.mul_comm]

theorem finalKey_asks (h : KeyAsks ask e f k) (n : Nat) :
    ∃ r, Asks ask e (schedules (if n = 8 then 2 else 4)) ((Live.BlkImitFinalKey (some k) n).value .x86) r ∧
      join32 r = if n = 8 then macK1 (encF f) 0x1b else macK2 (encF f) 0x1b := by
  obtain ⟨z, hz, hzj⟩ := ofU64_asks (V := V) (ask := ask) (e := e) .x86 0
  have h1 := encrypted_asks h .x86 hz
  rw [List.nil_append, ← schedules_one] at h1
  obtain ⟨r1, h2, j2⟩ := imitShifted_asks h1
  rw [schedules_add] at h2
  obtain ⟨r2, h3, j3⟩ := imitShifted_asks h2
  rw [schedules_add] at h3
  unfold Live.BlkImitFinalKey
  simp only
  by_cases h8 : n = 8
  · rw [if_pos h8, if_pos h8, if_pos h8]
    refine ⟨r1, h2, ?_⟩
    rw [j2, join32_encP, hzj]; rfl
  · rw [if_neg h8, if_neg h8, if_neg h8]
    refine ⟨r2, h3, ?_⟩
    rw [j3, j2, join32_encP, hzj]; rfl

theorem Imit_loop_asks (h : KeyAsks ask e f k) (m : Machine) (rd : σ → Nat → Io V (List Byte × σ))
    (R : σ → V → List Byte → Prop)
    (hR : ∀ s w d, R s w d → ∃ s' w', rd s 8 w = (.ok (d.take 8, s'), w') ∧ R s' w' (d.drop 8))
    (p : List W64) (tail : List Byte) (ht : tail ≠ []) (ht8 : tail.length ≤ 8) (fuel : Nat)
    (hf : p.length < fuel) (d : List Byte) (hd : d = unblocks64 p ++ tail) (s : σ) (w : V)
    (hs : R s w (d.drop 8)) (block : Live.Blk (Ω × V)) (c : W32 × W32) (a : Nat)
    (hb : Asks ask e (schedules a) (block.value m) c) (q : Option Key) (bq : Blk) :
    ∃ block' v w' rq, (∀ ω, Live.Imit.loop (fun s n => aside (rd s n)) (some k) fuel s (d.take 8) block (ω, w) =
        (.ok (block', Live.BlkImitFinalKey (some k) tail.length), (ω, w'))) ∧
      Imit.loop rd q fuel s (d.take 8) bq w = (rq, w') ∧
      Asks ask e (schedules (a + p.length)) (block'.value m) v ∧
      join32 v = block64 tail ^^^ chain (encF f) (join32 c) p := by
  induction p generalizing fuel d s w block c a bq with
  | nil =>
    obtain ⟨fuel, rfl⟩ : ∃ k, fuel = k + 1 := ⟨fuel - 1, by simp at hf; omega⟩
    simp only [unblocks64_nil, List.nil_append] at hd
    subst hd
    have htk : d.take 8 = d := List.take_of_length_le ht8
    have hdr : d.drop 8 = [] := List.drop_of_length_le ht8
    obtain ⟨u, hu, hux⟩ := ofU64_asks (V := V) (ask := ask) (e := e) m (block64 d)
    have hval := xored_asks m hb hu
    rw [List.append_nil] at hval
    have hjoin : join32 (c.1 ^^^ u.1, c.2 ^^^ u.2) = block64 d ^^^ chain (encF f) (join32 c) [] := by
      rw [join32_xor, hux, BitVec.xor_comm]; rfl
    unfold Live.Imit.loop Imit.loop
    rw [htk, loadPartial_eq ht ht8, Io.lift_ok_bind, Io.lift_ok_bind]
    simp only
    by_cases h8 : d.length < 8
    · rw [if_pos h8, if_pos h8]
      exact ⟨_, _, w, _, fun _ => rfl, rfl, hval, hjoin⟩
    · rw [if_neg h8, if_neg h8]
      obtain ⟨s1, w1, e1, -⟩ := hR s w _ hs
      rw [Io.bind_run_ok e1, hdr]
      refine ⟨_, _, w1, _, fun ω => ?_, rfl, hval, hjoin⟩
      have ha : (aside (rd s 8) : Io (Ω × V) _) (ω, w) = (.ok ([], s1), (ω, w1)) := by
        simp [aside, e1, hdr]
      rw [Io.bind_run_ok ha]
      rfl
  | cons x p ih =>
    obtain ⟨fuel, rfl⟩ : ∃ k, fuel = k + 1 := ⟨fuel - 1, by simp at hf; omega⟩
    rw [unblocks64_cons, List.append_assoc] at hd
    have htk : d.take 8 = bytesOf64 x := by rw [hd]; exact List.take_left' (by simp)
    have hdr : d.drop 8 = unblocks64 p ++ tail := by rw [hd]; exact List.drop_left' (by simp)
    obtain ⟨u, hu, hux⟩ := ofU64_asks (V := V) (ask := ask) (e := e) m x
    have hval := xored_asks m hb hu
    rw [List.append_nil] at hval
    have henc := encrypted_asks h m hval
    rw [← schedules_one, schedules_add] at henc
    obtain ⟨s1, w1, e1, r1⟩ := hR s w _ hs
    have hne : (d.drop 8).take 8 ≠ [] := by
      rw [hdr]
      intro e
      have := congrArg List.length e
      have htl : 0 < tail.length := List.length_pos_iff.2 ht
      simp only [List.length_take, List.length_append, List.length_nil] at this
      omega
    obtain ⟨block', v, w', rq, g1, g2, g3, g4⟩ := ih fuel (by simp at hf; omega) (d.drop 8) hdr s1 w1 r1 _ _ _
      henc (BlkEncrypted (Blk.xored bq (BlkRaw.ofU64 x)) q)
    unfold Live.Imit.loop Imit.loop
    rw [htk, loadPartial_eq (bytesOf64_ne x) (by simp), Io.lift_ok_bind, Io.lift_ok_bind, block64_bytesOf64]
    simp only
    rw [if_neg (by simp), if_neg (by simp), Io.bind_run_ok e1]
    simp only
    rw [if_neg hne]
    refine ⟨block', v, w', rq, fun ω => ?_, g2, ?_, ?_⟩
    · have ha : (aside (rd s 8) : Io (Ω × V) _) (ω, w) = (.ok ((d.drop 8).take 8, s1), (ω, w1)) := by
        simp [aside, e1]
      rw [Io.bind_run_ok ha]
      simp only
      rw [if_neg hne]
      exact g1 ω
    · have : a + 1 + p.length = a + (x :: p).length := by simp only [List.length_cons]; omega
      rw [← this]
      exact g3
    · rw [g4, join32_encP, join32_xor, hux, chain_cons, BitVec.xor_comm (join32 c)]

/-- The authentication code: the source is read to its end, then the key is asked. -/
theorem Imit_value_asks (h : KeyAsks ask e f k) (rd : σ → Nat → Io V (List Byte × σ)) (s : σ) (w : V)
    (p : List W64) (tail : List Byte) (ht : tail ≠ []) (ht8 : tail.length ≤ 8)
    (hs : SuppliesBlocks rd s w (unblocks64 p ++ tail)) (fuel : Nat) (hf : p.length < fuel) {q : Key}
    (hq : Computes q f) {v : W32 × W32} {w' : V} (hv : Imit.value .x86 rd fuel s (some q) w = (.ok v, w')) (ω : Ω) :
    Live.Imit.value .x86 (fun s n => aside (rd s n)) fuel s (some k) (ω, w) =
      (if (askAll ask (schedules (p.length + (if tail.length = 8 then 2 else 4) + 1)) ω).1 then .ok v else .throw e,
        ((askAll ask (schedules (p.length + (if tail.length = 8 then 2 else 4) + 1)) ω).2, w')) := by
  obtain ⟨v0, w0, e0, j0⟩ := Imit_value_x86 hq rd s w p tail ht ht8 hs fuel hf
  rw [hv] at e0
  simp only [Prod.mk.injEq, Exec.ok.injEq] at e0
  obtain ⟨rfl, rfl⟩ := e0
  obtain ⟨R, h0, hR⟩ := hs
  obtain ⟨s1, w1, e1, r1⟩ := hR s w _ h0
  obtain ⟨z, hz, hzj⟩ := ofU64_asks (V := V) (ask := ask) (e := e) .x86 0
  obtain ⟨block, u, w2, rq, g1, g2, g3, g4⟩ := Imit_loop_asks h .x86 rd R hR p tail ht ht8 fuel hf _ rfl s1 w1 r1
    (Live.BlkRaw.ofU64 0) z 0 hz (some q) BlkRaw.zero
  have hw : w2 = w' := by
    unfold Imit.value Imit.build at hv
    rw [bind_assoc, Io.bind_run_ok e1] at hv
    simp only at hv
    cases rq with
    | ok x =>
      rw [bind_assoc, Io.bind_run_ok g2] at hv
      exact congrArg Prod.snd hv
    | throw x => rw [bind_assoc, bind_run_throw g2] at hv; cases hv
    | ub x => rw [bind_assoc, bind_run_ub g2] at hv; cases hv
    | diverge =>
      rw [bind_assoc] at hv
      change Io.bind _ _ _ = _ at hv
      simp [Io.bind, g2] at hv
  subst hw
  obtain ⟨r, hr, hrj⟩ := finalKey_asks h tail.length
  have hx := encrypted_asks h .x86 (xored_asks .x86 g3 hr)
  rw [schedules_add, ← schedules_one, schedules_add, Nat.zero_add] at hx
  have hval : encP f (u.1 ^^^ r.1, u.2 ^^^ r.2) = v := by
    apply join32_inj
    rw [j0, join32_encP, join32_xor, g4, hrj, hzj]
    rfl
  rw [hval] at hx
  unfold Live.Imit.value
  have ha : (aside (rd s 8) : Io (Ω × V) _) (ω, w) = (.ok ((unblocks64 p ++ tail).take 8, s1), (ω, w1)) := by
    simp [aside, e1]
  rw [Io.bind_run_ok ha]
  simp only
  rw [Io.bind_run_ok (g1 ω)]
  exact hx ω w2

/-! ### gost89::DataImit -/

theorem ImitedBlock_asks (h : KeyAsks ask e f k) (m : Machine) {b : Live.Blk (Ω × V)} {is : List (Fin 8)}
    {v : W32 × W32} (hb : Asks ask e is (b.value m) v) :
    ∃ r, Asks ask e (is ++ schedule.take 16) (Live.Gost89.ImitedBlock.value m b (some k)) (.raw r.1 r.2) ∧
      join32 r = macStep f (join32 v) := by
  refine ⟨_, ?_, join32_macStep f v⟩
  have h1 := Asks.bind (f := Live.forwardRounds (some k)) (Asks.pure (V := V) (ask := ask) (e := e) v)
    (forwardRounds_asks h _)
  have h2 := Asks.bind (f := Live.forwardRounds (some k)) h1 (forwardRounds_asks h _)
  have h3 := Asks.bind (f := fun v : W32 × W32 => (Pure.pure (.raw v.1 v.2) : Io (Ω × V) (Live.Blk (Ω × V)))) h2
    (Asks.pure _)
  have h4 := Asks.bind (f := fun v => (Live.Blk.forwarded (.forwarded (.raw v.1 v.2) (some k)) (some k)).value m >>=
    fun v => (Pure.pure (.raw v.1 v.2) : Io (Ω × V) (Live.Blk (Ω × V)))) hb h3
  simp only [List.append_nil, List.nil_append] at h4
  exact h4

theorem DataImit_loop_asks (h : KeyAsks ask e f k) (m : Machine) (p : List W64) (state : List Byte)
    (hst : state.length = 8) :
    Asks ask e (List.replicate p.length (schedule.take 16)).flatten
      (Live.Gost89.DataImit.loop m (some k) (unblocks64 p) state)
      (bytesOf64 (chain (macStep f) (block64 state) p)) := by
  induction p generalizing state with
  | nil =>
    simp only [unblocks64_nil, chain_nil, Live.Gost89.DataImit.loop]
    rw [bytesOf64_block64 hst]
    exact Asks.pure _
  | cons x p ih =>
    obtain ⟨b0, b1, b2, b3, b4, b5, b6, b7, hx⟩ := exists_of_length_eight (bytesOf64_length x)
    have hz : (List.zipWith (· ^^^ ·) state (bytesOf64 x)).length = 8 := by
      simp [hst]
    rw [unblocks64_cons, hx]
    simp only [List.cons_append, List.nil_append]
    unfold Live.Gost89.DataImit.loop
    simp only
    rw [← hx, Live_ofBytes_eq hz, Io.lift_ok_bind, List.length_cons, List.replicate_succ, List.flatten_cons]
    have hv : ∀ y : W64, Asks (V := V) ask e []
        ((Live.Blk.raw (y.extractLsb' 0 32) (y.extractLsb' 32 32)).value m)
        (y.extractLsb' 0 32, y.extractLsb' 32 32) := fun _ => Asks.pure _
    obtain ⟨r, hr, hrj⟩ := ImitedBlock_asks h m
      (hv (block64 (List.zipWith (· ^^^ ·) state (bytesOf64 x))))
    rw [List.nil_append] at hr
    refine Asks.bind hr ?_
    have hp : (Live.Blk.raw (W := Ω × V) r.1 r.2).value m = Pure.pure r := rfl
    rw [hp, pure_bind, overwrite8_eq hz, Io.lift_ok_bind, bytes32_pair]
    have := ih (bytesOf64 (join32 r)) (by simp)
    rw [hrj, join32_surj, block64_bytesOf64, xorBytes_eq hst (by simp), block64_bytesOf64] at this
    rw [hrj, join32_surj, xorBytes_eq hst (by simp), block64_bytesOf64, chain_cons, BitVec.xor_comm x]
    exact this

end Goost
