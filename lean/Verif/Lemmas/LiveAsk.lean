import Verif.Lemmas.Live
import Verif.Lemmas.Sinks
import Verif.Lemmas.Reads
import Verif.Lemmas.KeyCache
/-
Helper lemmas: the questions that a key is asked, and keys that refuse to answer.
-/
namespace Goost
open Goost.Magma Spec Spec.Magma Spec.Modes
variable {Ω V σ τ α β : Type}

/-- The state after the questions `is`, and whether all of them have been answered. -/
def askAll (ask : Ω → Fin 8 → Option Ω) : List (Fin 8) → Ω → Bool × Ω
  | [], ω => (true, ω)
  | i :: is, ω =>
    match ask ω i with
    | some ω' => askAll ask is ω'
    | none => (false, ω)

theorem askAll_append (ask : Ω → Fin 8 → Option Ω) (is js : List (Fin 8)) (ω : Ω) :
    askAll ask (is ++ js) ω =
      if (askAll ask is ω).1 then askAll ask js (askAll ask is ω).2 else askAll ask is ω := by
  induction is generalizing ω with
  | nil => simp [askAll]
  | cons i is ih =>
    simp only [List.cons_append, askAll]
    have h : ask ω i = none ∨ ∃ ω', ask ω i = some ω' := by cases ask ω i <;> simp
    rcases h with h | ⟨ω', h⟩
    · simp [h]
    · simp only [h]
      exact ih ω'

/-- The call asks the questions `is` and returns `a`; if a question is not answered, it throws `e`. -/
def Asks (ask : Ω → Fin 8 → Option Ω) (e : Exn) (is : List (Fin 8)) (x : Io (Ω × V) α) (a : α) : Prop :=
  ∀ ω w, x (ω, w) = (if (askAll ask is ω).1 then .ok a else .throw e, ((askAll ask is ω).2, w))

variable {ask : Ω → Fin 8 → Option Ω} {e : Exn}

theorem Asks.pure (a : α) : Asks (V := V) ask e [] (Pure.pure a) a := fun _ _ => rfl

theorem Asks.bind {is js : List (Fin 8)} {x : Io (Ω × V) α} {a : α} {f : α → Io (Ω × V) β} {b : β}
    (h : Asks ask e is x a) (h' : Asks ask e js (f a) b) : Asks ask e (is ++ js) (x >>= f) b := by
  intro ω w
  have hx := h ω w
  rw [askAll_append]
  cases hb : (askAll ask is ω).1
  · rw [hb] at hx
    simp only [Bool.false_eq_true, if_false] at hx
    rw [bind_run_throw hx]
    simp [hb]
  · rw [hb] at hx
    simp only [if_true] at hx
    rw [Io.bind_run_ok hx, h']
    simp

/-- The key asks itself one question per call, and its answers are those of `f`. -/
def KeyAsks (ask : Ω → Fin 8 → Option Ω) (e : Exn) (f : Fin 8 → W32 → W32) (k : Live.Key (Ω × V)) : Prop :=
  ∀ v (i : Fin 8), Asks ask e [i] (k.transform v (i.val : Int)) (f i v)

variable {f : Fin 8 → W32 → W32} {k : Live.Key (Ω × V)}

theorem forwardRounds_asks (h : KeyAsks ask e f k) (v : W32 × W32) :
    Asks ask e [0, 1, 2, 3, 4, 5, 6, 7] (Live.forwardRounds (some k) v) (fwd f v) := by
  unfold Live.forwardRounds
  exact Asks.bind (is := [0]) (h _ 0) <| Asks.bind (is := [1]) (h _ 1) <| Asks.bind (is := [2]) (h _ 2) <|
    Asks.bind (is := [3]) (h _ 3) <| Asks.bind (is := [4]) (h _ 4) <| Asks.bind (is := [5]) (h _ 5) <|
    Asks.bind (is := [6]) (h _ 6) <| Asks.bind (is := [7]) (h _ 7) <| Asks.pure _

theorem backwardRounds_asks (h : KeyAsks ask e f k) (v : W32 × W32) :
    Asks ask e [7, 6, 5, 4, 3, 2, 1, 0] (Live.backwardRounds (some k) v) (bwd f v) := by
  unfold Live.backwardRounds
  exact Asks.bind (is := [7]) (h _ 7) <| Asks.bind (is := [6]) (h _ 6) <| Asks.bind (is := [5]) (h _ 5) <|
    Asks.bind (is := [4]) (h _ 4) <| Asks.bind (is := [3]) (h _ 3) <| Asks.bind (is := [2]) (h _ 2) <|
    Asks.bind (is := [1]) (h _ 1) <| Asks.bind (is := [0]) (h _ 0) <| Asks.pure _

theorem BlkEncrypted_asks (h : KeyAsks ask e f k) (m : Machine) (a b : W32) :
    Asks ask e schedule ((Live.BlkEncrypted (.raw a b) (some k)).value m) (encP f (a, b)) := by
  have h1 : Asks ask e ([] ++ [0, 1, 2, 3, 4, 5, 6, 7]) ((Live.Blk.forwarded (.raw a b) (some k)).value m)
      (fwd f (a, b)) := Asks.bind (Asks.pure _) (forwardRounds_asks h _)
  have h2 := Asks.bind (f := Live.forwardRounds (some k)) h1 (forwardRounds_asks h _)
  have h3 := Asks.bind (f := Live.forwardRounds (some k)) h2 (forwardRounds_asks h _)
  have h4 := Asks.bind (f := Live.backwardRounds (some k)) h3 (backwardRounds_asks h _)
  exact Asks.bind (f := fun v => Pure.pure (v.2, v.1)) h4 (Asks.pure _)

theorem BlkDecrypted_asks (h : KeyAsks ask e f k) (m : Machine) (a b : W32) :
    Asks ask e schedule.reverse ((Live.BlkDecrypted (.raw a b) (some k)).value m) (decP f (a, b)) := by
  have h1 : Asks ask e ([] ++ [0, 1, 2, 3, 4, 5, 6, 7]) ((Live.Blk.forwarded (.raw a b) (some k)).value m)
      (fwd f (a, b)) := Asks.bind (Asks.pure _) (forwardRounds_asks h _)
  have h2 := Asks.bind (f := Live.backwardRounds (some k)) h1 (backwardRounds_asks h _)
  have h3 := Asks.bind (f := Live.backwardRounds (some k)) h2 (backwardRounds_asks h _)
  have h4 := Asks.bind (f := Live.backwardRounds (some k)) h3 (backwardRounds_asks h _)
  exact Asks.bind (f := fun v => Pure.pure (v.2, v.1)) h4 (Asks.pure _)

/-- A key without state with the answers `f`. -/
def plainKey (f : Fin 8 → W32 → W32) : Key := ⟨true, fun v i => .ok (f (Fin.ofNat 8 i.toNat) v)⟩

theorem plainKey_computes (f : Fin 8 → W32 → W32) : Computes (plainKey f) f := by
  intro v i
  show Exec.ok (f (Fin.ofNat 8 (i.val : Int).toNat) v) = _
  rw [Int.toNat_natCast, Fin.ofNat_val_eq_self]

theorem EncryptionBase_asks (h : KeyAsks ask e f k) (x : W64) :
    Asks ask e schedule (Live.EncryptionBase.transform k x) (encF f x) := by
  have e2 : EncryptionBase.transform (plainKey f) x = .ok (encF f x) := EncryptionBase_eq (plainKey_computes f) x
  unfold EncryptionBase.transform at e2
  simp only [(plainKey_computes f).c0, (plainKey_computes f).c1, (plainKey_computes f).c2,
    (plainKey_computes f).c3, (plainKey_computes f).c4, (plainKey_computes f).c5, (plainKey_computes f).c6,
    (plainKey_computes f).c7, Exec.ok_bind, Exec.pure_eq, Exec.ok.injEq] at e2
  rw [← e2]
  unfold Live.EncryptionBase.transform
  have up : ∀ {β : Type} {js : List (Fin 8)} {g : W32 → Io (Ω × V) β} {b : β} (v : W32) (i : Fin 8),
      Asks ask e js (g (f i v)) b → Asks ask e (i :: js) (k.transform v (i.val : Int) >>= g) b :=
    fun v i h' => Asks.bind (h v i) h'
  show Asks ask e [0, 1, 2, 3, 4, 5, 6, 7, 0, 1, 2, 3, 4, 5, 6, 7, 0, 1, 2, 3, 4, 5, 6, 7,
    7, 6, 5, 4, 3, 2, 1, 0] _ _
  iterate 3
    refine up _ 0 ?_
    refine up _ 1 ?_
    refine up _ 2 ?_
    refine up _ 3 ?_
    refine up _ 4 ?_
    refine up _ 5 ?_
    refine up _ 6 ?_
    refine up _ 7 ?_
  refine up _ 7 ?_
  refine up _ 6 ?_
  refine up _ 5 ?_
  refine up _ 4 ?_
  refine up _ 3 ?_
  refine up _ 2 ?_
  refine up _ 1 ?_
  refine up _ 0 ?_
  exact Asks.pure _

/-- A call that only asks the questions `is`. -/
def question (ask : Ω → Fin 8 → Option Ω) (e : Exn) (is : List (Fin 8)) : Io (Ω × V) Unit :=
  fun w => (if (askAll ask is w.1).1 then .ok () else .throw e, ((askAll ask is w.1).2, w.2))

theorem Asks.eq {is : List (Fin 8)} {x : Io (Ω × V) α} {a : α} (h : Asks ask e is x a) :
    x = question ask e is >>= fun _ => Pure.pure a := by
  funext w
  obtain ⟨ω, w⟩ := w
  rw [h ω w]
  show _ = Io.bind _ _ _
  unfold Io.bind question
  simp only
  cases (askAll ask is ω).1 <;> rfl

/-- Write the pieces; before each of them, ask for the 32 words that encrypt a block. -/
def askedWrites (ask : Ω → Fin 8 → Option Ω) (e : Exn) (wr : τ → List Byte → Io V τ) :
    τ → List (List Byte) → Io (Ω × V) τ
  | s, [] => Pure.pure s
  | s, p :: ps => do
    question ask e schedule
    let s ← aside (wr s p)
    askedWrites ask e wr s ps

theorem ECBSink_loop_asks (wr : τ → List Byte → Io V τ) (h : KeyAsks ask e f k)
    (d p : List Byte) (hp : p.length < 8) (s : τ) :
    Live.ECBSink.loop (fun s d => aside (wr s d)) k d p s =
      askedWrites ask e wr s (ecbPieces f (p ++ d)) >>= fun s =>
        if (p ++ d).length % 8 = 0 then pure ⟨s, k⟩
        else Io.lift (.throw (.runtimeError "Unaligned ECB encryption")) := by
  induction d generalizing p s with
  | nil =>
    rw [List.append_nil, ecbPieces_short f hp]
    unfold Live.ECBSink.loop askedWrites
    rw [pure_bind]
    by_cases e : p = []
    · subst e; rfl
    · have : ¬ p.length % 8 = 0 := by
        have : p.length ≠ 0 := by simpa using e
        omega
      simp [e, this]
  | cons b d ih =>
    unfold Live.ECBSink.loop
    simp only
    have e : p ++ b :: d = (p ++ [b]) ++ d := by simp
    by_cases h8 : (p ++ [b]).length = 8
    · rw [if_pos h8, load64_eq h8, Io.lift_ok_bind, (EncryptionBase_asks h _).eq, bind_assoc, e,
        ecbPieces_append f h8]
      conv => rhs; unfold askedWrites
      rw [bind_assoc]
      congr 1
      funext _
      rw [pure_bind, overwrite8_eq h8, Io.lift_ok_bind, bind_assoc, bytes64_eq_spec]
      congr 1
      funext s
      rw [ih [] (by simp), List.nil_append, List.length_append, h8]
      have : (8 + d.length) % 8 = d.length % 8 := by omega
      rw [this]
    · rw [if_neg h8, e]
      refine ih _ ?_ s
      simp only [List.length_append, List.length_cons, List.length_nil] at h8 ⊢
      omega

theorem BlkEncrypted_ofU64_asks (h : KeyAsks ask e f k) (hl : k.isLazy = true) (m : Machine) (x : W64) :
    ∃ v, ((Live.BlkEncrypted (Live.BlkRaw.ofU64 x) k.asLazy).value m : Io (Ω × V) _) =
        (question ask e schedule >>= fun _ => pure v) ∧
      (BlkEncrypted (BlkRaw.ofU64 x) (some (plainKey f))).value m = .ok v := by
  have e1 : k.asLazy = some k := by simp [Live.Key.asLazy, hl]
  rw [e1]
  refine ⟨_, (BlkEncrypted_asks h m _ _).eq, ?_⟩
  exact BlkEncrypted_value (plainKey_computes f) m rfl

theorem CFBSink_loop_asks (m : Machine) (wr : τ → List Byte → Io V τ) (h : KeyAsks ask e f k)
    (hl : k.isLazy = true) (d p : List Byte) (hp : p.length < 8) (s : τ)
    (rl rr : W64) (c : List W64) (hc : c = cfbEnc (encF f) [rl, rr] (blocks64 (p ++ d))) :
    Live.CFBSink.loop m (fun s d => aside (wr s d)) k d s p rl rr =
      askedWrites ask e wr s (c.map bytesOf64) >>= fun s =>
        pure ⟨s, k, ([rl, rr] ++ c).getD c.length 0, ([rl, rr] ++ c).getD (c.length + 1) 0,
          (p ++ d).drop (8 * ((p ++ d).length / 8))⟩ := by
  induction d generalizing p s rl rr c with
  | nil =>
    rw [List.append_nil, blocks64_short hp] at hc
    rw [List.append_nil]
    have : p.length / 8 = 0 := by omega
    rw [this, hc]
    rfl
  | cons b d ih =>
    have e : p ++ b :: d = (p ++ [b]) ++ d := by simp
    rw [e] at hc ⊢
    unfold Live.CFBSink.loop
    simp only
    by_cases h8 : (p ++ [b]).length = 8
    · obtain ⟨v, hq, hv'⟩ := BlkEncrypted_ofU64_asks (V := V) h hl m rl
      obtain ⟨v', hv, hx⟩ := BlkEncrypted_ofU64 (plainKey_computes f) m rl
      obtain rfl : v' = v := by rw [hv'] at hv; cases hv; rfl
      rw [if_pos h8, hq, bind_assoc]
      rw [blocks64_append h8] at hc
      simp only [cfbEnc, List.cons_append, List.nil_append] at hc
      rw [hc, List.map_cons]
      conv => rhs; unfold askedWrites
      rw [bind_assoc]
      congr 1; funext _
      rw [pure_bind, xorWords_eq h8, Io.lift_ok_bind, hx, bind_assoc]
      congr 1; funext s
      rw [load64_eq (by simp), Io.lift_ok_bind, block64_bytesOf64]
      rw [ih [] (by simp) s rr _ _ rfl]
      have e2 : 8 * (((p ++ [b]) ++ d).length / 8) = (p ++ [b]).length + 8 * (d.length / 8) := by
        rw [List.length_append, h8]; omega
      rw [e2, List.drop_length_add_append]
      rfl
    · rw [if_neg h8]
      refine ih _ ?_ s _ _ _ hc
      simp only [List.length_append, List.length_cons, List.length_nil] at h8 ⊢
      omega

theorem ecbPieces_length (f : Fin 8 → W32 → W32) (d : List Byte) : (ecbPieces f d).length = d.length / 8 := by
  simp [ecbPieces, ecb, blocks64_length]

/-! ### The two particular keys -/

/-- A record answers every question. -/
def askRecord (l : List (Fin 8)) (i : Fin 8) : Option (List (Fin 8)) := some (l ++ [i])

/-- A token answers as long as it is there. -/
def askToken (n : Nat) (_ : Fin 8) : Option Nat := if n = 0 then none else some (n - 1)

theorem askAll_record (is l : List (Fin 8)) : askAll askRecord is l = (true, l ++ is) := by
  induction is generalizing l with
  | nil => simp [askAll]
  | cons i is ih => simp [askAll, askRecord, ih]

theorem askAll_token (is : List (Fin 8)) (n : Nat) :
    askAll askToken is n = if is.length ≤ n then (true, n - is.length) else (false, 0) := by
  induction is generalizing n with
  | nil => simp [askAll]
  | cons i is ih =>
    simp only [askAll, askToken]
    by_cases h : n = 0
    · simp [h]
    · simp only [h, if_false, ih, List.length_cons]
      by_cases h' : is.length ≤ n - 1
      · rw [if_pos h', if_pos (by omega)]
        congr 1; omega
      · rw [if_neg h', if_neg (by omega)]

theorem recordedKey_asks {q : Key} (h : Computes q f) (e : Exn) :
    KeyAsks askRecord e f (recordedKey (V := V) q) := by
  intro v i l w
  show (q.transform v (i.val : Int), (l ++ [Fin.ofNat 8 (i.val : Int).toNat], w)) = _
  rw [h, askAll_record, Int.toNat_natCast, Fin.ofNat_val_eq_self]
  rfl

theorem tokenKey_asks {q : Key} (h : Computes q f) (e : Exn) :
    KeyAsks askToken e f (tokenKey (V := V) q e) := by
  intro v i n w
  show (if n = 0 then (Exec.throw e, (n, w)) else (q.transform v (i.val : Int), (n - 1, w))) = _
  rw [h, askAll_token]
  by_cases h0 : n = 0
  · simp [h0]
  · have : 1 ≤ n := by omega
    simp [h0, this]

theorem askedWrites_record (wr : τ → List Byte → Io V τ) (ps : List (List Byte)) (s s1 : τ) (w w1 : V)
    (l : List (Fin 8)) (h : writeAll wr s ps w = (.ok s1, w1)) :
    askedWrites askRecord e wr s ps (l, w) =
      (.ok s1, (l ++ (List.replicate ps.length schedule).flatten, w1)) := by
  induction ps generalizing s w l with
  | nil =>
    rw [writeAll_nil] at h
    cases h
    simp only [askedWrites, List.length_nil, List.replicate_zero, List.flatten_nil, List.append_nil]
    rfl
  | cons p ps ih =>
    rw [writeAll_cons] at h
    have hq : (question askRecord e schedule : Io (List (Fin 8) × V) Unit) (l, w) =
        (.ok (), (l ++ schedule, w)) := by simp [question, askAll_record]
    unfold askedWrites
    rw [Io.bind_run_ok hq]
    rcases hw : wr s p w with ⟨r, w2⟩
    cases r with
    | ok s2 =>
      rw [Io.bind_run_ok hw] at h
      have ha : (aside (wr s p) : Io (List (Fin 8) × V) τ) (l ++ schedule, w) = (.ok s2, (l ++ schedule, w2)) := by
        simp [aside, hw]
      rw [Io.bind_run_ok ha, ih _ _ _ h]
      simp [List.replicate_succ]
    | throw x => rw [bind_run_throw hw] at h; cases h
    | ub u => rw [bind_run_ub hw] at h; cases h
    | diverge =>
      have : (wr s p >>= fun s => writeAll wr s ps) w = (.diverge, w2) := by
        show Io.bind _ _ _ = _
        simp [Io.bind, hw]
      rw [this] at h; cases h

theorem askedWrites_token (wr : τ → List Byte → Io V τ) (ps : List (List Byte)) (s s1 : τ) (w w1 : V)
    (n : Nat) (h : writeAll wr s (ps.take (n / 32)) w = (.ok s1, w1)) :
    askedWrites askToken e wr s ps (n, w) =
      if 32 * ps.length ≤ n then (.ok s1, (n - 32 * ps.length, w1)) else (.throw e, (0, w1)) := by
  induction ps generalizing s w n with
  | nil =>
    rw [List.take_nil, writeAll_nil] at h
    cases h
    simp only [askedWrites, List.length_nil, Nat.mul_zero, Nat.zero_le, if_true, Nat.sub_zero]
    rfl
  | cons p ps ih =>
    have hq : (question askToken e schedule : Io (Nat × V) Unit) (n, w) =
        if 32 ≤ n then (.ok (), (n - 32, w)) else (.throw e, (0, w)) := by
      have hl : schedule.length = 32 := rfl
      simp only [question, askAll_token, hl]
      split <;> rfl
    unfold askedWrites
    by_cases h32 : 32 ≤ n
    · rw [if_pos h32] at hq
      rw [Io.bind_run_ok hq]
      have e1 : n / 32 = (n - 32) / 32 + 1 := by omega
      rw [e1, List.take_succ_cons, writeAll_cons] at h
      rcases hw : wr s p w with ⟨r, w2⟩
      cases r with
      | ok s2 =>
        rw [Io.bind_run_ok hw] at h
        have ha : (aside (wr s p) : Io (Nat × V) τ) (n - 32, w) = (.ok s2, (n - 32, w2)) := by
          simp [aside, hw]
        rw [Io.bind_run_ok ha, ih _ _ _ h]
        simp only [List.length_cons]
        by_cases h' : 32 * ps.length ≤ n - 32
        · rw [if_pos h', if_pos (by omega)]
          have : n - 32 - 32 * ps.length = n - 32 * (ps.length + 1) := by omega
          rw [this]
        · rw [if_neg h', if_neg (by omega)]
      | throw x => rw [bind_run_throw hw] at h; cases h
      | ub u => rw [bind_run_ub hw] at h; cases h
      | diverge =>
        have : (wr s p >>= fun s => writeAll wr s (ps.take ((n - 32) / 32))) w = (.diverge, w2) := by
          show Io.bind _ _ _ = _
          simp [Io.bind, hw]
        rw [this] at h; cases h
    · rw [if_neg h32] at hq
      have e1 : n / 32 = 0 := by omega
      rw [e1, List.take_zero, writeAll_nil] at h
      cases h
      rw [bind_run_throw hq, if_neg (by simp only [List.length_cons]; omega)]

/-! ### The cache -/

theorem fill_run (kd : Int → Io V W32) (n i : Nat) (c : CachedData) (v : V) :
    Live.KeyCachedData.fill (W := CachedData × V) (·.1) (fun c w => (c, w.2)) (fun i => aside (kd i)) n i (c, v) =
      ((KeyCachedData.fill (fun o i => kd i o) n i c.key v).1,
        ({ c with key := (KeyCachedData.fill (fun o i => kd i o) n i c.key v).2.1 },
          (KeyCachedData.fill (fun o i => kd i o) n i c.key v).2.2)) := by
  induction n generalizing i c v with
  | zero => rfl
  | succ n ih =>
    unfold Live.KeyCachedData.fill KeyCachedData.fill
    rcases hk : kd i v with ⟨r, v'⟩
    have ha : (aside (kd i) : Io (CachedData × V) W32) (c, v) = (r, (c, v')) := by simp [aside, hk]
    cases r with
    | ok k =>
      rw [Io.bind_run_ok ha]
      exact ih (i + 1) { c with key := c.key.set i k } v'
    | throw x => rw [bind_run_throw ha]
    | ub u => rw [bind_run_ub ha]
    | diverge =>
      show Io.bind _ _ _ = _
      simp [Io.bind, ha]

theorem Live_KeyCachedData_eq (kd : Int → Io V W32) (index : Int) (c : CachedData) (v : V) :
    Live.KeyCachedData (W := CachedData × V) (·.1) (fun c w => (c, w.2)) (fun i => aside (kd i)) index (c, v) =
      KeyCachedData.key (fun o i => kd i o) index c v := by
  unfold Live.KeyCachedData KeyCachedData.key
  cases hc : c.cached
  · simp only [Bool.false_eq_true, if_false]
    have hf := fill_run kd c.key.length 0 c v
    rcases hk : KeyCachedData.fill (fun o i => kd i o) c.key.length 0 c.key v with ⟨r, key, v'⟩
    rw [hk] at hf
    simp only at hf ⊢
    cases r with
    | ok u =>
      rw [Io.bind_run_ok hf]
      rfl
    | throw x =>
      rw [bind_run_throw hf]
      simp [hc]
    | ub u =>
      rw [bind_run_ub hf]
      simp [hc]
    | diverge =>
      show Io.bind _ _ _ = _
      simp [Io.bind, hf, hc]
  · rfl

/-- The cache holds what the key data returns, if it holds anything. -/
def CacheOf (kd : KeyData) (c : CachedData) : Prop :=
  ∃ s, CacheRel c s ∧ ∀ ws, s = some ws → [0, 1, 2, 3, 4, 5, 6, 7].mapM kd = .ok ws

theorem cached_same (kd : KeyData) (index : Int) :
    SameCall (V := V) (CacheOf kd) Eq
      (Live.KeyCachedData (·.1) (fun c w => (c, w.2)) (fun i => aside (Io.lift (kd i))) index)
      (Io.lift (KeyCachedData kd index)) := by
  rintro c v ⟨s, hs, hw⟩
  rw [Live_KeyCachedData_eq]
  obtain ⟨c', s', o', r, e1, e2, h2⟩ := key_step (constData kd) index c s hs v
  obtain ⟨s'', e3, h3⟩ := ideal_const kd index s hw v
  rw [e2] at e3
  simp only [Prod.mk.injEq] at e3
  obtain ⟨rfl, rfl, rfl⟩ := e3
  have e4 : KeyCachedData.key (fun o i => (Io.lift (kd i) : Io V W32) o) index c o' = _ := e1
  rw [e4]
  exact ⟨c', ⟨s', h2, h3⟩, rfl, SameOutcome.refl _⟩

end Goost
