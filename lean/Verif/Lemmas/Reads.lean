import Verif.Spec.Failures
import Verif.Lemmas.Sources
/-
Exact effect of one read of a CFBSource on its source, whatever that source does afterwards.
-/
namespace Goost
open Spec Spec.Magma Spec.Modes Goost.Magma
variable {W σ τ : Type}

theorem bind_run_throw {α β : Type} {x : Io W α} {f : α → Io W β} {w w' : W} {e : Exn}
    (h : x w = (.throw e, w')) : (x >>= f) w = (.throw e, w') := by
  simp only [Io.bind_def, Io.bind, h]

theorem bind_run_ub {α β : Type} {x : Io W α} {f : α → Io W β} {w w' : W} {u : UB}
    (h : x w = (.ub u, w')) : (x >>= f) w = (.ub u, w') := by
  simp only [Io.bind_def, Io.bind, h]

theorem ReadsBlocks_take (rd : σ → Nat → Io W (List Byte × σ)) (c : List W64) (k : Nat) (s s1 : σ)
    (w w1 : W) (h : ReadsBlocks rd s w c s1 w1) :
    ∃ s' w', ReadsBlocks rd s w (c.take k) s' w' := by
  induction c generalizing k s w with
  | nil => exact ⟨s, w, by simp [ReadsBlocks]⟩
  | cons x c ih =>
    cases k with
    | zero => exact ⟨s, w, by simp [ReadsBlocks]⟩
    | succ k =>
      obtain ⟨s0, w0, e0, h⟩ := h
      obtain ⟨s', w', h'⟩ := ih k s0 w0 h
      exact ⟨s', w', s0, w0, e0, h'⟩

theorem ReadsBlocks_append (rd : σ → Nat → Io W (List Byte × σ)) (c d : List W64) (s s1 s2 : σ)
    (w w1 w2 : W) (h : ReadsBlocks rd s w c s1 w1) (h' : ReadsBlocks rd s1 w1 d s2 w2) :
    ReadsBlocks rd s w (c ++ d) s2 w2 := by
  induction c generalizing s w with
  | nil => obtain ⟨rfl, rfl⟩ := h; exact h'
  | cons x c ih =>
    obtain ⟨s0, w0, e0, h⟩ := h
    exact ⟨s0, w0, e0, ih s0 w0 h⟩

theorem cfbDec_take (E : W64 → W64) (R c : List W64) (k : Nat) :
    cfbDec E R (c.take k) = (cfbDec E R c).take k := by
  induction c generalizing R k with
  | nil => cases R <;> simp [cfbDec]
  | cons x c ih =>
    cases R with
    | nil => cases k <;> simp [cfbDec]
    | cons r R =>
      cases k with
      | zero => simp [cfbDec]
      | succ k => simp [cfbDec, ih]

theorem unblocks64_append (a b : List W64) : unblocks64 (a ++ b) = unblocks64 a ++ unblocks64 b := by
  simp [unblocks64]

theorem unblocks64_take (l : List W64) (n : Nat) :
    unblocks64 (l.take n) = (unblocks64 l).take (8 * n) := by
  induction n generalizing l with
  | zero => simp
  | succ n ih =>
    cases l with
    | nil => simp
    | cons x l =>
      rw [List.take_succ_cons, unblocks64_cons, unblocks64_cons, ih]
      have : 8 * (n + 1) = (bytesOf64 x).length + 8 * n := by simp; omega
      rw [this, List.take_length_add_append]

/-! ### magma::CFBSource -/

theorem CFBSource_loop_done (m : Machine) (rd : σ → Nat → Io W (List Byte × σ)) (key : Key)
    (size fuel : Nat) (s : σ) (w : W) (p : List Byte) (rl rr : W64) (res : List Byte)
    (h : size ≤ res.length + p.length) (hres : res.length ≤ size) :
    CFBSource.loop m rd key size (fuel + 1) s p rl rr res w =
      (.ok ((res ++ p).take size, ⟨s, key, rl, rr, p.drop (size - res.length)⟩), w) := by
  unfold CFBSource.loop
  have e : (res ++ p).take size = res ++ p.take (size - res.length) := by
    rw [List.take_append, List.take_of_length_le hres]
  by_cases hlt : res.length < size
  · rw [if_pos hlt, drain_eq]
    simp only
    rw [if_pos (by simp; omega), e]
    rfl
  · have h0 : size - res.length = 0 := by omega
    rw [if_neg hlt, e, h0]
    simp
    rfl

theorem CFBSource_loop_call (m : Machine) (rd : σ → Nat → Io W (List Byte × σ)) {key : Key} {f}
    (hc : Computes key f) (hl : key.isLazy = true) (size fuel : Nat) (s : σ) (w : W)
    (p : List Byte) (rl rr : W64) (res : List Byte) (h : res.length + p.length < size) :
    ∃ v, join32 v = encF f rl ∧
    CFBSource.loop m rd key size (fuel + 1) s p rl rr res w = (rd s 8 >>= fun x =>
      if x.1 = [] then pure (res ++ p, ⟨x.2, key, rl, rr, x.1⟩)
      else do
        let rr' ← Io.lift (copyMax x.1)
        let p' ← Io.lift (condXorWords x.1 v.1 v.2)
        CFBSource.loop m rd key size fuel x.2 p' rr rr' (res ++ p)) w := by
  obtain ⟨v, hv, hx⟩ := BlkEncrypted_ofU64 hc m rl
  refine ⟨v, hx, ?_⟩
  conv => lhs; unfold CFBSource.loop
  have hp : p.take (size - res.length) = p := List.take_of_length_le (by omega)
  rw [if_pos (by omega), drain_eq]
  simp only
  rw [if_neg (by simp; omega), asLazy_of hl, hv, Io.lift_ok_bind, hp]

theorem CFBSource_loop_step (m : Machine) (rd : σ → Nat → Io W (List Byte × σ)) {key : Key} {f}
    (hc : Computes key f) (hl : key.isLazy = true) (size fuel : Nat) (s s' : σ) (w w' : W)
    (p : List Byte) (rl rr : W64) (res : List Byte) (h : res.length + p.length < size) (x : W64)
    (hr : rd s 8 w = (.ok (bytesOf64 x, s'), w')) :
    CFBSource.loop m rd key size (fuel + 1) s p rl rr res w =
      CFBSource.loop m rd key size fuel s' (bytesOf64 (x ^^^ encF f rl)) rr x (res ++ p) w' := by
  obtain ⟨v, hx, e⟩ := CFBSource_loop_call m rd hc hl size fuel s w p rl rr res h
  have h8 : (bytesOf64 x).length = 8 := by simp
  rw [e, Io.bind_run_ok hr]
  simp only
  rw [if_neg (bytesOf64_ne x), copyMax_eq h8, Io.lift_ok_bind, chunk_eq h8, Io.lift_ok_bind, hx,
    block64_bytesOf64]

/-- One read of a `CFBSource` whose source returns the blocks `c` first: it takes all of them if they
are needed and enough; if they are not enough, it depends on what the source does next. -/
theorem CFBSource_loop_fetch (m : Machine) (rd : σ → Nat → Io W (List Byte × σ)) {key : Key} {f}
    (hc : Computes key f) (hl : key.isLazy = true) (size : Nat) (c : List W64) (fuel : Nat)
    (s s1 : σ) (w w1 : W) (p : List Byte) (rl rr : W64) (res : List Byte)
    (hr : ReadsBlocks rd s w c s1 w1) (hf : c.length + 1 ≤ fuel)
    (hneed : c ≠ [] → res.length + p.length + 8 * (c.length - 1) < size) :
    (res.length ≤ size → size ≤ res.length + p.length + 8 * c.length →
      CFBSource.loop m rd key size fuel s p rl rr res w =
        (.ok ((res ++ (p ++ unblocks64 (cfbDec (encF f) [rl, rr] c))).take size,
          ⟨s1, key, ([rl, rr] ++ c).getD c.length 0, ([rl, rr] ++ c).getD (c.length + 1) 0,
            (p ++ unblocks64 (cfbDec (encF f) [rl, rr] c)).drop (size - res.length)⟩), w1)) ∧
    (res.length + p.length + 8 * c.length < size → ∀ s2 w2, rd s1 8 w1 = (.ok ([], s2), w2) →
      CFBSource.loop m rd key size fuel s p rl rr res w =
        (.ok (res ++ (p ++ unblocks64 (cfbDec (encF f) [rl, rr] c)),
          ⟨s2, key, ([rl, rr] ++ c).getD c.length 0, ([rl, rr] ++ c).getD (c.length + 1) 0, []⟩), w2)) ∧
    (res.length + p.length + 8 * c.length < size → ∀ e w2, rd s1 8 w1 = (.throw e, w2) →
      CFBSource.loop m rd key size fuel s p rl rr res w = (.throw e, w2)) := by
  induction c generalizing fuel s w p rl rr res with
  | nil =>
    obtain ⟨fuel, rfl⟩ : ∃ k, fuel = k + 1 := ⟨fuel - 1, by omega⟩
    obtain ⟨rfl, rfl⟩ := hr
    refine ⟨?_, ?_, ?_⟩
    · intro h1 h2
      rw [CFBSource_loop_done m rd key size fuel s1 w1 p rl rr res (by simpa using h2) h1]
      simp [cfbDec]
    · intro h1 s2 w2 h2
      obtain ⟨v, -, e⟩ := CFBSource_loop_call m rd hc hl size fuel s1 w1 p rl rr res (by simpa using h1)
      rw [e, Io.bind_run_ok h2]
      simp [cfbDec]
      rfl
    · intro h1 e w2 h2
      obtain ⟨v, -, e⟩ := CFBSource_loop_call m rd hc hl size fuel s1 w1 p rl rr res (by simpa using h1)
      rw [e, bind_run_throw h2]
  | cons x c ih =>
    obtain ⟨fuel, rfl⟩ : ∃ k, fuel = k + 1 := ⟨fuel - 1, by simp only [List.length_cons] at hf; omega⟩
    obtain ⟨s0, w0, e0, hr⟩ := hr
    have hn := hneed (by simp)
    simp only [List.length_cons, Nat.add_sub_cancel] at hn hf
    rw [CFBSource_loop_step m rd hc hl size fuel s s0 w w0 p rl rr res (by omega) x e0]
    have hD : cfbDec (encF f) [rl, rr] (x :: c) = (x ^^^ encF f rl) :: cfbDec (encF f) [rr, x] c := rfl
    have hres : (res ++ p).length = res.length + p.length := List.length_append
    have h8 : (bytesOf64 (x ^^^ encF f rl)).length = 8 := by simp
    obtain ⟨a1, a2, a3⟩ := ih fuel s0 w0 (bytesOf64 (x ^^^ encF f rl)) rr x (res ++ p) hr (by omega)
      (by intro hne; have := List.length_pos_iff.2 hne; omega)
    have g1 : ([rl, rr] ++ x :: c).getD (c.length + 1) 0 = ([rr, x] ++ c).getD c.length 0 := rfl
    have g2 : ([rl, rr] ++ x :: c).getD (c.length + 1 + 1) 0 = ([rr, x] ++ c).getD (c.length + 1) 0 :=
      rfl
    rw [hD, unblocks64_cons, List.length_cons, g1, g2]
    have happ : ∀ q : List Byte, res ++ p ++ q = res ++ (p ++ q) := fun q => List.append_assoc ..
    rw [happ] at a1 a2
    refine ⟨?_, ?_, ?_⟩
    · intro h1 h2
      rw [a1 (by omega) (by omega)]
      have hk : size - res.length = p.length + (size - (res ++ p).length) := by omega
      rw [hk, List.drop_length_add_append]
    · intro h1 s2 w2 h2
      exact a2 (by omega) s2 w2 h2
    · intro h1 e w2 h2
      exact a3 (by omega) e w2 h2

/-- The same for `read`. -/
theorem CFBSource_read_fetch (m : Machine) (rd : σ → Nat → Io W (List Byte × σ)) (t : CFBSource σ) {f}
    (hc : Computes t.key f) (hl : t.key.isLazy = true) (size : Nat) (c : List W64) (s1 : σ) (w w1 : W)
    (hr : ReadsBlocks rd t.source w c s1 w1)
    (hneed : c ≠ [] → t.plain.length + 8 * (c.length - 1) < size) :
    (size ≤ t.plain.length + 8 * c.length →
      CFBSource.read m rd t size w =
        (.ok ((t.plain ++ unblocks64 (cfbDec (encF f) [t.ivl, t.ivr] c)).take size,
          ⟨s1, t.key, ([t.ivl, t.ivr] ++ c).getD c.length 0,
            ([t.ivl, t.ivr] ++ c).getD (c.length + 1) 0,
            (t.plain ++ unblocks64 (cfbDec (encF f) [t.ivl, t.ivr] c)).drop size⟩), w1)) ∧
    (t.plain.length + 8 * c.length < size → ∀ s2 w2, rd s1 8 w1 = (.ok ([], s2), w2) →
      CFBSource.read m rd t size w =
        (.ok (t.plain ++ unblocks64 (cfbDec (encF f) [t.ivl, t.ivr] c),
          ⟨s2, t.key, ([t.ivl, t.ivr] ++ c).getD c.length 0,
            ([t.ivl, t.ivr] ++ c).getD (c.length + 1) 0, []⟩), w2)) ∧
    (t.plain.length + 8 * c.length < size → ∀ e w2, rd s1 8 w1 = (.throw e, w2) →
      CFBSource.read m rd t size w = (.throw e, w2)) := by
  have hf : c.length + 1 ≤ size + 1 := by
    by_cases e : c = []
    · simp [e]
    · have := hneed e
      have := List.length_pos_iff.2 e
      omega
  obtain ⟨a1, a2, a3⟩ := CFBSource_loop_fetch m rd hc hl size c (size + 1) t.source s1 w w1 t.plain
    t.ivl t.ivr [] hr hf (by simpa using hneed)
  simp only [List.length_nil, Nat.zero_add, List.nil_append, Nat.sub_zero] at a1 a2 a3
  exact ⟨a1 (Nat.zero_le _), a2, a3⟩

/-! ### gost89::CFBSource -/

theorem gost89_CFBSource_loop_done (m : Machine) (rd : σ → Nat → Io W (List Byte × σ)) (key : Key)
    (size fuel : Nat) (s : σ) (w : W) (p : List Byte) (r : W64) (res : List Byte)
    (h : size ≤ res.length + p.length) (hres : res.length ≤ size) :
    Gost89.CFBSource.loop m rd key size (fuel + 1) s p r res w =
      (.ok ((res ++ p).take size, ⟨s, key, r, p.drop (size - res.length)⟩), w) := by
  unfold Gost89.CFBSource.loop
  have e : (res ++ p).take size = res ++ p.take (size - res.length) := by
    rw [List.take_append, List.take_of_length_le hres]
  by_cases hlt : res.length < size
  · rw [if_pos hlt, drain_eq]
    simp only
    rw [if_pos (by simp; omega), e]
    rfl
  · have h0 : size - res.length = 0 := by omega
    rw [if_neg hlt, e, h0]
    simp
    rfl

theorem gost89_CFBSource_loop_call (m : Machine) (rd : σ → Nat → Io W (List Byte × σ)) {key : Key} {f}
    (hc : Computes key f) (hl : key.isLazy = true) (size fuel : Nat) (s : σ) (w : W)
    (p : List Byte) (r : W64) (res : List Byte) (h : res.length + p.length < size) :
    ∃ v, join32 v = encF f r ∧
    Gost89.CFBSource.loop m rd key size (fuel + 1) s p r res w = (rd s 8 >>= fun x =>
      if x.1 = [] then pure (res ++ p, ⟨x.2, key, r, x.1⟩)
      else do
        let r' ← Io.lift (copyMax x.1)
        let p' ← Io.lift (condXorWords x.1 v.1 v.2)
        Gost89.CFBSource.loop m rd key size fuel x.2 p' r' (res ++ p)) w := by
  obtain ⟨v, hv, hx⟩ := BlkEncrypted_ofU64 hc m r
  refine ⟨v, hx, ?_⟩
  conv => lhs; unfold Gost89.CFBSource.loop
  have hp : p.take (size - res.length) = p := List.take_of_length_le (by omega)
  rw [if_pos (by omega), drain_eq]
  simp only
  rw [if_neg (by simp; omega), asLazy_of hl, hv, Io.lift_ok_bind, hp]

theorem gost89_CFBSource_loop_step (m : Machine) (rd : σ → Nat → Io W (List Byte × σ)) {key : Key} {f}
    (hc : Computes key f) (hl : key.isLazy = true) (size fuel : Nat) (s s' : σ) (w w' : W)
    (p : List Byte) (r : W64) (res : List Byte) (h : res.length + p.length < size) (x : W64)
    (hr : rd s 8 w = (.ok (bytesOf64 x, s'), w')) :
    Gost89.CFBSource.loop m rd key size (fuel + 1) s p r res w =
      Gost89.CFBSource.loop m rd key size fuel s' (bytesOf64 (x ^^^ encF f r)) x (res ++ p) w' := by
  obtain ⟨v, hx, e⟩ := gost89_CFBSource_loop_call m rd hc hl size fuel s w p r res h
  have h8 : (bytesOf64 x).length = 8 := by simp
  rw [e, Io.bind_run_ok hr]
  simp only
  rw [if_neg (bytesOf64_ne x), copyMax_eq h8, Io.lift_ok_bind, chunk_eq h8, Io.lift_ok_bind, hx,
    block64_bytesOf64]

/-- One read of a `gost89::CFBSource` whose source returns the blocks `c` first: it takes all of them if they
are needed and enough; if they are not enough, it depends on what the source does next. -/
theorem gost89_CFBSource_loop_fetch (m : Machine) (rd : σ → Nat → Io W (List Byte × σ)) {key : Key} {f}
    (hc : Computes key f) (hl : key.isLazy = true) (size : Nat) (c : List W64) (fuel : Nat)
    (s s1 : σ) (w w1 : W) (p : List Byte) (r : W64) (res : List Byte)
    (hr : ReadsBlocks rd s w c s1 w1) (hf : c.length + 1 ≤ fuel)
    (hneed : c ≠ [] → res.length + p.length + 8 * (c.length - 1) < size) :
    (res.length ≤ size → size ≤ res.length + p.length + 8 * c.length →
      Gost89.CFBSource.loop m rd key size fuel s p r res w =
        (.ok ((res ++ (p ++ unblocks64 (cfbDec (encF f) [r] c))).take size,
          ⟨s1, key, ([r] ++ c).getD c.length 0,
            (p ++ unblocks64 (cfbDec (encF f) [r] c)).drop (size - res.length)⟩), w1)) ∧
    (res.length + p.length + 8 * c.length < size → ∀ s2 w2, rd s1 8 w1 = (.ok ([], s2), w2) →
      Gost89.CFBSource.loop m rd key size fuel s p r res w =
        (.ok (res ++ (p ++ unblocks64 (cfbDec (encF f) [r] c)),
          ⟨s2, key, ([r] ++ c).getD c.length 0, []⟩), w2)) ∧
    (res.length + p.length + 8 * c.length < size → ∀ e w2, rd s1 8 w1 = (.throw e, w2) →
      Gost89.CFBSource.loop m rd key size fuel s p r res w = (.throw e, w2)) := by
  induction c generalizing fuel s w p r res with
  | nil =>
    obtain ⟨fuel, rfl⟩ : ∃ k, fuel = k + 1 := ⟨fuel - 1, by omega⟩
    obtain ⟨rfl, rfl⟩ := hr
    refine ⟨?_, ?_, ?_⟩
    · intro h1 h2
      rw [gost89_CFBSource_loop_done m rd key size fuel s1 w1 p r res (by simpa using h2) h1]
      simp [cfbDec]
    · intro h1 s2 w2 h2
      obtain ⟨v, -, e⟩ := gost89_CFBSource_loop_call m rd hc hl size fuel s1 w1 p r res (by simpa using h1)
      rw [e, Io.bind_run_ok h2]
      simp [cfbDec]
      rfl
    · intro h1 e w2 h2
      obtain ⟨v, -, e⟩ := gost89_CFBSource_loop_call m rd hc hl size fuel s1 w1 p r res (by simpa using h1)
      rw [e, bind_run_throw h2]
  | cons x c ih =>
    obtain ⟨fuel, rfl⟩ : ∃ k, fuel = k + 1 := ⟨fuel - 1, by simp only [List.length_cons] at hf; omega⟩
    obtain ⟨s0, w0, e0, hr⟩ := hr
    have hn := hneed (by simp)
    simp only [List.length_cons, Nat.add_sub_cancel] at hn hf
    rw [gost89_CFBSource_loop_step m rd hc hl size fuel s s0 w w0 p r res (by omega) x e0]
    have hD : cfbDec (encF f) [r] (x :: c) = (x ^^^ encF f r) :: cfbDec (encF f) [x] c := rfl
    have hres : (res ++ p).length = res.length + p.length := List.length_append
    have h8 : (bytesOf64 (x ^^^ encF f r)).length = 8 := by simp
    obtain ⟨a1, a2, a3⟩ := ih fuel s0 w0 (bytesOf64 (x ^^^ encF f r)) x (res ++ p) hr (by omega)
      (by intro hne; have := List.length_pos_iff.2 hne; omega)
    have g1 : ([r] ++ x :: c).getD (c.length + 1) 0 = ([x] ++ c).getD c.length 0 := rfl
    rw [hD, unblocks64_cons, List.length_cons, g1]
    have happ : ∀ q : List Byte, res ++ p ++ q = res ++ (p ++ q) := fun q => List.append_assoc ..
    rw [happ] at a1 a2
    refine ⟨?_, ?_, ?_⟩
    · intro h1 h2
      rw [a1 (by omega) (by omega)]
      have hk : size - res.length = p.length + (size - (res ++ p).length) := by omega
      rw [hk, List.drop_length_add_append]
    · intro h1 s2 w2 h2
      exact a2 (by omega) s2 w2 h2
    · intro h1 e w2 h2
      exact a3 (by omega) e w2 h2

/-- The same for `read`. -/
theorem gost89_CFBSource_read_fetch (m : Machine) (rd : σ → Nat → Io W (List Byte × σ)) (t : Gost89.CFBSource σ) {f}
    (hc : Computes t.key f) (hl : t.key.isLazy = true) (size : Nat) (c : List W64) (s1 : σ) (w w1 : W)
    (hr : ReadsBlocks rd t.source w c s1 w1)
    (hneed : c ≠ [] → t.plain.length + 8 * (c.length - 1) < size) :
    (size ≤ t.plain.length + 8 * c.length →
      Gost89.CFBSource.read m rd t size w =
        (.ok ((t.plain ++ unblocks64 (cfbDec (encF f) [t.iv] c)).take size,
          ⟨s1, t.key, ([t.iv] ++ c).getD c.length 0,
            (t.plain ++ unblocks64 (cfbDec (encF f) [t.iv] c)).drop size⟩), w1)) ∧
    (t.plain.length + 8 * c.length < size → ∀ s2 w2, rd s1 8 w1 = (.ok ([], s2), w2) →
      Gost89.CFBSource.read m rd t size w =
        (.ok (t.plain ++ unblocks64 (cfbDec (encF f) [t.iv] c),
          ⟨s2, t.key, ([t.iv] ++ c).getD c.length 0, []⟩), w2)) ∧
    (t.plain.length + 8 * c.length < size → ∀ e w2, rd s1 8 w1 = (.throw e, w2) →
      Gost89.CFBSource.read m rd t size w = (.throw e, w2)) := by
  have hf : c.length + 1 ≤ size + 1 := by
    by_cases e : c = []
    · simp [e]
    · have := hneed e
      have := List.length_pos_iff.2 e
      omega
  obtain ⟨a1, a2, a3⟩ := gost89_CFBSource_loop_fetch m rd hc hl size c (size + 1) t.source s1 w w1 t.plain
    t.iv [] hr hf (by simpa using hneed)
  simp only [List.length_nil, Nat.zero_add, List.nil_append, Nat.sub_zero] at a1 a2 a3
  exact ⟨a1 (Nat.zero_le _), a2, a3⟩

end Goost
