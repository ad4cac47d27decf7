import Verif.Lemmas.Sinks
/-
ECBSource and both CFBSources.
-/
namespace Goost
open Spec Spec.Magma Spec.Modes Goost.Magma
variable {W σ τ : Type}

theorem drain_eq (size : Nat) (p res : List Byte) :
    drain size p res = (p.drop (size - res.length), res ++ p.take (size - res.length)) := by
  induction p generalizing res with
  | nil => simp [drain]
  | cons x p ih =>
    unfold drain
    by_cases h : res.length < size
    · rw [if_pos h, ih]
      obtain ⟨k, hk⟩ : ∃ k, size - res.length = k + 1 := ⟨size - res.length - 1, by omega⟩
      have : size - (res ++ [x]).length = k := by simp; omega
      rw [this, hk]
      simp
    · have : size - res.length = 0 := by omega
      rw [if_neg h, this]
      simp

theorem copyMax_eq {p : List Byte} (h : p.length = 8) : copyMax p = .ok (block64 p) := by
  simp only [copyMax, h]
  exact load64_eq h

theorem copyMax_short {p : List Byte} (h : p.length < 8) : copyMax p = .ub .oobRead := by
  have h1 : max 8 p.length = 8 := by omega
  simp only [copyMax, h1]
  rw [if_pos h]

theorem copyMax_long {p : List Byte} (h : 8 < p.length) : copyMax p = .ub .oobWrite := by
  have h1 : max 8 p.length = p.length := by omega
  simp only [copyMax, h1]
  rw [if_neg (by omega), if_pos h]

/-- CFB decryption of a byte string. -/
def cfbPlain (f : Fin 8 → W32 → W32) (R : List W64) (c : List Byte) : List Byte :=
  unblocks64 (cfbDec (encF f) R (blocks64 c))

@[simp] theorem cfbPlain_nil (f : Fin 8 → W32 → W32) (R : List W64) : cfbPlain f R [] = [] := by
  have : blocks64 [] = [] := rfl
  rw [cfbPlain, this]
  cases R <;> rfl

theorem cfbPlain_append (f : Fin 8 → W32 → W32) (r : W64) (R : List W64) {p : List Byte}
    (h : p.length = 8) (c : List Byte) :
    cfbPlain f (r :: R) (p ++ c) =
      bytesOf64 (block64 p ^^^ encF f r) ++ cfbPlain f (R ++ [block64 p]) c := by
  rw [cfbPlain, blocks64_append h]; rfl

/-! ### magma::CFBSource -/

/-- The decryption of one chunk in `CFBSource::read`. -/
theorem chunk_eq {p : List Byte} (h : p.length = 8) (e : W32 × W32) :
    condXorWords p e.1 e.2 = .ok (bytesOf64 (block64 p ^^^ join32 e)) := by
  rw [condXorWords_eq h, xorWords_eq h]

theorem bytesOf64_ne (x : W64) : bytesOf64 x ≠ [] := by
  intro h
  have := bytesOf64_length x
  rw [h] at this
  simp at this

theorem CFBSource_loop_eq (m : Machine) (rd : σ → Nat → Io W (List Byte × σ)) {key : Key} {f}
    (h : Computes key f) (hl : key.isLazy = true) (size : Nat) (R : σ → W → List Byte → Prop)
    (hR : ∀ s w d, R s w d → ∃ s' w', rd s 8 w = (.ok (d.take 8, s'), w') ∧ R s' w' (d.drop 8))
    (fuel : Nat) (s : σ) (w : W) (c p : List Byte) (rl rr : W64) (res : List Byte)
    (hs : R s w c) (hc : c.length % 8 = 0) (hres : res.length ≤ size) (hf : 1 ≤ fuel)
    (hf' : size - res.length + (if p = [] then 1 else 0) ≤ fuel) :
    ∃ t w' c', CFBSource.loop m rd key size fuel s p rl rr res w =
        (.ok (res ++ (p ++ cfbPlain f [rl, rr] c).take (size - res.length), t), w') ∧
      t.key = key ∧ R t.source w' c' ∧ c'.length % 8 = 0 ∧
      t.plain ++ cfbPlain f [t.ivl, t.ivr] c' =
        (p ++ cfbPlain f [rl, rr] c).drop (size - res.length) := by
  induction fuel generalizing s w c p rl rr res with
  | zero => omega
  | succ fuel ih =>
    unfold CFBSource.loop
    by_cases hlt : res.length < size
    · rw [if_pos hlt, drain_eq]
      simp only
      by_cases hp : size - res.length ≤ p.length
      · have hfull : (res ++ p.take (size - res.length)).length = size := by simp; omega
        rw [if_pos hfull]
        refine ⟨⟨s, key, rl, rr, p.drop (size - res.length)⟩, w, c, ?_, rfl, hs, hc, ?_⟩
        · rw [List.take_append_of_le_length hp]; rfl
        · rw [List.drop_append_of_le_length hp]
      · have hfull : ¬ (res ++ p.take (size - res.length)).length = size := by simp; omega
        rw [if_neg hfull]
        obtain ⟨v, hv, hx⟩ := BlkEncrypted_ofU64 h m rl
        obtain ⟨s1, w1, e1, r1⟩ := hR s w c hs
        rw [asLazy_of hl, hv, Io.lift_ok_bind, Io.bind_run_ok e1]
        simp only
        have hp' : p.take (size - res.length) = p := List.take_of_length_le (by omega)
        rw [hp']
        by_cases hce : c = []
        · subst hce
          simp only [List.take_nil, if_true]
          refine ⟨⟨s1, key, rl, rr, []⟩, w1, [], ?_, rfl, r1, rfl, ?_⟩
          · rw [cfbPlain_nil, List.append_nil, hp']; rfl
          · simp only [cfbPlain_nil, List.append_nil]
            rw [List.drop_of_length_le (by omega)]
        · have hc8 : 8 ≤ c.length := by
            have : c.length ≠ 0 := by simpa using hce
            omega
          have ht : (c.take 8).length = 8 := by simp; omega
          have hne : c.take 8 ≠ [] := by intro e; rw [e] at ht; simp at ht
          rw [if_neg hne, copyMax_eq ht, Io.lift_ok_bind, chunk_eq ht, Io.lift_ok_bind, hx]
          have hsum : (res ++ p).length = res.length + p.length := List.length_append
          have hpl : p ≠ [] → 1 ≤ p.length := by
            intro hne; exact List.length_pos_iff.2 hne
          have hpe : (if p = [] then 1 else 0) + p.length ≥ 1 := by
            by_cases e : p = []
            · simp [e]
            · simp only [e, if_false]; have := hpl e; omega
          obtain ⟨t, w', c', g1, g2, g3, g4, g5⟩ := ih s1 w1 (c.drop 8)
            (bytesOf64 (block64 (c.take 8) ^^^ encF f rl)) rr (block64 (c.take 8)) (res ++ p) r1
            (by simp; omega) (by omega) (by omega)
            (by rw [if_neg (bytesOf64_ne _)]; omega)
          have hD : cfbPlain f [rl, rr] c = bytesOf64 (block64 (c.take 8) ^^^ encF f rl) ++
              cfbPlain f [rr, block64 (c.take 8)] (c.drop 8) := by
            have := cfbPlain_append f rl [rr] ht (c.drop 8)
            rw [List.take_append_drop] at this
            exact this
          rw [← hD] at g1 g5
          have hk : size - (res ++ p).length = size - res.length - p.length := by omega
          rw [hk] at g1 g5
          refine ⟨t, w', c', ?_, g2, g3, g4, ?_⟩
          · rw [g1, List.take_append, hp', List.append_assoc]
          · rw [g5, List.drop_append, List.drop_of_length_le (l := p) (by omega), List.nil_append]
    · rw [if_neg hlt]
      have : size - res.length = 0 := by omega
      rw [this]
      exact ⟨⟨s, key, rl, rr, p⟩, w, c, by simp; rfl, rfl, hs, hc, by simp⟩

/-- The budget of iterations is never used up: any larger budget gives the same. -/
theorem CFBSource.loop_fuel (m : Machine) (rd : σ → Nat → Io W (List Byte × σ)) (key : Key)
    (size : Nat) (fuel fuel' : Nat) (s : σ) (p : List Byte) (rl rr : W64) (res : List Byte)
    (hf : 1 ≤ fuel) (hf' : 1 ≤ fuel')
    (h : size - res.length + (if p = [] then 1 else 0) ≤ fuel)
    (h' : size - res.length + (if p = [] then 1 else 0) ≤ fuel') :
    CFBSource.loop m rd key size fuel s p rl rr res =
      CFBSource.loop m rd key size fuel' s p rl rr res := by
  induction fuel generalizing fuel' s p rl rr res with
  | zero => omega
  | succ fuel ih =>
    obtain ⟨fuel', rfl⟩ : ∃ k, fuel' = k + 1 := ⟨fuel' - 1, by omega⟩
    unfold CFBSource.loop
    split
    · rename_i hlt
      rw [drain_eq]
      simp only
      split
      · rfl
      · rename_i hfull
        have hlen : ¬ size - res.length ≤ p.length := by
          intro e
          apply hfull
          simp; omega
        have hpe : (if p = [] then 1 else 0) + p.length ≥ 1 := by
          by_cases e : p = []
          · simp [e]
          · simp only [e, if_false]
            have := List.length_pos_iff.2 e
            omega
        congr 1; funext e
        congr 1; funext x
        split
        · rfl
        · by_cases h8 : x.1.length = 8
          · rw [copyMax_eq h8, chunk_eq h8]
            simp only [Io.lift_ok_bind]
            have ht : p.take (size - res.length) = p := List.take_of_length_le (by omega)
            rw [ht]
            apply ih
            · omega
            · omega
            · rw [if_neg (bytesOf64_ne _)]; simp; omega
            · rw [if_neg (bytesOf64_ne _)]; simp; omega
          · by_cases h9 : x.1.length < 8
            · rw [copyMax_short h9]; rfl
            · rw [copyMax_long (by omega)]; rfl
    · rfl

/-- `CFBSource` supplies the decryption of what its source supplies. -/
theorem CFBSource_supplies (m : Machine) (rd : σ → Nat → Io W (List Byte × σ)) {key : Key} {f}
    (h : Computes key f) (hl : key.isLazy = true) (s : σ) (w : W) (c : List Byte)
    (hs : SuppliesBlocks rd s w c) (hc : c.length % 8 = 0) (ivl ivr : W64) :
    Supplies (CFBSource.read m rd) (CFBSource.new s key ivl ivr) w (cfbPlain f [ivl, ivr] c) := by
  obtain ⟨R, h0, hR⟩ := hs
  refine ⟨fun t w d => t.key = key ∧ ∃ c, R t.source w c ∧ c.length % 8 = 0 ∧
    d = t.plain ++ cfbPlain f [t.ivl, t.ivr] c, ⟨rfl, c, h0, hc, rfl⟩, ?_⟩
  rintro t w d ⟨hk, c, hr, hc, rfl⟩ n
  obtain ⟨t', w', c', g1, g2, g3, g4, g5⟩ := CFBSource_loop_eq m rd h hl n R hR (n + 1) t.source w c
    t.plain t.ivl t.ivr [] hr hc (Nat.zero_le _) (by omega)
    (by simp only [List.length_nil]; split <;> omega)
  refine ⟨t', w', ?_, g2, c', g3, g4, ?_⟩
  · rw [CFBSource.read, hk, g1]; rfl
  · rw [g5]; rfl

/-- A chunk that is not a whole block. -/
theorem CFBSource_bad_chunk (m : Machine) (rd : σ → Nat → Io W (List Byte × σ)) (t : CFBSource σ)
    (h : Usable t.key) (hl : t.key.isLazy = true) (n : Nat) (hn : t.plain.length < n) (w w' : W)
    (p : List Byte) (s : σ) (hr : rd t.source 8 w = (.ok (p, s), w')) (h0 : p ≠ [])
    (h8 : p.length ≠ 8) :
    CFBSource.read m rd t n w = (.ub (if p.length < 8 then .oobRead else .oobWrite), w') := by
  obtain ⟨f, hf⟩ := h.computes
  obtain ⟨v, hv, -⟩ := BlkEncrypted_ofU64 hf m t.ivl
  have hfull : ¬ (([] : List Byte) ++ t.plain.take (n - ([] : List Byte).length)).length = n := by
    simp; omega
  unfold CFBSource.read CFBSource.loop
  rw [if_pos (by simp only [List.length_nil]; omega), drain_eq]
  simp only
  rw [if_neg hfull, asLazy_of hl, hv, Io.lift_ok_bind, Io.bind_run_ok hr]
  simp only
  rw [if_neg h0]
  by_cases h9 : p.length < 8
  · rw [copyMax_short h9, if_pos h9]; rfl
  · rw [copyMax_long (by omega), if_neg h9]; rfl

theorem BlkEncrypted_null (m : Machine) (b : Blk) (v : W32 × W32) (hb : b.value m = .ok v) :
    (BlkEncrypted b none).value m = .ub .nullDeref := by
  simp [BlkEncrypted, Blk.value, hb, forwardRounds, callKey]

theorem CFBSource_null (m : Machine) (rd : σ → Nat → Io W (List Byte × σ)) (t : CFBSource σ)
    (hl : t.key.isLazy = false) (n : Nat) (hn : t.plain.length < n) (w : W) :
    CFBSource.read m rd t n w = (.ub .nullDeref, w) := by
  obtain ⟨v, hv, -⟩ := ofU64_value m t.ivl
  have hfull : ¬ (([] : List Byte) ++ t.plain.take (n - ([] : List Byte).length)).length = n := by
    simp; omega
  have ha : t.key.asLazy = none := by simp [Key.asLazy, hl]
  unfold CFBSource.read CFBSource.loop
  rw [if_pos (by simp only [List.length_nil]; omega), drain_eq]
  simp only
  rw [if_neg hfull, ha, BlkEncrypted_null m _ v hv]
  rfl

/-! ### gost89::CFBSource -/

theorem gost89_CFBSource_loop_eq (m : Machine) (rd : σ → Nat → Io W (List Byte × σ)) {key : Key} {f}
    (h : Computes key f) (hl : key.isLazy = true) (size : Nat) (R : σ → W → List Byte → Prop)
    (hR : ∀ s w d, R s w d → ∃ s' w', rd s 8 w = (.ok (d.take 8, s'), w') ∧ R s' w' (d.drop 8))
    (fuel : Nat) (s : σ) (w : W) (c p : List Byte) (r : W64) (res : List Byte)
    (hs : R s w c) (hc : c.length % 8 = 0) (hres : res.length ≤ size) (hf : 1 ≤ fuel)
    (hf' : size - res.length + (if p = [] then 1 else 0) ≤ fuel) :
    ∃ t w' c', Gost89.CFBSource.loop m rd key size fuel s p r res w =
        (.ok (res ++ (p ++ cfbPlain f [r] c).take (size - res.length), t), w') ∧
      t.key = key ∧ R t.source w' c' ∧ c'.length % 8 = 0 ∧
      t.plain ++ cfbPlain f [t.iv] c' =
        (p ++ cfbPlain f [r] c).drop (size - res.length) := by
  induction fuel generalizing s w c p r res with
  | zero => omega
  | succ fuel ih =>
    unfold Gost89.CFBSource.loop
    by_cases hlt : res.length < size
    · rw [if_pos hlt, drain_eq]
      simp only
      by_cases hp : size - res.length ≤ p.length
      · have hfull : (res ++ p.take (size - res.length)).length = size := by simp; omega
        rw [if_pos hfull]
        refine ⟨⟨s, key, r, p.drop (size - res.length)⟩, w, c, ?_, rfl, hs, hc, ?_⟩
        · rw [List.take_append_of_le_length hp]; rfl
        · rw [List.drop_append_of_le_length hp]
      · have hfull : ¬ (res ++ p.take (size - res.length)).length = size := by simp; omega
        rw [if_neg hfull]
        obtain ⟨v, hv, hx⟩ := BlkEncrypted_ofU64 h m r
        obtain ⟨s1, w1, e1, r1⟩ := hR s w c hs
        rw [asLazy_of hl, hv, Io.lift_ok_bind, Io.bind_run_ok e1]
        simp only
        have hp' : p.take (size - res.length) = p := List.take_of_length_le (by omega)
        rw [hp']
        by_cases hce : c = []
        · subst hce
          simp only [List.take_nil, if_true]
          refine ⟨⟨s1, key, r, []⟩, w1, [], ?_, rfl, r1, rfl, ?_⟩
          · rw [cfbPlain_nil, List.append_nil, hp']; rfl
          · simp only [cfbPlain_nil, List.append_nil]
            rw [List.drop_of_length_le (by omega)]
        · have hc8 : 8 ≤ c.length := by
            have : c.length ≠ 0 := by simpa using hce
            omega
          have ht : (c.take 8).length = 8 := by simp; omega
          have hne : c.take 8 ≠ [] := by intro e; rw [e] at ht; simp at ht
          rw [if_neg hne, copyMax_eq ht, Io.lift_ok_bind, chunk_eq ht, Io.lift_ok_bind, hx]
          have hsum : (res ++ p).length = res.length + p.length := List.length_append
          have hpl : p ≠ [] → 1 ≤ p.length := by
            intro hne; exact List.length_pos_iff.2 hne
          have hpe : (if p = [] then 1 else 0) + p.length ≥ 1 := by
            by_cases e : p = []
            · simp [e]
            · simp only [e, if_false]; have := hpl e; omega
          obtain ⟨t, w', c', g1, g2, g3, g4, g5⟩ := ih s1 w1 (c.drop 8)
            (bytesOf64 (block64 (c.take 8) ^^^ encF f r)) (block64 (c.take 8)) (res ++ p) r1
            (by simp; omega) (by omega) (by omega)
            (by rw [if_neg (bytesOf64_ne _)]; omega)
          have hD : cfbPlain f [r] c = bytesOf64 (block64 (c.take 8) ^^^ encF f r) ++
              cfbPlain f [block64 (c.take 8)] (c.drop 8) := by
            have := cfbPlain_append f r [] ht (c.drop 8)
            rw [List.take_append_drop] at this
            exact this
          rw [← hD] at g1 g5
          have hk : size - (res ++ p).length = size - res.length - p.length := by omega
          rw [hk] at g1 g5
          refine ⟨t, w', c', ?_, g2, g3, g4, ?_⟩
          · rw [g1, List.take_append, hp', List.append_assoc]
          · rw [g5, List.drop_append, List.drop_of_length_le (l := p) (by omega), List.nil_append]
    · rw [if_neg hlt]
      have : size - res.length = 0 := by omega
      rw [this]
      exact ⟨⟨s, key, r, p⟩, w, c, by simp; rfl, rfl, hs, hc, by simp⟩

/-- The budget of iterations is never used up: any larger budget gives the same. -/
theorem gost89_CFBSource_loop_fuel (m : Machine) (rd : σ → Nat → Io W (List Byte × σ)) (key : Key)
    (size : Nat) (fuel fuel' : Nat) (s : σ) (p : List Byte) (r : W64) (res : List Byte)
    (hf : 1 ≤ fuel) (hf' : 1 ≤ fuel')
    (h : size - res.length + (if p = [] then 1 else 0) ≤ fuel)
    (h' : size - res.length + (if p = [] then 1 else 0) ≤ fuel') :
    Gost89.CFBSource.loop m rd key size fuel s p r res =
      Gost89.CFBSource.loop m rd key size fuel' s p r res := by
  induction fuel generalizing fuel' s p r res with
  | zero => omega
  | succ fuel ih =>
    obtain ⟨fuel', rfl⟩ : ∃ k, fuel' = k + 1 := ⟨fuel' - 1, by omega⟩
    unfold Gost89.CFBSource.loop
    split
    · rename_i hlt
      rw [drain_eq]
      simp only
      split
      · rfl
      · rename_i hfull
        have hlen : ¬ size - res.length ≤ p.length := by
          intro e
          apply hfull
          simp; omega
        have hpe : (if p = [] then 1 else 0) + p.length ≥ 1 := by
          by_cases e : p = []
          · simp [e]
          · simp only [e, if_false]
            have := List.length_pos_iff.2 e
            omega
        congr 1; funext e
        congr 1; funext x
        split
        · rfl
        · by_cases h8 : x.1.length = 8
          · rw [copyMax_eq h8, chunk_eq h8]
            simp only [Io.lift_ok_bind]
            have ht : p.take (size - res.length) = p := List.take_of_length_le (by omega)
            rw [ht]
            apply ih
            · omega
            · omega
            · rw [if_neg (bytesOf64_ne _)]; simp; omega
            · rw [if_neg (bytesOf64_ne _)]; simp; omega
          · by_cases h9 : x.1.length < 8
            · rw [copyMax_short h9]; rfl
            · rw [copyMax_long (by omega)]; rfl
    · rfl

/-- `gost89::CFBSource` supplies the decryption of what its source supplies. -/
theorem gost89_CFBSource_supplies (m : Machine) (rd : σ → Nat → Io W (List Byte × σ)) {key : Key} {f}
    (h : Computes key f) (hl : key.isLazy = true) (s : σ) (w : W) (c : List Byte)
    (hs : SuppliesBlocks rd s w c) (hc : c.length % 8 = 0) (iv : W64) :
    Supplies (Gost89.CFBSource.read m rd) (Gost89.CFBSource.new s key iv) w (cfbPlain f [iv] c) := by
  obtain ⟨R, h0, hR⟩ := hs
  refine ⟨fun t w d => t.key = key ∧ ∃ c, R t.source w c ∧ c.length % 8 = 0 ∧
    d = t.plain ++ cfbPlain f [t.iv] c, ⟨rfl, c, h0, hc, rfl⟩, ?_⟩
  rintro t w d ⟨hk, c, hr, hc, rfl⟩ n
  obtain ⟨t', w', c', g1, g2, g3, g4, g5⟩ := gost89_CFBSource_loop_eq m rd h hl n R hR (n + 1) t.source w c
    t.plain t.iv [] hr hc (Nat.zero_le _) (by omega)
    (by simp only [List.length_nil]; split <;> omega)
  refine ⟨t', w', ?_, g2, c', g3, g4, ?_⟩
  · rw [Gost89.CFBSource.read, hk, g1]; rfl
  · rw [g5]; rfl

/-- A chunk that is not a whole block. -/
theorem gost89_CFBSource_bad_chunk (m : Machine) (rd : σ → Nat → Io W (List Byte × σ)) (t : Gost89.CFBSource σ)
    (h : Usable t.key) (hl : t.key.isLazy = true) (n : Nat) (hn : t.plain.length < n) (w w' : W)
    (p : List Byte) (s : σ) (hr : rd t.source 8 w = (.ok (p, s), w')) (h0 : p ≠ [])
    (h8 : p.length ≠ 8) :
    Gost89.CFBSource.read m rd t n w = (.ub (if p.length < 8 then .oobRead else .oobWrite), w') := by
  obtain ⟨f, hf⟩ := h.computes
  obtain ⟨v, hv, -⟩ := BlkEncrypted_ofU64 hf m t.iv
  have hfull : ¬ (([] : List Byte) ++ t.plain.take (n - ([] : List Byte).length)).length = n := by
    simp; omega
  unfold Gost89.CFBSource.read Gost89.CFBSource.loop
  rw [if_pos (by simp only [List.length_nil]; omega), drain_eq]
  simp only
  rw [if_neg hfull, asLazy_of hl, hv, Io.lift_ok_bind, Io.bind_run_ok hr]
  simp only
  rw [if_neg h0]
  by_cases h9 : p.length < 8
  · rw [copyMax_short h9, if_pos h9]; rfl
  · rw [copyMax_long (by omega), if_neg h9]; rfl

theorem gost89_CFBSource_null (m : Machine) (rd : σ → Nat → Io W (List Byte × σ)) (t : Gost89.CFBSource σ)
    (hl : t.key.isLazy = false) (n : Nat) (hn : t.plain.length < n) (w : W) :
    Gost89.CFBSource.read m rd t n w = (.ub .nullDeref, w) := by
  obtain ⟨v, hv, -⟩ := ofU64_value m t.iv
  have hfull : ¬ (([] : List Byte) ++ t.plain.take (n - ([] : List Byte).length)).length = n := by
    simp; omega
  have ha : t.key.asLazy = none := by simp [Key.asLazy, hl]
  unfold Gost89.CFBSource.read Gost89.CFBSource.loop
  rw [if_pos (by simp only [List.length_nil]; omega), drain_eq]
  simp only
  rw [if_neg hfull, ha, BlkEncrypted_null m _ v hv]
  rfl

/-! ### ECBSource -/

theorem ECBSource_read_ecb (m : Machine) (rd : σ → Nat → Io W (List Byte × σ)) (s : σ) (key : Key)
    (n : Nat) (hn : 8 ≤ n) : ECBSource.read m rd (.ecb s key) n = (rd s 8 >>= fun x =>
      if x.1 = [] then pure (x.1, .bare x.2)
      else do
        let b ← Io.lift (BlkRaw.ofBytes x.1)
        let e ← Io.lift ((BlkDecrypted b key.asLazy).value m)
        let p ← Io.lift (overwrite8 x.1 (bytes32 e.1 ++ bytes32 e.2))
        return (p, .ecb x.2 key)) := by
  simp only [ECBSource.read]
  rw [if_neg (by omega)]

theorem ECBSource_block {key : Key} {f} (h : Computes key f) (hl : key.isLazy = true) (m : Machine)
    (rd : σ → Nat → Io W (List Byte × σ)) (s s' : σ) (n : Nat) (hn : 8 ≤ n) (w w' : W)
    (p : List Byte) (hr : rd s 8 w = (.ok (p, s'), w')) (hp : p.length = 8) :
    ECBSource.read m rd (.ecb s key) n w =
      (.ok (bytesOf64 (decF f (block64 p)), .ecb s' key), w') := by
  have hne : p ≠ [] := by intro e; rw [e] at hp; simp at hp
  rw [ECBSource_read_ecb m rd s key n hn, Io.bind_run_ok hr]
  simp only
  rw [if_neg hne, ofBytes_eq hp, Io.lift_ok_bind, asLazy_of hl, BlkDecrypted_value h m rfl,
    Io.lift_ok_bind, overwrite8_eq hp, Io.lift_ok_bind, bytes32_pair, join32_decP, join32_surj]
  rfl

theorem ECBSource_end (m : Machine) (rd : σ → Nat → Io W (List Byte × σ)) (s s' : σ) (key : Key)
    (n : Nat) (hn : 8 ≤ n) (w w' : W) (hr : rd s 8 w = (.ok ([], s'), w')) :
    ECBSource.read m rd (.ecb s key) n w = (.ok ([], .bare s'), w') := by
  rw [ECBSource_read_ecb m rd s key n hn, Io.bind_run_ok hr]
  rfl

theorem ofBytes_short : ∀ {p : List Byte}, p.length < 8 → BlkRaw.ofBytes p = .ub .oobRead
  | [], _ | [_], _ | [_, _], _ | [_, _, _], _ | [_, _, _, _], _ | [_, _, _, _, _], _
  | [_, _, _, _, _, _], _ | [_, _, _, _, _, _, _], _ => rfl
  | _ :: _ :: _ :: _ :: _ :: _ :: _ :: _ :: _, h => by simp at h; omega

/-- ECB decryption of a byte string. -/
def ecbPlain (f : Fin 8 → W32 → W32) (c : List Byte) : List Byte :=
  unblocks64 (ecb (decF f) (blocks64 c))

theorem ecbPlain_append (f : Fin 8 → W32 → W32) {p : List Byte} (h : p.length = 8)
    (c : List Byte) : ecbPlain f (p ++ c) = bytesOf64 (decF f (block64 p)) ++ ecbPlain f c := by
  rw [ecbPlain, blocks64_append h]; rfl

theorem ECBSource_supplies {key : Key} {f} (h : Computes key f) (hl : key.isLazy = true)
    (m : Machine) (rd : σ → Nat → Io W (List Byte × σ)) (s : σ) (w : W) (c : List Byte)
    (hs : SuppliesBlocks rd s w c) (hc : c.length % 8 = 0) :
    SuppliesBlocks (ECBSource.read m rd) (.ecb s key) w (ecbPlain f c) := by
  obtain ⟨R, h0, hR⟩ := hs
  refine ⟨fun t w d => (∃ s c, t = .ecb s key ∧ R s w c ∧ c.length % 8 = 0 ∧ d = ecbPlain f c) ∨
    (∃ s, t = .bare s ∧ R s w [] ∧ d = []), Or.inl ⟨s, c, rfl, h0, hc, rfl⟩, ?_⟩
  rintro t w d (⟨s, c, rfl, hr, hc, rfl⟩ | ⟨s, rfl, hr, rfl⟩)
  · obtain ⟨s1, w1, e1, r1⟩ := hR s w c hr
    by_cases hce : c = []
    · subst hce
      exact ⟨.bare s1, w1, ECBSource_end m rd s s1 key 8 (by omega) w w1 e1,
        Or.inr ⟨s1, rfl, r1, rfl⟩⟩
    · have hc8 : 8 ≤ c.length := by
        have : c.length ≠ 0 := by simpa using hce
        omega
      have ht : (c.take 8).length = 8 := by simp; omega
      have e := ecbPlain_append f ht (c.drop 8)
      rw [List.take_append_drop] at e
      refine ⟨.ecb s1 key, w1, ?_, Or.inl ⟨s1, c.drop 8, rfl, r1, by simp; omega, ?_⟩⟩
      · rw [ECBSource_block h hl m rd s s1 8 (by omega) w w1 _ e1 ht, e,
          List.take_left' (by simp)]
      · rw [e, List.drop_left' (by simp)]
  · obtain ⟨s1, w1, e1, r1⟩ := hR s w [] hr
    refine ⟨.bare s1, w1, ?_, Or.inr ⟨s1, rfl, r1, rfl⟩⟩
    simp only [ECBSource.read]
    rw [Io.bind_run_ok e1]
    rfl

/-! ### Properties of cipher feedback -/

theorem cfbDec_drop (E : W64 → W64) (R R' c : List (W64)) (hR : R ≠ [])
    (hl : R.length = R'.length) :
    (cfbDec E R c).drop R.length = (cfbDec E R' c).drop R.length := by
  have hR' : R' ≠ [] := by intro e; rw [e] at hl; exact hR (List.eq_nil_of_length_eq_zero hl)
  apply List.ext_getElem?
  intro i
  rw [List.getElem?_drop, List.getElem?_drop, cfbDec_getElem? E R c hR,
    cfbDec_getElem? E R' c hR']
  have e : (R ++ c).getD (R.length + i) 0 = (R' ++ c).getD (R.length + i) 0 := by
    rw [List.getD_eq_getElem?_getD, List.getD_eq_getElem?_getD, List.getElem?_append_right (by omega),
      List.getElem?_append_right (by omega), hl]
  rw [e]

theorem unblocks64_drop (l : List (W64)) (n : Nat) :
    (unblocks64 l).drop (8 * n) = unblocks64 (l.drop n) := by
  induction n generalizing l with
  | zero => simp
  | succ n ih =>
    cases l with
    | nil => simp
    | cons x l =>
      rw [unblocks64_cons, List.drop_succ_cons, ← ih]
      have : 8 * (n + 1) = (bytesOf64 x).length + 8 * n := by simp; omega
      rw [this, List.drop_length_add_append]

theorem cfbDec_change (E : W64 → W64) (hE : ∀ x y, E x = E y → x = y)
    (R c : List (W64)) (hR : R ≠ []) (j : Nat) (x y : W64) (hx : c[j]? = some x)
    (hxy : x ≠ y) :
    (cfbDec E R (c.set j y))[j]? = ((cfbDec E R c)[j]?).map (· ^^^ (x ^^^ y)) ∧
    (j + R.length < c.length →
      (cfbDec E R (c.set j y))[j + R.length]? ≠ (cfbDec E R c)[j + R.length]?) ∧
    ∀ i, i ≠ j → i ≠ j + R.length → (cfbDec E R (c.set j y))[i]? = (cfbDec E R c)[i]? := by
  have hj : j < c.length := (List.getElem?_eq_some_iff.1 hx).1
  have hRl : 0 < R.length := List.length_pos_iff.2 hR
  have feed : ∀ i, i ≠ j + R.length → (R ++ c.set j y).getD i 0 = (R ++ c).getD i 0 := by
    intro i hi
    rw [List.getD_eq_getElem?_getD, List.getD_eq_getElem?_getD]
    by_cases h : i < R.length
    · rw [List.getElem?_append_left h, List.getElem?_append_left h]
    · rw [List.getElem?_append_right (by omega), List.getElem?_append_right (by omega),
        List.getElem?_set_ne (by omega)]
  refine ⟨?_, ?_, ?_⟩
  · rw [cfbDec_getElem? E R _ hR, cfbDec_getElem? E R _ hR, feed j (by omega),
      List.getElem?_set_self hj, hx]
    simp only [Option.map_some, Option.some.injEq]
    generalize E _ = e
    rw [BitVec.xor_comm x e, BitVec.xor_assoc, ← BitVec.xor_assoc x, BitVec.xor_self,
      BitVec.zero_xor, BitVec.xor_comm]
  · intro hlt
    rw [cfbDec_getElem? E R _ hR, cfbDec_getElem? E R _ hR, List.getElem?_set_ne (by omega)]
    obtain ⟨z, hz⟩ : ∃ z, c[j + R.length]? = some z := ⟨_, List.getElem?_eq_getElem hlt⟩
    rw [hz]
    simp only [Option.map_some, ne_eq, Option.some.injEq, BitVec.xor_right_inj]
    intro e
    have := hE _ _ e
    rw [List.getD_eq_getElem?_getD, List.getD_eq_getElem?_getD,
      List.getElem?_append_right (by omega), List.getElem?_append_right (by omega),
      Nat.add_sub_cancel, List.getElem?_set_self hj, hx] at this
    exact hxy this.symm
  · intro i h1 h2
    rw [cfbDec_getElem? E R _ hR, cfbDec_getElem? E R _ hR, feed i h2,
      List.getElem?_set_ne (by omega)]

end Goost
