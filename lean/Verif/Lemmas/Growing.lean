import Verif.Lemmas.Reads
/-
CFBSources over a file that grows.
-/
namespace Goost
open Spec Spec.Magma Spec.Modes Goost.Magma

theorem drop_append_le {α : Type} (R c g : List α) (k : Nat) (hk : k ≤ c.length) :
    (R ++ (c ++ g)).drop k = (R ++ c).drop k ++ g := by
  rw [← List.append_assoc, List.drop_append_of_le_length (by rw [List.length_append]; omega)]

/-- Decryption can be continued from any point with the blocks that the register holds there. -/
theorem cfbDec_resume (E : W64 → W64) (R R' c : List W64) (k : Nat) (hR : R ≠ []) (hR' : R' ≠ [])
    (h : R' ++ c.drop k = (R ++ c).drop k) :
    cfbDec E R' (c.drop k) = (cfbDec E R c).drop k := by
  apply List.ext_getElem?
  intro i
  rw [cfbDec_getElem? E R' _ hR', List.getElem?_drop, List.getElem?_drop, cfbDec_getElem? E R c hR, h,
    List.getD_eq_getElem?_getD, List.getD_eq_getElem?_getD, List.getElem?_drop]

theorem registers_two (x y : W64) (L : List W64) (j : Nat) (hj : j ≤ L.length) :
    [([x, y] ++ L.take j).getD j 0, ([x, y] ++ L.take j).getD (j + 1) 0] ++ L.drop j =
      ([x, y] ++ L).drop j := by
  induction j generalizing x y L with
  | zero => simp
  | succ j ih =>
    match L, hj with
    | l :: L, hj => exact ih y l L (by simpa using hj)

theorem registers_one (x : W64) (L : List W64) (j : Nat) (hj : j ≤ L.length) :
    [([x] ++ L.take j).getD j 0] ++ L.drop j = ([x] ++ L).drop j := by
  induction j generalizing x L with
  | zero => simp
  | succ j ih =>
    match L, hj with
    | l :: L, hj => exact ih l L (by simpa using hj)

theorem fileRead_blocks (c : List W64) (k j : Nat) (h : k + j ≤ c.length) :
    ReadsBlocks fileRead (8 * k) (unblocks64 c) ((c.drop k).take j) (8 * (k + j)) (unblocks64 c) := by
  induction j generalizing k with
  | zero => simp [ReadsBlocks]
  | succ j ih =>
    have hk : k < c.length := by omega
    have e : c.drop k = c[k] :: c.drop (k + 1) := List.drop_eq_getElem_cons hk
    rw [e, List.take_succ_cons]
    have h8 : (bytesOf64 c[k]).length = 8 := by simp
    refine ⟨8 * (k + 1), unblocks64 c, ?_, ?_⟩
    · simp only [fileRead]
      rw [unblocks64_drop, e, unblocks64_cons, List.take_left' h8, h8]
      rfl
    · have := ih (k + 1) (by omega)
      rwa [show k + 1 + j = k + (j + 1) by omega] at this

theorem fileRead_end (c : List W64) :
    fileRead (8 * c.length) 8 (unblocks64 c) = (.ok ([], 8 * c.length), unblocks64 c) := by
  simp only [fileRead]
  rw [unblocks64_drop, List.drop_length]
  rfl

/-- The bytes that are decrypted next. -/
theorem next_bytes (P : List W64) (n k j : Nat) (hn : n ≤ 8 * k) :
    ((unblocks64 P).drop n).take (8 * k - n) ++ unblocks64 ((P.drop k).take j) =
      ((unblocks64 P).drop n).take (8 * (k + j) - n) := by
  rw [unblocks64_take, ← unblocks64_drop]
  have e1 : 8 * (k + j) - n = (8 * k - n) + 8 * j := by omega
  have e2 : (unblocks64 P).drop (8 * k) = ((unblocks64 P).drop n).drop (8 * k - n) := by
    rw [List.drop_drop]
    congr 1
    omega
  rw [e1, e2, List.take_add]

/-! ### magma::CFBSource -/

/-- The state of a `CFBSource` over a file of the blocks `c` after it has delivered `n` bytes. -/
def CFBSourceAt (key : Key) (f : Fin 8 → W32 → W32) (ivl ivr : W64) (c : List W64) (n : Nat)
    (t : CFBSource Nat) : Prop :=
  n ≤ 8 * c.length ∧ t.key = key ∧ t.source = 8 * ((n + 7) / 8) ∧
  [t.ivl, t.ivr] ++ c.drop ((n + 7) / 8) = ([ivl, ivr] ++ c).drop ((n + 7) / 8) ∧
  t.plain = ((unblocks64 (cfbDec (encF f) [ivl, ivr] c)).drop n).take (8 * ((n + 7) / 8) - n)

theorem CFBSourceAt_new (key : Key) (f : Fin 8 → W32 → W32) (ivl ivr : W64) :
    CFBSourceAt key f ivl ivr [] 0 (CFBSource.new 0 key ivl ivr) := by
  refine ⟨by simp, rfl, rfl, by simp [CFBSource.new], by simp [CFBSource.new]⟩

theorem CFBSourceAt_grow {key : Key} {f : Fin 8 → W32 → W32} {ivl ivr : W64} {c : List W64} {n : Nat}
    {t : CFBSource Nat} (h : CFBSourceAt key f ivl ivr c n t) (g : List W64) :
    CFBSourceAt key f ivl ivr (c ++ g) n t := by
  obtain ⟨h1, h2, h3, h4, h5⟩ := h
  have hk : (n + 7) / 8 ≤ c.length := by omega
  refine ⟨by rw [List.length_append]; omega, h2, h3, ?_, ?_⟩
  · rw [drop_append_le _ _ _ _ hk, List.drop_append_of_le_length hk, ← List.append_assoc, h4]
  · have e : cfbDec (encF f) [ivl, ivr] c = (cfbDec (encF f) [ivl, ivr] (c ++ g)).take c.length := by
      rw [← cfbDec_take]; simp
    rw [h5, e, unblocks64_take, List.drop_take, List.take_take, Nat.min_eq_left (by omega)]

theorem CFBSourceAt_read {key : Key} {f : Fin 8 → W32 → W32} (hc : Computes key f)
    (hl : key.isLazy = true) (m : Machine) {ivl ivr : W64} {c : List W64} {n : Nat}
    {t : CFBSource Nat} (h : CFBSourceAt key f ivl ivr c n t) (size : Nat) :
    ∃ t', CFBSource.read m fileRead t size (unblocks64 c) =
        (.ok (((unblocks64 (cfbDec (encF f) [ivl, ivr] c)).drop n).take size, t'), unblocks64 c) ∧
      CFBSourceAt key f ivl ivr c (n + min size (8 * c.length - n)) t' := by
  obtain ⟨h1, h2, h3, h4, h5⟩ := h
  subst h2
  generalize hP : cfbDec (encF f) [ivl, ivr] c = P at *
  have hPl : P.length = c.length := by rw [← hP, cfbDec_length _ _ _ (by simp)]
  have hUl : (unblocks64 P).length = 8 * c.length := by rw [unblocks64_length, hPl]
  generalize hk : (n + 7) / 8 = k at *
  have hpl : t.plain.length = 8 * k - n := by
    rw [h5, List.length_take, List.length_drop, hUl]; omega
  have hdec : ∀ j, cfbDec (encF f) [t.ivl, t.ivr] ((c.drop k).take j) = (P.drop k).take j := by
    intro j
    rw [cfbDec_take, cfbDec_resume (encF f) [ivl, ivr] [t.ivl, t.ivr] c k (by simp) (by simp) h4, hP]
  by_cases hs : n + size ≤ 8 * c.length
  · generalize hj : (n + size + 7) / 8 - k = j
    have hr := fileRead_blocks c k j (by omega)
    rw [← h3] at hr
    have hdl : ((c.drop k).take j).length = j := by
      rw [List.length_take, List.length_drop]; omega
    have := (CFBSource_read_fetch m fileRead t hc hl size _ _ _ _ hr (by
      intro hne
      have := List.length_pos_iff.2 hne
      omega)).1 (by omega)
    rw [hdec, hdl, h5, next_bytes P n k j (by omega), List.take_take, Nat.min_eq_left (by omega)] at this
    refine ⟨_, this, ?_⟩
    rw [Nat.min_eq_left (by omega)]
    have hk' : (n + size + 7) / 8 = k + j := by omega
    refine ⟨by omega, rfl, by rw [hk'], ?_, ?_⟩
    · rw [hk']
      have := registers_two t.ivl t.ivr (c.drop k) j (by rw [List.length_drop]; omega)
      rw [List.drop_drop, h4, List.drop_drop] at this
      exact this
    · rw [hk', hP]
      simp only
      rw [List.drop_take, List.drop_drop]
      congr 1
      omega
  · generalize hj : c.length - k = j
    have hr := fileRead_blocks c k j (by omega)
    rw [← h3] at hr
    have hdl : ((c.drop k).take j).length = j := by
      rw [List.length_take, List.length_drop]; omega
    have hkj : k + j = c.length := by omega
    have := (CFBSource_read_fetch m fileRead t hc hl size _ _ _ _ hr (by
      intro hne
      have := List.length_pos_iff.2 hne
      omega)).2.1 (by omega) _ _ (by rw [hkj]; exact fileRead_end c)
    rw [hdec, hdl, h5, next_bytes P n k j (by omega), List.take_of_length_le (by
      rw [List.length_drop, hUl]; omega)] at this
    have htk : ((unblocks64 P).drop n).take size = (unblocks64 P).drop n :=
      List.take_of_length_le (by rw [List.length_drop, hUl]; omega)
    refine ⟨_, htk.symm ▸ this, ?_⟩
    rw [Nat.min_eq_right (by omega)]
    have hk' : (n + (8 * c.length - n) + 7) / 8 = c.length := by omega
    refine ⟨by omega, rfl, by rw [hk'], ?_, ?_⟩
    · rw [hk']
      have := registers_two t.ivl t.ivr (c.drop k) j (by rw [List.length_drop]; omega)
      rw [List.drop_drop, h4, List.drop_drop, hkj] at this
      exact this
    · rw [hk', hP]
      simp only
      rw [List.drop_of_length_le (by rw [hUl]; omega), List.take_nil]

/-! ### gost89::CFBSource -/

/-- The state of a `gost89::CFBSource` over a file of the blocks `c` after it has delivered `n` bytes. -/
def gost89_CFBSourceAt (key : Key) (f : Fin 8 → W32 → W32) (iv : W64) (c : List W64) (n : Nat)
    (t : Gost89.CFBSource Nat) : Prop :=
  n ≤ 8 * c.length ∧ t.key = key ∧ t.source = 8 * ((n + 7) / 8) ∧
  [t.iv] ++ c.drop ((n + 7) / 8) = ([iv] ++ c).drop ((n + 7) / 8) ∧
  t.plain = ((unblocks64 (cfbDec (encF f) [iv] c)).drop n).take (8 * ((n + 7) / 8) - n)

theorem gost89_CFBSourceAt_new (key : Key) (f : Fin 8 → W32 → W32) (iv : W64) :
    gost89_CFBSourceAt key f iv [] 0 (Gost89.CFBSource.new 0 key iv) := by
  refine ⟨by simp, rfl, rfl, by simp [Gost89.CFBSource.new], by simp [Gost89.CFBSource.new]⟩

theorem gost89_CFBSourceAt_grow {key : Key} {f : Fin 8 → W32 → W32} {iv : W64} {c : List W64} {n : Nat}
    {t : Gost89.CFBSource Nat} (h : gost89_CFBSourceAt key f iv c n t) (g : List W64) :
    gost89_CFBSourceAt key f iv (c ++ g) n t := by
  obtain ⟨h1, h2, h3, h4, h5⟩ := h
  have hk : (n + 7) / 8 ≤ c.length := by omega
  refine ⟨by rw [List.length_append]; omega, h2, h3, ?_, ?_⟩
  · rw [drop_append_le _ _ _ _ hk, List.drop_append_of_le_length hk, ← List.append_assoc, h4]
  · have e : cfbDec (encF f) [iv] c = (cfbDec (encF f) [iv] (c ++ g)).take c.length := by
      rw [← cfbDec_take]; simp
    rw [h5, e, unblocks64_take, List.drop_take, List.take_take, Nat.min_eq_left (by omega)]

theorem gost89_CFBSourceAt_read {key : Key} {f : Fin 8 → W32 → W32} (hc : Computes key f)
    (hl : key.isLazy = true) (m : Machine) {iv : W64} {c : List W64} {n : Nat}
    {t : Gost89.CFBSource Nat} (h : gost89_CFBSourceAt key f iv c n t) (size : Nat) :
    ∃ t', Gost89.CFBSource.read m fileRead t size (unblocks64 c) =
        (.ok (((unblocks64 (cfbDec (encF f) [iv] c)).drop n).take size, t'), unblocks64 c) ∧
      gost89_CFBSourceAt key f iv c (n + min size (8 * c.length - n)) t' := by
  obtain ⟨h1, h2, h3, h4, h5⟩ := h
  subst h2
  generalize hP : cfbDec (encF f) [iv] c = P at *
  have hPl : P.length = c.length := by rw [← hP, cfbDec_length _ _ _ (by simp)]
  have hUl : (unblocks64 P).length = 8 * c.length := by rw [unblocks64_length, hPl]
  generalize hk : (n + 7) / 8 = k at *
  have hpl : t.plain.length = 8 * k - n := by
    rw [h5, List.length_take, List.length_drop, hUl]; omega
  have hdec : ∀ j, cfbDec (encF f) [t.iv] ((c.drop k).take j) = (P.drop k).take j := by
    intro j
    rw [cfbDec_take, cfbDec_resume (encF f) [iv] [t.iv] c k (by simp) (by simp) h4, hP]
  by_cases hs : n + size ≤ 8 * c.length
  · generalize hj : (n + size + 7) / 8 - k = j
    have hr := fileRead_blocks c k j (by omega)
    rw [← h3] at hr
    have hdl : ((c.drop k).take j).length = j := by
      rw [List.length_take, List.length_drop]; omega
    have := (gost89_CFBSource_read_fetch m fileRead t hc hl size _ _ _ _ hr (by
      intro hne
      have := List.length_pos_iff.2 hne
      omega)).1 (by omega)
    rw [hdec, hdl, h5, next_bytes P n k j (by omega), List.take_take, Nat.min_eq_left (by omega)] at this
    refine ⟨_, this, ?_⟩
    rw [Nat.min_eq_left (by omega)]
    have hk' : (n + size + 7) / 8 = k + j := by omega
    refine ⟨by omega, rfl, by rw [hk'], ?_, ?_⟩
    · rw [hk']
      have := registers_one t.iv (c.drop k) j (by rw [List.length_drop]; omega)
      rw [List.drop_drop, h4, List.drop_drop] at this
      exact this
    · rw [hk', hP]
      simp only
      rw [List.drop_take, List.drop_drop]
      congr 1
      omega
  · generalize hj : c.length - k = j
    have hr := fileRead_blocks c k j (by omega)
    rw [← h3] at hr
    have hdl : ((c.drop k).take j).length = j := by
      rw [List.length_take, List.length_drop]; omega
    have hkj : k + j = c.length := by omega
    have := (gost89_CFBSource_read_fetch m fileRead t hc hl size _ _ _ _ hr (by
      intro hne
      have := List.length_pos_iff.2 hne
      omega)).2.1 (by omega) _ _ (by rw [hkj]; exact fileRead_end c)
    rw [hdec, hdl, h5, next_bytes P n k j (by omega), List.take_of_length_le (by
      rw [List.length_drop, hUl]; omega)] at this
    have htk : ((unblocks64 P).drop n).take size = (unblocks64 P).drop n :=
      List.take_of_length_le (by rw [List.length_drop, hUl]; omega)
    refine ⟨_, htk.symm ▸ this, ?_⟩
    rw [Nat.min_eq_right (by omega)]
    have hk' : (n + (8 * c.length - n) + 7) / 8 = c.length := by omega
    refine ⟨by omega, rfl, by rw [hk'], ?_, ?_⟩
    · rw [hk']
      have := registers_one t.iv (c.drop k) j (by rw [List.length_drop]; omega)
      rw [List.drop_drop, h4, List.drop_drop, hkj] at this
      exact this
    · rw [hk', hP]
      simp only
      rw [List.drop_of_length_le (by rw [hUl]; omega), List.take_nil]

end Goost
