import Verif.Lemmas.Endless
import Verif.Lemmas.KuzLive
/-
Lemmas for C119: the 128-bit cipher.
-/
namespace Goost
open Spec

theorem mapM_returns {α β : Type} {f : α → Exec β} (hf : ∀ a, f a ≠ .diverge) (l : List α) : l.mapM f ≠ .diverge := by
  induction l with
  | nil => simp [pure]
  | cons a l ih =>
    rw [List.mapM_cons]
    refine Exec.bind_returns (hf a) fun _ _ => Exec.bind_returns ih fun _ _ => by simp

namespace Kuz

theorem shl64_returns (x : W64) (n : Int) : shl64 x n ≠ .diverge := by
  simp only [shl64]; split <;> simp

theorem shr64_returns (x : W64) (n : Int) : shr64 x n ≠ .diverge := by
  simp only [shr64]; split <;> simp

theorem shiftValue_returns (v : W64 × W64) (n : Int) : shiftValue v n ≠ .diverge := by
  simp only [shiftValue]
  refine Exec.bind_returns (shl64_returns _ _) fun _ _ => ?_
  refine Exec.bind_returns (shl64_returns _ _) fun _ _ => ?_
  refine Exec.bind_returns (shr64_returns _ _) fun _ _ => ?_
  simp

theorem sValue_returns (v : W64 × W64) : sValue v ≠ .diverge := by
  simp only [sValue]
  refine Exec.bind_returns (mapM_returns (fun _ => vget_returns _ _) _) fun _ _ => ?_
  refine Exec.bind_returns (load64_returns _ _) fun _ _ => ?_
  refine Exec.bind_returns (load64_returns _ _) fun _ _ => ?_
  simp

theorem rValue_returns (m : Machine) (v : W64 × W64) : rValue m v ≠ .diverge := by
  simp only [rValue]
  split
  · refine Exec.bind_returns (load64_returns _ _) fun _ _ => ?_
    refine Exec.bind_returns (load64_returns _ _) fun _ _ => ?_
    simp
  · simp

theorem substr_returns (s : List Char) (p n : Nat) : substr s p n ≠ .diverge := by
  simp only [substr]; split <;> simp

theorem stoull16_returns (s : List Char) : stoull16 s ≠ .diverge := by
  simp only [stoull16]
  split
  · simp
  · split <;> simp

theorem str_returns (m : Machine) (s : List Char) : (Blk.str s).value m ≠ .diverge := by
  simp only [Blk.value]
  refine Exec.bind_returns (substr_returns _ _ _) fun _ _ => ?_
  refine Exec.bind_returns (stoull16_returns _) fun _ _ => ?_
  refine Exec.bind_returns (substr_returns _ _ _) fun _ _ => ?_
  refine Exec.bind_returns (stoull16_returns _) fun _ _ => ?_
  simp

theorem raw_returns (m : Machine) (a b : W64) : (Blk.raw a b).value m ≠ .diverge := by simp [Blk.value]

theorem xored_returns {m : Machine} {a b : Blk} (ha : a.value m ≠ .diverge) (hb : b.value m ≠ .diverge) :
    (Blk.xored a b).value m ≠ .diverge := by
  simp only [Blk.value]
  refine Exec.bind_returns ha fun _ _ => Exec.bind_returns hb fun _ _ => ?_
  simp

theorem blkS_returns {m : Machine} {b : Blk} (hb : b.value m ≠ .diverge) : (Blk.blkS b).value m ≠ .diverge := by
  simp only [Blk.value]
  exact Exec.bind_returns hb fun _ _ => sValue_returns _

theorem blkR_returns {m : Machine} {b : Blk} (hb : b.value m ≠ .diverge) : (Blk.blkR b).value m ≠ .diverge := by
  simp only [Blk.value]
  exact Exec.bind_returns hb fun _ _ => rValue_returns _ _

theorem incremented_returns {m : Machine} {b : Blk} (hb : b.value m ≠ .diverge) :
    (Blk.incremented b).value m ≠ .diverge := by
  simp only [Blk.value]
  exact Exec.bind_returns hb fun _ _ => by simp

theorem xoredIfHighBit_returns {m : Machine} {a b : Blk} (ha : a.value m ≠ .diverge) (hb : b.value m ≠ .diverge) :
    (Blk.xoredIfHighBit a b).value m ≠ .diverge := by
  simp only [Blk.value]
  refine Exec.bind_returns ha fun _ _ => ?_
  split
  · exact Exec.bind_returns ha fun _ _ => shiftValue_returns _ _
  · refine Exec.bind_returns ha fun _ _ => Exec.bind_returns (shiftValue_returns _ _) fun _ _ => ?_
    exact Exec.bind_returns hb fun _ _ => by simp

theorem transform_returns {m : Machine} (n : Nat) : ∀ {b : Blk}, b.value m ≠ .diverge →
    (BlkL.transform b n).value m ≠ .diverge := by
  induction n with
  | zero => intro b h; exact h
  | succ n ih => intro b h; exact ih (blkR_returns h)

theorem step_returns {m : Machine} {a b : Blk} (ha : a.value m ≠ .diverge) (hb : b.value m ≠ .diverge) :
    (Key.encryptStep a b).value m ≠ .diverge :=
  transform_returns 16 (blkS_returns (xored_returns ha hb))

theorem encrypted_returns {m : Machine} {key : Key} (hk : ReturningKuzKey m key) {b : Blk} (hb : b.value m ≠ .diverge) :
    (BlkEncrypted b key).value m ≠ .diverge := by
  have h := fun k hk' => hk k hk'
  simp only [List.mem_cons, List.not_mem_nil, or_false, forall_eq_or_imp, forall_eq] at h
  obtain ⟨h1, h2, h3, h4, h5, h6, h7, h8, h9, h10⟩ := h
  exact xored_returns (step_returns (step_returns (step_returns (step_returns (step_returns (step_returns (step_returns
    (step_returns (step_returns hb h1) h2) h3) h4) h5) h6) h7) h8) h9) h10

theorem generate_returns {m : Machine} (c2 : Int) (n : Nat) : ∀ (a b : Blk) (i : Int), (c2 + 1 - i).toNat ≤ n →
    a.value m ≠ .diverge → b.value m ≠ .diverge → (BlkIterKey.generate c2 a b i).value m ≠ .diverge := by
  induction n with
  | zero =>
    intro a b i h ha hb
    unfold BlkIterKey.generate
    rw [if_pos (by omega)]; exact hb
  | succ n ih =>
    intro a b i h ha hb
    unfold BlkIterKey.generate
    split
    · exact hb
    · refine ih _ _ _ (by omega) hb (xored_returns ha (step_returns hb ?_))
      exact transform_returns 16 (raw_returns _ _ _)

theorem iterKey_returns {m : Machine} {a b : Blk} (ha : a.value m ≠ .diverge) (hb : b.value m ≠ .diverge) (c1 c2 : Int) :
    (BlkIterKey a b c1 c2).value m ≠ .diverge :=
  generate_returns c2 _ _ _ _ (Nat.le_refl _) hb ha

theorem cached_returns {m : Machine} {b : Blk} (hb : b.value m ≠ .diverge) (i : Nat) :
    (Blk.cached i b).value m ≠ .diverge := by simpa only [Blk.value] using hb

theorem ofBlocks_returning {m : Machine} {high low : Blk} (hh : high.value m ≠ .diverge) (hl : low.value m ≠ .diverge)
    (base : Nat) : ReturningKuzKey m (Key.ofBlocks high low base) := by
  have h1 := cached_returns hh (base + 1)
  have h2 := cached_returns hl (base + 2)
  have h3 := cached_returns (iterKey_returns h1 h2 1 8) (base + 3)
  have h4 := cached_returns (iterKey_returns h1 h2 1 7) (base + 4)
  have h5 := cached_returns (iterKey_returns h3 h4 9 16) (base + 5)
  have h6 := cached_returns (iterKey_returns h3 h4 9 15) (base + 6)
  have h7 := cached_returns (iterKey_returns h5 h6 17 24) (base + 7)
  have h8 := cached_returns (iterKey_returns h5 h6 17 23) (base + 8)
  have h9 := cached_returns (iterKey_returns h7 h8 25 32) (base + 9)
  have h10 := cached_returns (iterKey_returns h7 h8 25 31) (base + 10)
  intro b hb
  simp only [Key.ofBlocks, List.mem_cons, List.not_mem_nil, or_false] at hb
  rcases hb with rfl | rfl | rfl | rfl | rfl | rfl | rfl | rfl | rfl | rfl <;> assumption

theorem ofString_returning {m : Machine} {text : List Char} {base : Nat} {key : Key}
    (h : Key.ofString text base = .ok key) : ReturningKuzKey m key := by
  simp only [Key.ofString, KeyDataString.high, KeyDataString.low] at h
  obtain ⟨hi, h1, h⟩ := Exec.bind_ok h
  obtain ⟨lo, h2, h⟩ := Exec.bind_ok h
  obtain ⟨a, -, h1⟩ := Exec.bind_ok h1
  obtain ⟨b, -, h2⟩ := Exec.bind_ok h2
  cases h1; cases h2; cases h
  exact ofBlocks_returning (str_returns _ _) (str_returns _ _) base

end Kuz

namespace Magma

theorem istreamHex32_returns (s : List Char) : istreamHex32 s ≠ .diverge := by
  simp only [istreamHex32]
  split
  · simp
  · split
    · simp
    · split <;> simp

theorem vgetI_returns {α : Type} (v : List α) (i : Int) : vgetI v i ≠ .diverge := by
  simp only [vgetI]; split
  · simp
  · exact vget_returns _ _

theorem keyDataString_returns (s : List Char) (i : Int) : KeyDataString s i ≠ .diverge := by
  simp only [KeyDataString]
  split
  · simp
  · split
    · simp
    · exact Exec.bind_returns (Kuz.substr_returns _ _ _) fun _ _ => istreamHex32_returns _

theorem cachedData_returns {kd : KeyData} (h : ∀ i, kd i ≠ .diverge) (i : Int) : KeyCachedData kd i ≠ .diverge := by
  simp only [KeyCachedData]
  iterate 8 refine Exec.bind_returns (h _) fun _ _ => ?_
  exact vgetI_returns _ _

theorem nibble_returns (p : Fin 8 → List Int) (v : W32) : SboxNibble p v ≠ .diverge := by
  have h : ∀ q n, SboxNibble.transformN v q n ≠ .diverge := by
    intro q n
    simp only [SboxNibble.transformN]
    exact Exec.bind_returns (vget_returns _ _) fun _ _ => by simp
  simp only [SboxNibble]
  iterate 8 refine Exec.bind_returns (h _ _) fun _ _ => ?_
  simp

theorem twisted_returns {s : Sbox} (h : ∀ v, s v ≠ .diverge) (v : W32) : SboxTwisted s v ≠ .diverge := by
  simp only [SboxTwisted]
  exact Exec.bind_returns (h _) fun _ _ => by simp

theorem sboxByte_returns (uz : List Byte) (v : W32) : SboxByte uz v ≠ .diverge := by
  have h : ∀ o i, SboxByte64Tab uz o i ≠ .diverge := by
    intro o i
    simp only [SboxByte64Tab]
    exact Exec.bind_returns (vget_returns _ _) fun _ _ => Exec.bind_returns (vget_returns _ _) fun _ _ => by simp
  simp only [SboxByte, SboxByte.ofTabs]
  iterate 4 refine Exec.bind_returns (h _ _) fun _ _ => ?_
  simp

theorem lazyKey_returning {kd : KeyData} (h : ∀ i, kd i ≠ .diverge) {s : Sbox} (hs : ∀ v, s v ≠ .diverge) :
    ReturningKey (LazyKey kd s) := by
  intro v i
  simp only [LazyKey]
  exact Exec.bind_returns (h _) fun _ _ => hs _

theorem r3412_returns (v : W32) : SboxR3412 v ≠ .diverge := twisted_returns (nibble_returns _) v

end Magma

namespace KuzLive
open Goost.Kuz
open Spec.Modes
variable {W ι : Type}

theorem deref_returns {α : Type} {p : Option ι} {f : ι → Io W α} (hf : ∀ i w, (f i w).1 ≠ .diverge) (w : W) :
    (deref p f w).1 ≠ .diverge := by
  cases p with
  | none => simp [deref, Io.lift]
  | some i => exact hf i w

/-- The loop goes on for ever over an endless stream. -/
theorem Imit.loop_endless {it : IterImpl W ι} (key : Key) (fuel : Nat) : ∀ (i : ι) (block : Blk) (w : W),
    EndlessStream it i w → (Imit.loop it key fuel (some i) block w).1 = .diverge := by
  induction fuel with
  | zero => intros; rfl
  | succ fuel ih =>
    intro i block w ⟨R, h0, hR⟩
    obtain ⟨v, j, w1, w2, w3, h1, h2, h3, h4⟩ := hR i w h0
    unfold Imit.loop
    simp only [deref]
    rw [bind_ok h1]
    simp only [Bool.not_false, if_true]
    rw [bind_ok h2, bind_ok h3]
    exact ih _ _ _ ⟨R, h4, hR⟩

/-- If the loop does not end with any budget, the stream is endless. -/
theorem Imit.endless_of_loop {it : IterImpl W ι} (hr : ReturningIter it) (key : Key) (p : Option ι) (block : Blk) (w : W)
    (h : ∀ fuel, (Imit.loop it key fuel p block w).1 = .diverge) : ∃ i, p = some i ∧ EndlessStream it i w := by
  have one : ∀ p block w, (∀ fuel, (Imit.loop it key fuel p block w).1 = .diverge) → ∃ i, p = some i ∧
      ∃ v q w1 w2 w3 block', it.last i w = (.ok false, w1) ∧ it.value i w1 = (.ok v, w2) ∧
        it.next i w2 = (.ok q, w3) ∧ ∀ fuel, (Imit.loop it key fuel q block' w3).1 = .diverge := by
    intro p block w h
    cases p with
    | none => have h1 := h 1; cases h1
    | some i =>
      refine ⟨i, rfl, ?_⟩
      have h0 := fun fuel => h (fuel + 1)
      unfold Imit.loop at h0
      simp only [deref, Io.bind_def, Io.bind] at h0
      rcases e1 : it.last i w with ⟨r, w1⟩
      simp only [e1] at h0
      cases r with
      | ok l =>
        cases l with
        | true => have := h0 0; cases this
        | false =>
          simp only [Bool.not_false, if_true, Io.bind] at h0
          rcases e2 : it.value i w1 with ⟨r, w2⟩
          simp only [e2] at h0
          cases r with
          | ok v =>
            simp only at h0
            rcases e3 : it.next i w2 with ⟨r, w3⟩
            simp only [e3] at h0
            cases r with
            | ok q => exact ⟨v, q, w1, w2, w3, _, rfl, e2, e3, h0⟩
            | throw e => have := h0 0; cases this
            | ub u => have := h0 0; cases this
            | diverge => exact absurd (congrArg Prod.fst e3) (hr i w2).2.2.2
          | throw e => have := h0 0; cases this
          | ub u => have := h0 0; cases this
          | diverge => exact absurd (congrArg Prod.fst e2) (hr i w1).1
      | throw e => have := h0 0; cases this
      | ub u => have := h0 0; cases this
      | diverge => exact absurd (congrArg Prod.fst e1) (hr i w).2.1
  obtain ⟨i, rfl, -⟩ := one p block w h
  refine ⟨i, rfl, fun i w => ∃ block, ∀ fuel, (Imit.loop it key fuel (some i) block w).1 = .diverge, ⟨block, h⟩, ?_⟩
  rintro i w ⟨block, h⟩
  obtain ⟨i', e, v, q, w1, w2, w3, block', h1, h2, h3, h4⟩ := one _ _ _ h
  cases e
  obtain ⟨j, rfl, -⟩ := one _ _ _ h4
  exact ⟨v, j, w1, w2, w3, h1, h2, h3, block', h4⟩

/-- A loop that has ended does so with the same outcome for every larger budget. -/
theorem Imit.loop_more (it : IterImpl W ι) (key : Key) (fuel : Nat) : ∀ (more : Nat) (p : Option ι) (block : Blk) (w : W),
    (Imit.loop it key fuel p block w).1 ≠ .diverge →
      Imit.loop it key (fuel + more) p block w = Imit.loop it key fuel p block w := by
  induction fuel with
  | zero => intro more p block w h; exact absurd rfl h
  | succ fuel ih =>
    intro more p block w h
    rw [Nat.add_right_comm]
    unfold Imit.loop at h ⊢
    simp only [Io.bind_def, Io.bind] at h ⊢
    rcases e1 : deref p it.last w with ⟨r, w1⟩
    simp only [e1] at h ⊢
    cases r with
    | ok l =>
      cases l with
      | true => rfl
      | false =>
        simp only [Bool.not_false, if_true, Io.bind] at h ⊢
        rcases e2 : deref p it.value w1 with ⟨r, w2⟩
        simp only [e2] at h ⊢
        cases r with
        | ok v =>
          simp only at h ⊢
          rcases e3 : deref p it.next w2 with ⟨r, w3⟩
          simp only [e3] at h ⊢
          cases r with
          | ok q => exact ih _ _ _ _ h
          | throw e => rfl
          | ub u => rfl
          | diverge => rfl
        | throw e => rfl
        | ub u => rfl
        | diverge => rfl
    | throw e => rfl
    | ub u => rfl
    | diverge => rfl

/-- The block that the loop gives can be evaluated. -/
theorem Imit.loop_block {m : Machine} {it : IterImpl W ι} {key : Key} (hk : ReturningKuzKey m key) (fuel : Nat) :
    ∀ (p q : Option ι) (block b : Blk) (w w' : W), block.value m ≠ .diverge →
      Imit.loop it key fuel p block w = (.ok (b, q), w') → b.value m ≠ .diverge := by
  induction fuel with
  | zero => intro p q block b w w' _ h; cases h
  | succ fuel ih =>
    intro p q block b w w' hb h
    unfold Imit.loop at h
    simp only [Io.bind_def, Io.bind] at h
    rcases e1 : deref p it.last w with ⟨r, w1⟩
    simp only [e1] at h
    cases r with
    | ok l =>
      cases l with
      | true => cases h; exact hb
      | false =>
        simp only [Bool.not_false, if_true, Io.bind] at h
        rcases e2 : deref p it.value w1 with ⟨r, w2⟩
        simp only [e2] at h
        cases r with
        | ok v =>
          simp only at h
          rcases e3 : deref p it.next w2 with ⟨r, w3⟩
          simp only [e3] at h
          cases r with
          | ok q => exact ih _ _ _ _ _ _ (encrypted_returns hk (xored_returns hb (raw_returns _ _ _))) h
          | throw e => cases h
          | ub u => cases h
          | diverge => cases h
        | throw e => cases h
        | ub u => cases h
        | diverge => cases h
    | throw e => cases h
    | ub u => cases h
    | diverge => cases h

/-- `value()` does not end exactly if the loop does not. -/
theorem Imit.value_returns_iff {m : Machine} {it : IterImpl W ι} (hr : ReturningIter it) {key : Key}
    (hk : ReturningKuzKey m key) (fuel : Nat) (p : Option ι) (w w0 : W) {start : Io W (Option ι)}
    (hs : start w0 = (.ok p, w)) : (Imit.value m it start fuel key w0).1 ≠ .diverge ↔
      (Imit.loop it key fuel p BlkRaw.zero w).1 ≠ .diverge := by
  unfold Imit.value
  rw [bind_ok hs]
  constructor
  · intro h he
    apply h
    rcases hl : Imit.loop it key fuel p BlkRaw.zero w with ⟨r, w1⟩
    rw [hl] at he
    simp only at he
    subst he
    simp only [Io.bind_def, Io.bind, hl]
  · intro h
    refine Io.bind_returns h fun x w1 hx => ?_
    obtain ⟨block, iter⟩ := x
    have hb := Imit.loop_block hk fuel _ _ _ _ _ _ (raw_returns _ _ _) hx
    simp only
    have hK : (Blk.xoredIfHighBit (BlkEncrypted BlkRaw.zero key) (BlkRaw.ofU64 0x87)).value m ≠ .diverge :=
      xoredIfHighBit_returns (encrypted_returns hk (raw_returns _ _ _)) (raw_returns _ _ _)
    refine Io.bind_returns (deref_returns (fun i w => (hr i w).1) _) fun v _ _ => ?_
    refine Io.bind_returns (deref_returns (fun i w => (hr i w).2.2.1) _) fun n _ _ => ?_
    have hx := xored_returns hb (raw_returns m v.1 v.2)
    split
    · exact Io.lift_returns (encrypted_returns hk (xored_returns hx hK))
    · exact Io.lift_returns (encrypted_returns hk (xored_returns hx (xoredIfHighBit_returns hK (raw_returns _ _ _))))

theorem Begins_ctr_from {m : Machine} {key : Key} {K : BitVec 256} (hk : Encrypts m key K) {it : IterImpl W ι}
    (iv : BitVec 64) (p : List (W64 × W64)) {i i' : ι} {w w' : W} (h : Begins it i w p i' w') (n : Nat) {c : Blk}
    (hc : HasValue m c (counter iv n)) : ∃ cs j, Begins (ItCTR.impl m it) ⟨some i, key, c⟩ w cs j w' ∧
      j.iter = some i' ∧ cs.map join64 = ctrFrom (Spec.Kuz.enc K) iv n (p.map join64) := by
  induction p generalizing i n c w with
  | nil =>
    obtain ⟨rfl, rfl⟩ := h
    exact ⟨[], _, ⟨rfl, rfl⟩, rfl, rfl⟩
  | cons v r ih =>
    obtain ⟨k, w1, w2, w3, h1, h2, h3, h4⟩ := h
    obtain ⟨x, hx, hj⟩ := ctr_value_live hk h2 hc
    obtain ⟨cs, j, hcs, hi, hm⟩ := ih h4 (n + 1) (c := .incremented c) (by rw [counter_succ]; exact hc.incremented)
    refine ⟨x :: cs, j, ⟨⟨some k, key, .incremented c⟩, w1, w2, w3, h1, hx, ?_, hcs⟩, hi, ?_⟩
    · simp only [ItCTR.impl, deref]
      rw [bind_ok h3]; rfl
    · rw [List.map_cons, hm, hj]; rfl

theorem Endless_ctr {m : Machine} {key : Key} {K : BitVec 256} (hk : Encrypts m key K) {it : IterImpl W ι}
    {i : ι} {w : W} (h : EndlessStream it i w) {c : Blk} {x : Spec.Kuz.Block} (hc : HasValue m c x) :
    EndlessStream (ItCTR.impl m it) ⟨some i, key, c⟩ w := by
  obtain ⟨R, h0, hR⟩ := h
  refine ⟨fun j w => ∃ i c x, j = ⟨some i, key, c⟩ ∧ R i w ∧ HasValue m c x, ⟨i, c, x, rfl, h0, hc⟩, ?_⟩
  rintro j w ⟨i, c, x, rfl, h, hc⟩
  obtain ⟨v, k, w1, w2, w3, h1, h2, h3, h4⟩ := hR i w h
  obtain ⟨r, hr, -⟩ := ctr_value_live hk h2 hc
  refine ⟨r, ⟨some k, key, .incremented c⟩, w1, w2, w3, h1, hr, ?_, k, _, _, rfl, h4, hc.incremented⟩
  simp only [ItCTR.impl, deref]
  rw [bind_ok h3]; rfl

end KuzLive
end Goost
