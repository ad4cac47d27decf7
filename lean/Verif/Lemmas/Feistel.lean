import Verif.Lemmas.Bits
import Verif.Spec.Keys
/-
Helper lemmas: the round functions of the Magma blocks as pure functions, and their relation to
the Feistel network of the specification.
-/
namespace Goost.Magma
open Spec Spec.Magma

theorem _root_.Spec.Usable.computes {key : Key} (h : Usable key) : ∃ f, Computes key f := by
  refine ⟨fun i v => match key.transform v (i.val : Int) with
    | .ok r => r
    | _ => 0, ?_⟩
  intro v i
  obtain ⟨r, hr⟩ := h v i
  simp only [hr]

theorem _root_.Spec.Computes.usable {key : Key} {f : Fin 8 → W32 → W32} (h : Computes key f) : Usable key :=
  fun v i => ⟨_, h v i⟩

/-- Eight rounds in ascending order, on (low, high). -/
def fwd (f : Fin 8 → W32 → W32) (v : W32 × W32) : W32 × W32 :=
  let b := v.2 ^^^ f 0 v.1
  let a := v.1 ^^^ f 1 b
  let b := b ^^^ f 2 a
  let a := a ^^^ f 3 b
  let b := b ^^^ f 4 a
  let a := a ^^^ f 5 b
  let b := b ^^^ f 6 a
  let a := a ^^^ f 7 b
  (a, b)

/-- Eight rounds in descending order, on (low, high). -/
def bwd (f : Fin 8 → W32 → W32) (v : W32 × W32) : W32 × W32 :=
  let b := v.2 ^^^ f 7 v.1
  let a := v.1 ^^^ f 6 b
  let b := b ^^^ f 5 a
  let a := a ^^^ f 4 b
  let b := b ^^^ f 3 a
  let a := a ^^^ f 2 b
  let b := b ^^^ f 1 a
  let a := a ^^^ f 0 b
  (a, b)

theorem _root_.Spec.Computes.c0 {key : Key} {f} (h : Computes key f) (v : W32) :
    key.transform v 0 = .ok (f 0 v) := h v 0
theorem _root_.Spec.Computes.c1 {key : Key} {f} (h : Computes key f) (v : W32) :
    key.transform v 1 = .ok (f 1 v) := h v 1
theorem _root_.Spec.Computes.c2 {key : Key} {f} (h : Computes key f) (v : W32) :
    key.transform v 2 = .ok (f 2 v) := h v 2
theorem _root_.Spec.Computes.c3 {key : Key} {f} (h : Computes key f) (v : W32) :
    key.transform v 3 = .ok (f 3 v) := h v 3
theorem _root_.Spec.Computes.c4 {key : Key} {f} (h : Computes key f) (v : W32) :
    key.transform v 4 = .ok (f 4 v) := h v 4
theorem _root_.Spec.Computes.c5 {key : Key} {f} (h : Computes key f) (v : W32) :
    key.transform v 5 = .ok (f 5 v) := h v 5
theorem _root_.Spec.Computes.c6 {key : Key} {f} (h : Computes key f) (v : W32) :
    key.transform v 6 = .ok (f 6 v) := h v 6
theorem _root_.Spec.Computes.c7 {key : Key} {f} (h : Computes key f) (v : W32) :
    key.transform v 7 = .ok (f 7 v) := h v 7

theorem forwardRounds_eq {key : Key} {f} (h : Computes key f) (v : W32 × W32) :
    forwardRounds (some key) v = .ok (fwd f v) := by
  simp only [forwardRounds, callKey, h.c0, h.c1, h.c2, h.c3, h.c4, h.c5, h.c6, h.c7,
    Exec.ok_bind, Exec.pure_eq]
  rfl

theorem backwardRounds_eq {key : Key} {f} (h : Computes key f) (v : W32 × W32) :
    backwardRounds (some key) v = .ok (bwd f v) := by
  simp only [backwardRounds, callKey, h.c0, h.c1, h.c2, h.c3, h.c4, h.c5, h.c6, h.c7,
    Exec.ok_bind, Exec.pure_eq]
  rfl

/-- Encryption of a pair. -/
def encP (f : Fin 8 → W32 → W32) (v : W32 × W32) : W32 × W32 := (bwd f (fwd f (fwd f (fwd f v)))).swap

/-- Decryption of a pair. -/
def decP (f : Fin 8 → W32 → W32) (v : W32 × W32) : W32 × W32 := (bwd f (bwd f (bwd f (fwd f v)))).swap

theorem BlkEncrypted_value {key : Key} {f} (h : Computes key f) (m : Machine) {b : Blk}
    {v : W32 × W32} (hb : b.value m = .ok v) :
    (BlkEncrypted b (some key)).value m = .ok (encP f v) := by
  simp only [BlkEncrypted, Blk.value, hb, forwardRounds_eq h, backwardRounds_eq h, Exec.ok_bind,
    Exec.pure_eq]
  rfl

theorem BlkDecrypted_value {key : Key} {f} (h : Computes key f) (m : Machine) {b : Blk}
    {v : W32 × W32} (hb : b.value m = .ok v) :
    (BlkDecrypted b (some key)).value m = .ok (decP f v) := by
  simp only [BlkDecrypted, Blk.value, hb, forwardRounds_eq h, backwardRounds_eq h, Exec.ok_bind,
    Exec.pure_eq]
  rfl

theorem xor_cancel {n : Nat} (a b : BitVec n) : a ^^^ b ^^^ b = a := by
  rw [BitVec.xor_assoc, BitVec.xor_self, BitVec.xor_zero]

/-- Rounds of the specification, one more at the end. -/
theorem feistel_append (fs : List (W32 → W32)) (f : W32 → W32) (x : W32 × W32) :
    feistel (fs ++ [f]) x = Gstar f (rounds fs x) := by
  induction fs generalizing x with
  | nil => rfl
  | cons g gs ih =>
    have : g :: gs ++ [f] = g :: (gs ++ [f]) := rfl
    rw [this]
    cases h : gs ++ [f] with
    | nil => simp at h
    | cons a l =>
      rw [feistel.eq_3 _ _ _ (by simp), ← h, ih]
      rfl

theorem Gstar_eq (f : W32 → W32) (x : W32 × W32) :
    Gstar f x = (G f x).2 ++ (G f x).1 := rfl

theorem rounds_append (fs gs : List (W32 → W32)) (x : W32 × W32) :
    rounds (fs ++ gs) x = rounds gs (rounds fs x) := by
  simp [rounds, List.foldl_append]

/-- The Feistel network of the specification is its rounds with the halves exchanged at the
end. -/
theorem feistel_eq_rounds {fs : List (W32 → W32)} (h : fs ≠ []) (x : W32 × W32) :
    feistel fs x = (rounds fs x).2 ++ (rounds fs x).1 := by
  obtain ⟨gs, g, rfl⟩ : ∃ gs g, fs = gs ++ [g] :=
    ⟨fs.dropLast, fs.getLast h, (List.dropLast_concat_getLast h).symm⟩
  rw [feistel_append, rounds_append, Gstar_eq]
  rfl

theorem G_eq : G = fun f x => (x.2, x.1 ^^^ f x.2) := by
  funext f x
  rw [G, BitVec.xor_comm]

theorem fwd_eq_rounds (f : Fin 8 → W32 → W32) (v : W32 × W32) :
    (fwd f v).swap = rounds ([0, 1, 2, 3, 4, 5, 6, 7].map f) v.swap := by
  rw [rounds, G_eq]
  rfl

theorem bwd_eq_rounds (f : Fin 8 → W32 → W32) (v : W32 × W32) :
    (bwd f v).swap = rounds ([7, 6, 5, 4, 3, 2, 1, 0].map f) v.swap := by
  rw [rounds, G_eq]
  rfl

theorem schedule_split (f : Fin 8 → W32 → W32) : schedule.map f =
    [0, 1, 2, 3, 4, 5, 6, 7].map f ++ ([0, 1, 2, 3, 4, 5, 6, 7].map f ++
      ([0, 1, 2, 3, 4, 5, 6, 7].map f ++ [7, 6, 5, 4, 3, 2, 1, 0].map f)) := rfl

theorem schedule_reverse_split (f : Fin 8 → W32 → W32) : schedule.reverse.map f =
    [0, 1, 2, 3, 4, 5, 6, 7].map f ++ ([7, 6, 5, 4, 3, 2, 1, 0].map f ++
      ([7, 6, 5, 4, 3, 2, 1, 0].map f ++ [7, 6, 5, 4, 3, 2, 1, 0].map f)) := rfl

theorem join32_encP (f : Fin 8 → W32 → W32) (v : W32 × W32) :
    join32 (encP f v) = encF f (join32 v) := by
  rw [encF, feistel_eq_rounds (by simp [schedule]), schedule_split]
  simp only [rounds_append]
  rw [halves_join32]
  have : (v.2, v.1) = v.swap := rfl
  rw [this]
  simp only [← fwd_eq_rounds, ← bwd_eq_rounds]
  rfl

theorem join32_decP (f : Fin 8 → W32 → W32) (v : W32 × W32) :
    join32 (decP f v) = decF f (join32 v) := by
  rw [decF, feistel_eq_rounds (by simp [schedule]), schedule_reverse_split]
  simp only [rounds_append]
  rw [halves_join32]
  have : (v.2, v.1) = v.swap := rfl
  rw [this]
  simp only [← fwd_eq_rounds, ← bwd_eq_rounds]
  rfl

/-- One round is undone by the same round between exchanges. -/
theorem G_swap_G (f : W32 → W32) (x : W32 × W32) : (G f (G f x).swap).swap = x := by
  simp only [G, Prod.swap]
  refine Prod.ext ?_ rfl
  simp only
  rw [← BitVec.xor_assoc, BitVec.xor_self, BitVec.zero_xor]

theorem rounds_reverse (fs : List (W32 → W32)) (x : W32 × W32) :
    (rounds fs.reverse (rounds fs x).swap).swap = x := by
  induction fs generalizing x with
  | nil => rfl
  | cons f fs ih =>
    rw [List.reverse_cons, rounds_append]
    have h := ih (G f x)
    have e : rounds (f :: fs) x = rounds fs (G f x) := rfl
    rw [e]
    have h' : rounds fs.reverse (rounds fs (G f x)).swap = (G f x).swap := by
      rw [← Prod.swap_swap (rounds fs.reverse _), h]
    rw [h']
    exact G_swap_G f x

theorem decF_encF (f : Fin 8 → W32 → W32) (x : W64) : decF f (encF f x) = x := by
  have hs : schedule.map f ≠ [] := by simp [schedule]
  have hr : schedule.reverse.map f ≠ [] := by simp [schedule]
  obtain ⟨v, rfl⟩ : ∃ v, x = join32 v := ⟨_, (join32_surj x).symm⟩
  rw [decF, encF, feistel_eq_rounds hr, feistel_eq_rounds hs]
  have e : (rounds (schedule.map f) (halves (join32 v))).2 ++
      (rounds (schedule.map f) (halves (join32 v))).1 =
      join32 ((rounds (schedule.map f) (halves (join32 v)))) := rfl
  rw [e, halves_join32, halves_join32]
  have h := rounds_reverse (schedule.map f) (v.2, v.1)
  rw [← List.map_reverse] at h
  simp only [Prod.swap] at h
  have h2 := congrArg (fun p => join32 p.swap) h
  exact h2

theorem encF_decF (f : Fin 8 → W32 → W32) (x : W64) : encF f (decF f x) = x := by
  have hs : schedule.map f ≠ [] := by simp [schedule]
  have hr : schedule.reverse.map f ≠ [] := by simp [schedule]
  obtain ⟨v, rfl⟩ : ∃ v, x = join32 v := ⟨_, (join32_surj x).symm⟩
  rw [decF, encF, feistel_eq_rounds hr, feistel_eq_rounds hs]
  have e : (rounds (schedule.reverse.map f) (halves (join32 v))).2 ++
      (rounds (schedule.reverse.map f) (halves (join32 v))).1 =
      join32 ((rounds (schedule.reverse.map f) (halves (join32 v)))) := rfl
  rw [e, halves_join32, halves_join32]
  have h := rounds_reverse (schedule.reverse.map f) (v.2, v.1)
  rw [← List.map_reverse, List.reverse_reverse] at h
  simp only [Prod.swap] at h
  have h2 := congrArg (fun p => join32 p.swap) h
  exact h2

theorem decP_encP (f : Fin 8 → W32 → W32) (v : W32 × W32) : decP f (encP f v) = v :=
  join32_inj (by rw [join32_decP, join32_encP, decF_encF])

theorem encP_decP (f : Fin 8 → W32 → W32) (v : W32 × W32) : encP f (decP f v) = v :=
  join32_inj (by rw [join32_encP, join32_decP, encF_decF])

theorem encF_injective (f : Fin 8 → W32 → W32) {x y : W64} (h : encF f x = encF f y) : x = y := by
  rw [← decF_encF f x, h, decF_encF]

/-- The 16-round transformation. -/
theorem join32_macStep (f : Fin 8 → W32 → W32) (v : W32 × W32) :
    join32 (fwd f (fwd f v)) = macStep f (join32 v) := by
  have e : ([0, 1, 2, 3, 4, 5, 6, 7, 0, 1, 2, 3, 4, 5, 6, 7].map f) =
    [0, 1, 2, 3, 4, 5, 6, 7].map f ++ [0, 1, 2, 3, 4, 5, 6, 7].map f := rfl
  rw [macStep, halves_join32, e, rounds_append]
  have : (v.2, v.1) = v.swap := rfl
  rw [this, ← fwd_eq_rounds, ← fwd_eq_rounds]
  rfl

theorem rounds_injective (fs : List (W32 → W32)) {x y : W32 × W32}
    (h : rounds fs x = rounds fs y) : x = y := by
  rw [← rounds_reverse fs x, h, rounds_reverse]

theorem macStep_injective (f : Fin 8 → W32 → W32) {x y : W64} (h : macStep f x = macStep f y) :
    x = y := by
  obtain ⟨h1, h2⟩ := append_inj h
  have h3 := rounds_injective _ (Prod.ext h1 h2)
  simp only [halves, Prod.mk.injEq] at h3
  rw [← join32_surj x, ← join32_surj y, h3.1, h3.2]

/-- `EncryptionBase` is `BlkEncrypted`. -/
theorem EncryptionBase_agree (m : Machine) (key : Key) (x : W64) :
    EncryptionBase.transform key x =
      (BlkEncrypted (BlkRaw.ofU64 x) (some key)).value m >>= fun v => .ok (join32 v) := by
  have e1 : (x &&& 0xffffffff).setWidth 32 = x.extractLsb' 0 32 := by
    have hm : (0xffffffff : W64) = (0 : BitVec 32) ++ BitVec.allOnes 32 := by decide
    apply BitVec.eq_of_getLsbD_eq; intro i hi
    rw [BitVec.getLsbD_setWidth, BitVec.getLsbD_and, hm, BitVec.getLsbD_append]
    simp [hi, -BitVec.reduceAllOnes]
  have e2 : ((x >>> 32) &&& 0xffffffff).setWidth 32 = x.extractLsb' 32 32 := by
    have hm : (0xffffffff : W64) = (0 : BitVec 32) ++ BitVec.allOnes 32 := by decide
    apply BitVec.eq_of_getLsbD_eq; intro i hi
    rw [BitVec.getLsbD_setWidth, BitVec.getLsbD_and, hm, BitVec.getLsbD_append]
    simp [hi, -BitVec.reduceAllOnes]
  have e3 : ∀ a b : W32, ((a.setWidth 64) <<< 32) ||| b.setWidth 64 = join32 (b, a) := by
    intro a b
    apply BitVec.eq_of_getLsbD_eq; intro i hi
    simp only [join32, BitVec.getLsbD_or, BitVec.getLsbD_shiftLeft, BitVec.getLsbD_setWidth,
      BitVec.getLsbD_append, hi, decide_true, Bool.true_and]
    by_cases h : i < 32
    · simp [h]
    · have : i - 32 < 64 := by omega
      simp [h, this, BitVec.getLsbD_of_ge b i (by omega)]
  rw [ofU64_eq]
  unfold EncryptionBase.transform
  rw [e1, e2]
  simp only [e3, BlkEncrypted, Blk.value, forwardRounds, backwardRounds, callKey, Exec.ok_bind,
    bind_assoc, Exec.pure_eq]

theorem ofU64_value (m : Machine) (x : W64) :
    ∃ v, (BlkRaw.ofU64 x).value m = .ok v ∧ join32 v = x :=
  ⟨_, by rw [ofU64_eq]; rfl, join32_surj x⟩

/-- The encryption of a 64-bit number. -/
theorem BlkEncrypted_ofU64 {key : Key} {f} (h : Computes key f) (m : Machine) (x : W64) :
    ∃ e, (BlkEncrypted (BlkRaw.ofU64 x) (some key)).value m = .ok e ∧ join32 e = encF f x := by
  obtain ⟨v, hv, hx⟩ := ofU64_value m x
  exact ⟨_, BlkEncrypted_value h m hv, by rw [join32_encP, hx]⟩

theorem EncryptionBase_eq {key : Key} {f} (h : Computes key f) (x : W64) :
    EncryptionBase.transform key x = .ok (encF f x) := by
  obtain ⟨e, he, hx⟩ := BlkEncrypted_ofU64 h .iso x
  rw [EncryptionBase_agree .iso, he, Exec.ok_bind, hx]

end Goost.Magma
