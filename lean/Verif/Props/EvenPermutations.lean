import Verif.Lemmas.EvenPermutations
/-
C133: encryption is an even permutation of the blocks, so that all but two ciphertexts determine the last two.
-/
namespace Goost.Props
open Spec Goost.EvenPermutations

/-- A key defined by the user, for examples. -/
def userKey (lazy : Bool) : Magma.Key := ⟨lazy, fun v i => .ok (v * v + BitVec.ofInt 32 i)⟩

/-- For every key object of the 64-bit cipher that answers (also one defined by the user): `BlkEncrypted`, `BlkDecrypted`, and the eight rounds
of `BlkForwarded` and `BlkBackwarded`, are even permutations of the blocks. -/
theorem C133_magma (m : Machine) {key : Magma.Key} (hk : Usable key) :
    ∃ enc dec up down : BitVec 32 × BitVec 32 → BitVec 32 × BitVec 32, IsEven enc ∧ IsEven dec ∧ IsEven up ∧ IsEven down ∧
      ∀ (b : Magma.Blk) (v : BitVec 32 × BitVec 32), b.value m = .ok v →
        (Magma.BlkEncrypted b (some key)).value m = .ok (enc v) ∧ (Magma.BlkDecrypted b (some key)).value m = .ok (dec v) ∧
        (Magma.Blk.forwarded b (some key)).value m = .ok (up v) ∧ (Magma.Blk.backwarded b (some key)).value m = .ok (down v) := by
  obtain ⟨f, hf⟩ := hk.computes
  refine ⟨Magma.encP f, Magma.decP f, Magma.fwd f, Magma.bwd f, (ev_encP f).isEven, (ev_decP f).isEven, (ev_fwd f).isEven, (ev_bwd f).isEven, ?_⟩
  intro b v hb
  refine ⟨Magma.BlkEncrypted_value hf m hb, Magma.BlkDecrypted_value hf m hb, ?_, ?_⟩
  · simp only [Magma.Blk.value, hb, Exec.ok_bind, Magma.forwardRounds_eq hf]
  · simp only [Magma.Blk.value, hb, Exec.ok_bind, Magma.backwardRounds_eq hf]

example := C133_magma .x86 (key := userKey true) fun _ _ => ⟨_, rfl⟩

/-- The same for `EncryptionBase`. -/
theorem C133_base {key : Magma.Key} (hk : Usable key) :
    ∃ F : BitVec 64 → BitVec 64, IsEven F ∧ ∀ x, Magma.EncryptionBase.transform key x = .ok (F x) := by
  obtain ⟨f, hf⟩ := hk.computes
  let words : W32 × W32 ≃ BitVec 64 :=
    { toFun := join32, invFun := fun x => (x.extractLsb' 0 32, x.extractLsb' 32 32),
      left_inv := fun v => join32_inj (join32_surj (join32 v)), right_inv := join32_surj }
  refine ⟨fun x => words (Magma.encP f (words.symm x)), ((ev_encP f).transport words).isEven, fun x => ?_⟩
  rw [Magma.EncryptionBase_eq hf]
  show _ = Exec.ok (join32 _)
  rw [Magma.join32_encP]
  exact congrArg (fun y => Exec.ok (Spec.Magma.encF f y)) (words.right_inv x).symm

example := C133_base (key := userKey false) fun _ _ => ⟨_, rfl⟩

/-- For every key of the 128-bit cipher: `BlkEncrypted` is an even permutation of the blocks. -/
theorem C133_kuznyechik (m : Machine) (hm : m.unalignedLoad = true) {high low : Kuz.Blk} {h l : BitVec 64 × BitVec 64}
    (hh : high.value m = .ok h) (hl : low.value m = .ok l) :
    ∃ F : BitVec 64 × BitVec 64 → BitVec 64 × BitVec 64, IsEven F ∧ ∀ (b : Kuz.Blk) (v : BitVec 64 × BitVec 64), b.value m = .ok v →
      (Kuz.BlkEncrypted b (Kuz.Key.ofBlocks high low)).value m = .ok (F v) := by
  refine ⟨fun v => pairs (Spec.Kuz.enc (join64 h ++ join64 l) (join64 v)), (ev_enc _).isEven, fun b v hb => ?_⟩
  obtain ⟨r, e1, e2⟩ := encrypt_value hm ⟨h, hh, rfl⟩ ⟨l, hl, rfl⟩ 0 (b := b) ⟨v, hb, rfl⟩
  show _ = Exec.ok (pairs (Spec.Kuz.enc (join64 h ++ join64 l) (join64 v)))
  rw [← e2]
  exact e1.trans (congrArg Exec.ok (pairs.right_inv r).symm)

example := C133_kuznyechik .x86 rfl (high := .raw 1 2) (low := .str (List.replicate 32 '0')) (h := (1, 2)) (l := (0, 0)) rfl
  (by decide +kernel)

/-- Two keys of the 64-bit cipher under which all blocks but two have the same ciphertexts give these two the same as well. -/
theorem C133_magma_last_two (m : Machine) {key key' : Magma.Key} (hk : Usable key) (hk' : Usable key') (a b : BitVec 32 × BitVec 32)
    (h : ∀ v, v ≠ a → v ≠ b → (Magma.BlkEncrypted (.raw v.1 v.2) (some key)).value m = (Magma.BlkEncrypted (.raw v.1 v.2) (some key')).value m)
    (v : BitVec 32 × BitVec 32) :
    (Magma.BlkEncrypted (.raw v.1 v.2) (some key)).value m = (Magma.BlkEncrypted (.raw v.1 v.2) (some key')).value m := by
  obtain ⟨f, hf⟩ := hk.computes
  obtain ⟨f', hf'⟩ := hk'.computes
  have e : ∀ v : W32 × W32, (Magma.BlkEncrypted (.raw v.1 v.2) (some key)).value m = .ok (Magma.encP f v) :=
    fun v => Magma.BlkEncrypted_value hf m rfl
  have e' : ∀ v : W32 × W32, (Magma.BlkEncrypted (.raw v.1 v.2) (some key')).value m = .ok (Magma.encP f' v) :=
    fun v => Magma.BlkEncrypted_value hf' m rfl
  rw [e, e', Ev.agree (ev_encP f) (ev_encP f') (a := a) (b := b) fun v ha hb => ?_]
  have := h v ha hb
  rw [e, e'] at this
  exact Exec.ok.inj this

example := C133_magma_last_two .x86 (key := userKey true) (key' := userKey false) (fun _ _ => ⟨_, rfl⟩) (fun _ _ => ⟨_, rfl⟩) (1, 2)
  (3, 4) fun _ _ _ => rfl

/-- Two keys of the 128-bit cipher under which all blocks but two have the same ciphertexts give these two the same as well. -/
theorem C133_kuznyechik_last_two (m : Machine) (hm : m.unalignedLoad = true) {high low high' low' : Kuz.Blk} {k l k' l' : BitVec 64 × BitVec 64}
    (hh : high.value m = .ok k) (hl : low.value m = .ok l) (hh' : high'.value m = .ok k') (hl' : low'.value m = .ok l')
    (a b : BitVec 64 × BitVec 64)
    (h : ∀ v, v ≠ a → v ≠ b → (Kuz.BlkEncrypted (.raw v.1 v.2) (Kuz.Key.ofBlocks high low)).value m =
      (Kuz.BlkEncrypted (.raw v.1 v.2) (Kuz.Key.ofBlocks high' low')).value m) (v : BitVec 64 × BitVec 64) :
    (Kuz.BlkEncrypted (.raw v.1 v.2) (Kuz.Key.ofBlocks high low)).value m =
      (Kuz.BlkEncrypted (.raw v.1 v.2) (Kuz.Key.ofBlocks high' low')).value m := by
  have e : ∀ {high low : Kuz.Blk} {k l : BitVec 64 × BitVec 64}, high.value m = .ok k → low.value m = .ok l → ∀ v : W64 × W64,
      (Kuz.BlkEncrypted (.raw v.1 v.2) (Kuz.Key.ofBlocks high low)).value m =
        .ok (pairs (Spec.Kuz.enc (join64 k ++ join64 l) (join64 v))) := by
    intro high low k l hh hl v
    obtain ⟨r, e1, e2⟩ := encrypt_value hm ⟨k, hh, rfl⟩ ⟨l, hl, rfl⟩ 0 (b := .raw v.1 v.2) ⟨v, rfl, rfl⟩
    rw [← e2]
    exact e1.trans (congrArg Exec.ok (pairs.right_inv r).symm)
  rw [e hh hl, e hh' hl']
  refine congrArg Exec.ok (Ev.agree (ev_enc _) (ev_enc _) (a := a) (b := b) (fun v ha hb => ?_) v)
  have := h v ha hb
  rw [e hh hl, e hh' hl'] at this
  exact Exec.ok.inj this

/-- Two keys whose halves are blocks of different kinds with the same values. -/
example := C133_kuznyechik_last_two .x86 rfl (high := .raw 1 2) (low := .raw 3 4) (high' := .xored (.raw 0 2) (.raw 1 0)) (low' := .raw 3 4)
  (k := (1, 2)) (l := (3, 4)) (k' := (1, 2)) (l' := (3, 4)) rfl rfl rfl rfl (5, 6) (7, 8) fun v _ _ => by
    obtain ⟨r, e1, e2⟩ := encrypt_value (m := .x86) rfl (high := .raw 1 2) (low := .raw 3 4) ⟨(1, 2), rfl, rfl⟩ ⟨(3, 4), rfl, rfl⟩ 0
      (b := .raw v.1 v.2) ⟨v, rfl, rfl⟩
    obtain ⟨r', e1', e2'⟩ := encrypt_value (m := .x86) rfl (high := .xored (.raw 0 2) (.raw 1 0)) (low := .raw 3 4) ⟨(1, 2), rfl, rfl⟩
      ⟨(3, 4), rfl, rfl⟩ 0 (b := .raw v.1 v.2) ⟨v, rfl, rfl⟩
    exact e1.trans ((congrArg Exec.ok (pairs.symm.injective (e2.trans e2'.symm))).trans e1'.symm)

/-- No key of the 64-bit cipher exchanges two blocks and leaves all others as they are. -/
theorem C133_magma_no_exchange (m : Machine) {key : Magma.Key} (hk : Usable key) {a b : BitVec 32 × BitVec 32} (hab : a ≠ b) :
    ¬ ∀ v : BitVec 32 × BitVec 32, (Magma.BlkEncrypted (.raw v.1 v.2) (some key)).value m = .ok (exchange a b v) := by
  intro h
  obtain ⟨f, hf⟩ := hk.computes
  exact exchange_not_even hab (ev_encP f) fun v =>
    Exec.ok.inj ((Magma.BlkEncrypted_value hf m (b := .raw v.1 v.2) rfl).symm.trans (h v))

example := C133_magma_no_exchange .x86 (key := userKey true) (fun _ _ => ⟨_, rfl⟩) (a := (1, 2)) (b := (3, 4)) (by decide)

/-- No key of the 128-bit cipher exchanges two blocks and leaves all others as they are. -/
theorem C133_kuznyechik_no_exchange (m : Machine) (hm : m.unalignedLoad = true) {high low : Kuz.Blk} {h l : BitVec 64 × BitVec 64}
    (hh : high.value m = .ok h) (hl : low.value m = .ok l) {a b : BitVec 64 × BitVec 64} (hab : a ≠ b) :
    ¬ ∀ v : BitVec 64 × BitVec 64, (Kuz.BlkEncrypted (.raw v.1 v.2) (Kuz.Key.ofBlocks high low)).value m = .ok (exchange a b v) := by
  intro e
  obtain ⟨F, hF, hv⟩ := C133_kuznyechik m hm hh hl
  exact exchange_not_even hab (ev_of_isEven hF) fun v => Exec.ok.inj ((hv (.raw v.1 v.2) v rfl).symm.trans (e v))

/-- `IsEven` says something: an exchange is not even, and two are. -/
example : ¬ IsEven (exchange (1 : BitVec 8) 2) ∧ IsEven fun x : BitVec 8 => exchange 1 2 (exchange 3 4 x) :=
  ⟨fun h => exchange_not_even (by decide) (ev_of_isEven h) fun _ => rfl,
    [(1, 2), (3, 4)], by simp, rfl, fun _ => rfl⟩

example : Usable (userKey true) ∧ Usable (userKey false) ∧ userKey true ≠ userKey false ∧
    (∀ v : BitVec 32 × BitVec 32, (Magma.BlkEncrypted (.raw v.1 v.2) (some (userKey true))).value .x86 =
      (Magma.BlkEncrypted (.raw v.1 v.2) (some (userKey false))).value .x86) ∧
    (Magma.BlkEncrypted (.raw 1 2) (some (userKey true))).value .x86 ≠ .ok (1, 2) := by
  refine ⟨fun _ _ => ⟨_, rfl⟩, fun _ _ => ⟨_, rfl⟩, fun h => by simpa [userKey] using congrArg Magma.Key.isLazy h, fun _ => rfl, ?_⟩
  decide +kernel

example : (Kuz.Blk.raw 1 2).value .x86 = .ok (1, 2) ∧ (Kuz.Blk.str (List.replicate 32 '0')).value .x86 = .ok (0, 0) ∧
    Machine.x86.unalignedLoad = true ∧ ((0, 0) : BitVec 64 × BitVec 64) ≠ (1, 2) := by decide +kernel

end Goost.Props
