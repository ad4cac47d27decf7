import Verif.Spec.Machines
import Verif.Model.Live
import Verif.Model.KuzToken
import Verif.Model.Layers
/-
What calls do on two machines.
-/
namespace Goost
open Spec

section
variable {W α β : Type} {p q : Prop}

theorem _root_.Spec.SameUnless.refl (x : Io W α) : SameUnless p q x x := fun _ => .inl rfl

theorem _root_.Spec.SameUnless.bind {x y : Io W α} {f g : α → Io W β} (h : SameUnless p q x y) (hf : ∀ a, SameUnless p q (f a) (g a)) :
    SameUnless p q (x >>= f) (y >>= g) := by
  intro w
  simp only [Io.bind_def, Io.bind]
  rcases h w with h | ⟨hp, u, h⟩ | ⟨hp, u, h⟩
  · rw [h]
    rcases y w with ⟨r, w'⟩
    cases r with
    | ok a => exact hf a w'
    | throw e => exact .inl rfl
    | ub u => exact .inl rfl
    | diverge => exact .inl rfl
  · refine .inr (.inl ⟨hp, u, ?_⟩)
    rcases hx : x w with ⟨r, w'⟩
    rw [hx] at h
    simp only at h
    subst h
    rfl
  · refine .inr (.inr ⟨hp, u, ?_⟩)
    rcases hx : y w with ⟨r, w'⟩
    rw [hx] at h
    simp only at h
    subst h
    rfl

theorem _root_.Spec.SameUnless.map {x y : Io W α} (h : SameUnless p q x y) (f : α → Io W β) :
    SameUnless p q (x >>= f) (y >>= f) := h.bind fun a => SameUnless.refl (f a)

theorem _root_.Spec.SameUnless.lift {a b : Exec α} (h : a = b ∨ p ∧ Undefined a ∨ q ∧ Undefined b) :
    SameUnless p q (Io.lift (W := W) a) (Io.lift b) := by
  intro w
  rcases h with rfl | h | h
  · exact .inl rfl
  · exact .inr (.inl h)
  · exact .inr (.inr h)

theorem _root_.Spec.SameUnless.eq {x y : Io W α} (h : SameUnless False False x y) : x = y := by
  funext w
  rcases h w with h | h | h
  · exact h
  · exact h.1.elim
  · exact h.1.elim

theorem _root_.Spec.SameUnless.outside {x y : Io W α} (h : SameUnless p q x y) :
    SameUnless p q (KuzToken.outside x) (KuzToken.outside y) := by
  intro s
  rcases h s.2 with h | ⟨hp, u, h⟩ | ⟨hp, u, h⟩
  · exact .inl (by simp only [KuzToken.outside, h])
  · exact .inr (.inl ⟨hp, u, h⟩)
  · exact .inr (.inr ⟨hp, u, h⟩)

end

theorem shl32_same (m m' : Machine) (x : W32) (n : Int) : m.shl32 x n = m'.shl32 x n ∨
    LacksShift m m' ∧ Undefined (m.shl32 x n) ∨ LacksShift m' m ∧ Undefined (m'.shl32 x n) := by
  unfold Machine.shl32 LacksShift
  split
  · exact .inl rfl
  · cases m.maskShift32 <;> cases m'.maskShift32 <;> simp [Undefined]

theorem shr32_same (m m' : Machine) (x : W32) (n : Int) : m.shr32 x n = m'.shr32 x n ∨
    LacksShift m m' ∧ Undefined (m.shr32 x n) ∨ LacksShift m' m ∧ Undefined (m'.shr32 x n) := by
  unfold Machine.shr32 LacksShift
  split
  · exact .inl rfl
  · cases m.maskShift32 <;> cases m'.maskShift32 <;> simp [Undefined]

theorem magma_shift_same (m m' : Machine) (v : W32 × W32) (n : Int) : Magma.shiftValue m v n = Magma.shiftValue m' v n ∨
    LacksShift m m' ∧ Undefined (Magma.shiftValue m v n) ∨ LacksShift m' m ∧ Undefined (Magma.shiftValue m' v n) := by
  have h : SameUnless (W := Unit) (LacksShift m m') (LacksShift m' m)
      (Io.lift (m.shl32 v.1 n) >>= fun lo => Io.lift (m.shl32 v.2 n) >>= fun hi => Io.lift (m.shr32 v.1 (64 - n)) >>= fun c =>
        Io.lift (.ok (lo, hi ||| c)))
      (Io.lift (m'.shl32 v.1 n) >>= fun lo => Io.lift (m'.shl32 v.2 n) >>= fun hi =>
        Io.lift (m'.shr32 v.1 (64 - n)) >>= fun c => Io.lift (.ok (lo, hi ||| c))) :=
    (SameUnless.lift (shl32_same m m' _ _)).bind fun _ => (SameUnless.lift (shl32_same m m' _ _)).bind fun _ =>
      (SameUnless.lift (shr32_same m m' _ _)).map _
  have e : ∀ m : Machine, Io.lift (W := Unit) (Magma.shiftValue m v n) = (Io.lift (m.shl32 v.1 n) >>= fun lo =>
      Io.lift (m.shl32 v.2 n) >>= fun hi => Io.lift (m.shr32 v.1 (64 - n)) >>= fun c => Io.lift (.ok (lo, hi ||| c))) := by
    intro m
    unfold Magma.shiftValue
    cases m.shl32 v.1 n <;> cases m.shl32 v.2 n <;> cases m.shr32 v.1 (64 - n) <;> rfl
  rw [← e, ← e] at h
  rcases h () with h | h | h
  · exact .inl (congrArg Prod.fst h)
  · exact .inr (.inl h)
  · exact .inr (.inr h)

theorem rValue_same (m m' : Machine) (v : W64 × W64) : Kuz.rValue m v = Kuz.rValue m' v ∨
    LacksLoad m m' ∧ Undefined (Kuz.rValue m v) ∨ LacksLoad m' m ∧ Undefined (Kuz.rValue m' v) := by
  unfold Kuz.rValue LacksLoad
  cases m.unalignedLoad <;> cases m'.unalignedLoad <;> simp [Undefined]

/-! ### magma and gost89 -/

theorem magma_blk_same (m m' : Machine) (b : Magma.Blk) : b.value m = b.value m' ∨
    LacksShift m m' ∧ Undefined (b.value m) ∨ LacksShift m' m ∧ Undefined (b.value m') := by
  have back : ∀ {x y : Exec (W32 × W32)}, SameUnless (W := Unit) (LacksShift m m') (LacksShift m' m) (Io.lift x) (Io.lift y) →
      x = y ∨ LacksShift m m' ∧ Undefined x ∨ LacksShift m' m ∧ Undefined y := by
    intro x y h
    rcases h () with h | h | h
    · exact .inl (congrArg Prod.fst h)
    · exact .inr (.inl h)
    · exact .inr (.inr h)
  have lb : ∀ {α β : Type} (x : Exec α) (f : α → Exec β),
      Io.lift (W := Unit) (x >>= f) = Io.lift x >>= fun a => Io.lift (f a) := by
    intro α β x f
    cases x <;> rfl
  induction b with
  | raw low high => exact .inl rfl
  | str s => exact .inl rfl
  | swapped b ih =>
    refine back ?_
    simp only [Magma.Blk.value, lb]
    exact (SameUnless.lift ih).map _
  | xored a b iha ihb =>
    refine back ?_
    simp only [Magma.Blk.value, lb]
    exact (SameUnless.lift iha).bind fun _ => (SameUnless.lift ihb).map _
  | shifted b n ih =>
    refine back ?_
    simp only [Magma.Blk.value, lb]
    exact (SameUnless.lift ih).bind fun v => SameUnless.lift (magma_shift_same m m' v n)
  | forwarded b key ih =>
    refine back ?_
    simp only [Magma.Blk.value, lb]
    exact (SameUnless.lift ih).map _
  | backwarded b key ih =>
    refine back ?_
    simp only [Magma.Blk.value, lb]
    exact (SameUnless.lift ih).map _
  | imitShifted b ih =>
    refine back ?_
    simp only [Magma.Blk.value, lb]
    refine (SameUnless.lift ih).bind fun v => ?_
    split
    · simp only [lb]
      exact (SameUnless.lift ih).bind fun v => SameUnless.lift (magma_shift_same m m' v 1)
    · simp only [lb]
      exact (SameUnless.lift ih).bind fun v => (SameUnless.lift (magma_shift_same m m' v 1)).map _
  | user v => exact .inl rfl

namespace Live
variable {W σ τ : Type}

theorem blk_same (m m' : Machine) (b : Blk W) : SameUnless (LacksShift m m') (LacksShift m' m) (b.value m) (b.value m') := by
  induction b with
  | raw low high => exact SameUnless.refl _
  | swapped b ih => exact ih.map _
  | xored a b iha ihb => exact iha.bind fun _ => ihb.map _
  | forwarded b key ih => exact ih.map _
  | backwarded b key ih => exact ih.map _
  | imitShifted b ih =>
    refine ih.bind fun v => ?_
    split
    · exact ih.bind fun v => SameUnless.lift (magma_shift_same m m' v 1)
    · exact ih.bind fun v => (SameUnless.lift (magma_shift_same m m' v 1)).map _

theorem imit_same (m m' : Machine) (rd : σ → Nat → Io W (List Byte × σ)) (fuel : Nat) (data : σ) (key : Option (Key W)) :
    SameUnless (LacksShift m m') (LacksShift m' m) (Imit.value m rd fuel data key) (Imit.value m' rd fuel data key) :=
  (SameUnless.refl _).bind fun _ => (SameUnless.refl _).bind fun _ => blk_same m m' _

theorem ofBytes_congr {β : Type} (p : List Byte) {f g : Blk W → Io W β} (h : ∀ a c, f (.raw a c) = g (.raw a c)) :
    (Io.lift (BlkRaw.ofBytes p) >>= f) = (Io.lift (BlkRaw.ofBytes p) >>= g) := by
  unfold BlkRaw.ofBytes
  cases load32 p 0 with
  | ok a =>
    cases load32 p 4 with
    | ok c => exact h a c
    | throw e => rfl
    | ub u => rfl
    | diverge => rfl
  | throw e => rfl
  | ub u => rfl
  | diverge => rfl

theorem decrypted_same (m m' : Machine) (a c : W32) (key : Option (Key W)) :
    (BlkDecrypted (.raw a c) key).value m = (BlkDecrypted (.raw a c) key).value m' := by
  simp only [BlkDecrypted, Blk.value]

theorem ecb_source_same (m m' : Machine) (rd : σ → Nat → Io W (List Byte × σ)) (t : ECBSource W σ) (size : Nat) :
    ECBSource.read m rd t size = ECBSource.read m' rd t size := by
  cases t with
  | bare source => rfl
  | ecb source key =>
    simp only [ECBSource.read]
    split
    · rfl
    · refine congrArg (rd source 8 >>= ·) (funext fun x => ?_)
      split
      · rfl
      · refine ofBytes_congr x.1 fun a c => ?_
        rw [decrypted_same m m']

theorem cfb_sink_same (m m' : Machine) (wr : τ → List Byte → Io W τ) (key : Key W) (data : List Byte) :
    ∀ s p rl rr, CFBSink.loop m wr key data s p rl rr = CFBSink.loop m' wr key data s p rl rr := by
  induction data with
  | nil => intros; rfl
  | cons b data ih =>
    intro s p rl rr
    simp only [CFBSink.loop, ih]
    rfl

theorem cfb_source_same (m m' : Machine) (rd : σ → Nat → Io W (List Byte × σ)) (key : Key W) (size fuel : Nat) :
    ∀ s p rl rr res, CFBSource.loop m rd key size fuel s p rl rr res = CFBSource.loop m' rd key size fuel s p rl rr res := by
  induction fuel with
  | zero => intros; rfl
  | succ n ih =>
    intro s p rl rr res
    simp only [CFBSource.loop, ih]
    rfl

theorem gost89_sink_same (m m' : Machine) (wr : τ → List Byte → Io W τ) (key : Key W) (data : List Byte) :
    ∀ s p l, Gost89.CFBSink.loop m wr key data s p l = Gost89.CFBSink.loop m' wr key data s p l := by
  induction data with
  | nil => intros; rfl
  | cons b data ih =>
    intro s p l
    simp only [Gost89.CFBSink.loop, ih]
    rfl

theorem gost89_source_same (m m' : Machine) (rd : σ → Nat → Io W (List Byte × σ)) (key : Key W) (size fuel : Nat) :
    ∀ s p r res, Gost89.CFBSource.loop m rd key size fuel s p r res = Gost89.CFBSource.loop m' rd key size fuel s p r res := by
  induction fuel with
  | zero => intros; rfl
  | succ n ih =>
    intro s p r res
    simp only [Gost89.CFBSource.loop, ih]
    rfl

theorem data_imit_same (m m' : Machine) (key : Option (Key W)) : ∀ (data state : List Byte),
    Gost89.DataImit.loop m key data state = Gost89.DataImit.loop m' key data state
  | b0 :: b1 :: b2 :: b3 :: b4 :: b5 :: b6 :: b7 :: rest, state => by
    simp only [Gost89.DataImit.loop, data_imit_same m m' key rest]
    refine ofBytes_congr _ fun a c => ?_
    simp only [Gost89.ImitedBlock.value, Blk.value, bind_assoc, pure_bind]
  | [], _ => rfl
  | [_], _ => rfl
  | [_, _], _ => rfl
  | [_, _, _], _ => rfl
  | [_, _, _, _], _ => rfl
  | [_, _, _, _, _], _ => rfl
  | [_, _, _, _, _, _], _ => rfl
  | [_, _, _, _, _, _, _], _ => rfl

end Live

/-! ### kuznyechik -/

namespace KuzToken
variable {W ι : Type}

theorem blk_same (m m' : Machine) (b : Blk W) : SameUnless (LacksLoad m m') (LacksLoad m' m) (b.value m) (b.value m') := by
  induction b with
  | raw low high => exact SameUnless.refl _
  | str s => exact SameUnless.refl _
  | xored a b iha ihb => exact iha.bind fun _ => ihb.map _
  | blkS b ih => exact ih.map _
  | blkR b ih => exact ih.bind fun v => SameUnless.lift (rValue_same m m' v)
  | incremented b ih => exact ih.map _
  | shifted b n ih => exact ih.map _
  | xoredIfHighBit a b iha ihb =>
    refine iha.bind fun va => ?_
    split
    · exact iha.map _
    · exact iha.bind fun _ => (SameUnless.refl _).bind fun _ => ihb.map _
  | cached id b ih =>
    intro s
    simp only [Blk.value]
    cases s.1 id with
    | some v => exact .inl rfl
    | none =>
      rcases ih s with h | ⟨hp, u, h⟩ | ⟨hp, u, h⟩
      · rw [h]; exact .inl rfl
      · refine .inr (.inl ⟨hp, u, ?_⟩)
        rcases hx : b.value m s with ⟨r, w'⟩
        rw [hx] at h; simp only at h; subst h; rfl
      · refine .inr (.inr ⟨hp, u, ?_⟩)
        rcases hx : b.value m' s with ⟨r, w'⟩
        rw [hx] at h; simp only at h; subst h; rfl
  | user v => exact SameUnless.refl _

theorem ctr_same (m m' : Machine) (it : KuzLive.IterImpl W ι) (i : ItCTR W ι) :
    SameUnless (LacksLoad m m') (LacksLoad m' m) (ItCTR.value m it i) (ItCTR.value m' it i) :=
  (SameUnless.refl _).bind fun _ => (blk_same m m' _).map _

theorem imit_same (m m' : Machine) (it : KuzLive.IterImpl W ι) (start : Io W (Option ι)) (fuel : Nat) (key : Key W) :
    SameUnless (LacksLoad m m') (LacksLoad m' m) (Imit.value m it start fuel key) (Imit.value m' it start fuel key) := by
  refine (SameUnless.refl _).bind fun _ => (SameUnless.refl _).bind fun _ => (SameUnless.refl _).bind fun _ =>
    (SameUnless.refl _).bind fun size => ?_
  split
  · exact blk_same m m' _
  · exact blk_same m m' _

end KuzToken

/-! ### stacks -/

namespace Layers
variable {W σ τ : Type}
open Goost.Magma

theorem cfb_sink_same (m m' : Machine) (wr : τ → List Byte → Io W τ) (key : Key) (data : List Byte) :
    ∀ s p rl rr, CFBSink.loop m wr key data s p rl rr = CFBSink.loop m' wr key data s p rl rr := by
  induction data with
  | nil => intros; rfl
  | cons b data ih =>
    intro s p rl rr
    simp only [CFBSink.loop, ih]
    rfl

theorem cfb_source_same (m m' : Machine) (rd : σ → Nat → Io W (List Byte × σ)) (key : Key) (size fuel : Nat) :
    ∀ s p rl rr res, CFBSource.loop m rd key size fuel s p rl rr res = CFBSource.loop m' rd key size fuel s p rl rr res := by
  induction fuel with
  | zero => intros; rfl
  | succ n ih =>
    intro s p rl rr res
    simp only [CFBSource.loop, ih]
    rfl

theorem gost89_sink_same (m m' : Machine) (wr : τ → List Byte → Io W τ) (key : Key) (data : List Byte) :
    ∀ s p l, Gost89.CFBSink.loop m wr key data s p l = Gost89.CFBSink.loop m' wr key data s p l := by
  induction data with
  | nil => intros; rfl
  | cons b data ih =>
    intro s p l
    simp only [Gost89.CFBSink.loop, ih]
    rfl

theorem gost89_source_same (m m' : Machine) (rd : σ → Nat → Io W (List Byte × σ)) (key : Key) (size fuel : Nat) :
    ∀ s p r res, Gost89.CFBSource.loop m rd key size fuel s p r res = Gost89.CFBSource.loop m' rd key size fuel s p r res := by
  induction fuel with
  | zero => intros; rfl
  | succ n ih =>
    intro s p r res
    simp only [Gost89.CFBSource.loop, ih]
    rfl

theorem ofBytes_congr {β : Type} (p : List Byte) {f g : Blk → Io W β} (h : ∀ a c, f (.raw a c) = g (.raw a c)) :
    (Io.lift (BlkRaw.ofBytes p) >>= f) = (Io.lift (BlkRaw.ofBytes p) >>= g) := by
  unfold BlkRaw.ofBytes
  cases load32 p 0 with
  | ok a =>
    cases load32 p 4 with
    | ok c => exact h a c
    | throw e => rfl
    | ub u => rfl
    | diverge => rfl
  | throw e => rfl
  | ub u => rfl
  | diverge => rfl

theorem decrypted_same (m m' : Machine) (a c : W32) (key : Option Key) :
    (BlkDecrypted (.raw a c) key).value m = (BlkDecrypted (.raw a c) key).value m' := by
  simp only [BlkDecrypted, Blk.value]

theorem ecb_source_same (m m' : Machine) (rd : σ → Nat → Io W (List Byte × σ)) (t : ECBSource σ) (size : Nat) :
    ECBSource.read m rd t size = ECBSource.read m' rd t size := by
  cases t with
  | bare source => rfl
  | ecb source key =>
    simp only [ECBSource.read]
    split
    · rfl
    · refine congrArg (rd source 8 >>= ·) (funext fun x => ?_)
      split
      · rfl
      · refine ofBytes_congr x.1 fun a c => ?_
        rw [decrypted_same m m']

theorem write_same (m m' : Machine) (wr : τ → List Byte → Io W τ) : ∀ ls : List Layer,
    Sinks.write m wr ls = Sinks.write m' wr ls
  | [] => rfl
  | .ecb _ :: ls => by
    simp only [Sinks.write, write_same m m' wr ls]
    rfl
  | .cfb _ _ _ :: ls => by
    simp only [Sinks.write, write_same m m' wr ls]
    funext t data
    exact cfb_sink_same m m' _ _ _ _ _ _ _
  | .gostCfb _ _ :: ls => by
    simp only [Sinks.write, write_same m m' wr ls]
    funext t data
    exact gost89_sink_same m m' _ _ _ _ _ _

theorem finalize_same (m m' : Machine) (wr : τ → List Byte → Io W τ) : ∀ ls : List Layer,
    Sinks.finalize m wr ls = Sinks.finalize m' wr ls
  | [] => rfl
  | .ecb _ :: ls => by simp only [Sinks.finalize, finalize_same m m' wr ls]
  | .cfb _ _ _ :: ls => by
    funext t
    simp only [Sinks.finalize, finalize_same m m' wr ls, write_same m m' wr ls]
    rfl
  | .gostCfb _ _ :: ls => by
    funext t
    simp only [Sinks.finalize, finalize_same m m' wr ls, write_same m m' wr ls]
    rfl

theorem read_same (m m' : Machine) (rd : σ → Nat → Io W (List Byte × σ)) : ∀ ls : List Layer,
    Sources.read m rd ls = Sources.read m' rd ls
  | [] => rfl
  | .ecb _ :: ls => by
    simp only [Sources.read, read_same m m' rd ls]
    funext t size
    exact ecb_source_same m m' _ _ _
  | .cfb _ _ _ :: ls => by
    simp only [Sources.read, read_same m m' rd ls]
    funext t size
    exact cfb_source_same m m' _ _ _ _ _ _ _ _ _
  | .gostCfb _ _ :: ls => by
    simp only [Sources.read, read_same m m' rd ls]
    funext t size
    exact gost89_source_same m m' _ _ _ _ _ _ _ _

end Layers
end Goost
