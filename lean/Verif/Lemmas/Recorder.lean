import Verif.Model.Recorder
import Verif.Lemmas.KuzLeak
/-
Lemmas about the recorder: it does not change the evaluation, and what it records.
-/
namespace Goost

namespace Kuz

/-- The nesting that an evaluation cannot avoid, whatever the caches hold and whatever fails: that of the
first operands. -/
def Blk.spine : Blk → Nat
  | .raw _ _ => 1
  | .str _ => 1
  | .xored a _ => a.spine + 1
  | .blkS b => b.spine + 1
  | .blkR b => b.spine + 1
  | .incremented b => b.spine + 1
  | .shifted b _ => b.spine + 1
  | .xoredIfHighBit a _ => a.spine + 1
  | .cached _ _ => 1
  | .user _ => 1

/-- The record `r'` of an evaluation of `b` that began with `r` inside of `n` calls. -/
structure Records (m : Machine) (b : Blk) (n : Nat) (r r' : Rec) : Prop where
  caches : r'.caches = (b.valueS m r.caches).2
  log : r'.log = r.log ++ b.log m r.caches
  calls : r'.calls = r.calls + b.calls m r.caches
  more : r.deepest ≤ r'.deepest
  least : n + b.spine ≤ r'.deepest
  most : r'.deepest ≤ max r.deepest (n + b.depth)

theorem enter_run {α : Type} (n : Nat) (f : Unit → Io Rec α) (r : Rec) :
    (enter n >>= f) r = f () { r with calls := r.calls + 1, deepest := max r.deepest (n + 1) } := rfl

theorem record_eq {α : Type} {x : Logged α} {a : Exec α} {l : List Access} (r : Rec)
    (h : x r.log = (a, r.log ++ l)) : record x r = (a, { r with log := r.log ++ l }) := by
  simp only [record, h]

/-- An outcome that is not a value. -/
def Fails {α : Type} (a : Exec α) : Prop := (∃ e, a = .throw e) ∨ (∃ e, a = .ub e) ∨ a = .diverge

theorem ok_or_fails {α : Type} (a : Exec α) : (∃ v, a = .ok v) ∨ Fails a := by
  cases a with
  | ok v => exact .inl ⟨v, rfl⟩
  | throw e => exact .inr (.inl ⟨e, rfl⟩)
  | ub e => exact .inr (.inr (.inl ⟨e, rfl⟩))
  | diverge => exact .inr (.inr (.inr rfl))

/-- The same failure at another type. -/
def refail {α β : Type} : Exec α → Exec β
  | .throw e => .throw e
  | .ub u => .ub u
  | _ => .diverge

theorem Fails.bind {W α β : Type} {x : Io W α} {f : α → Io W β} {w w' : W} {a : Exec α} (ha : Fails a)
    (h : x w = (a, w')) : (x >>= f) w = (refail a, w') := by
  simp only [Io.bind_def, Io.bind, h]
  rcases ha with ⟨e, rfl⟩ | ⟨e, rfl⟩ | rfl <;> rfl

theorem Fails.refail {α : Type} {a : Exec α} (ha : Fails a) : (refail a : Exec α) = a := by
  rcases ha with ⟨e, rfl⟩ | ⟨e, rfl⟩ | rfl <;> rfl

theorem Fails.ebind {α β : Type} {a : Exec α} (ha : Fails a) (f : α → Exec β) :
    (a >>= f) = Kuz.refail a := by
  rcases ha with ⟨e, rfl⟩ | ⟨e, rfl⟩ | rfl <;> rfl

theorem unary {m : Machine} {b B : Blk} {n : Nat} {r : Rec}
    (ih : ∀ n r, ∃ r', b.run m n r = ((b.valueS m r.caches).1, r') ∧ Records m b n r r')
    (f : W64 × W64 → Io Rec (W64 × W64)) (x : W64 × W64 → Exec (W64 × W64)) (l : W64 × W64 → List Access)
    (hrun : B.run m n = enter n >>= fun _ => b.run m (n + 1) >>= f)
    (hf : ∀ v (r : Rec), f v r = (x v, { r with log := r.log ++ l v }))
    (hval : ∀ c, B.valueS m c = ((b.valueS m c).1 >>= x, (b.valueS m c).2))
    (hlog : ∀ c v, (b.valueS m c).1 = .ok v → B.log m c = b.log m c ++ l v)
    (hlog' : ∀ c, Fails (b.valueS m c).1 → B.log m c = b.log m c)
    (hcalls : ∀ c, B.calls m c = 1 + b.calls m c) (hsp : B.spine = b.spine + 1)
    (hd : B.depth = b.depth + 1) :
    ∃ r', B.run m n r = ((B.valueS m r.caches).1, r') ∧ Records m B n r r' := by
  obtain ⟨r1, e1, ⟨h1, h2, h3, h4, h5, h6⟩⟩ :=
    ih (n + 1) { r with calls := r.calls + 1, deepest := max r.deepest (n + 1) }
  simp only at e1 h1 h2 h3 h4 h6
  rw [hrun, enter_run]
  rcases ok_or_fails (b.valueS m r.caches).1 with ⟨v, hv⟩ | hv
  · rw [hv] at e1
    rw [Io.bind_run_ok e1, hf, hval, hv]
    exact ⟨_, rfl, by simp only [h1, hval], by simp only [h2, hlog _ _ hv, List.append_assoc],
      by simp only [h3, hcalls]; omega, by simp only; omega, by simp only; omega, by simp only; omega⟩
  · rw [hv.bind e1, hval, hv.ebind]
    exact ⟨_, rfl, by simp only [h1, hval], by rw [h2, hlog' _ hv],
      by simp only [h3, hcalls]; omega, by omega, by omega, by omega⟩

theorem run_eq (m : Machine) (b : Blk) (n : Nat) (r : Rec) :
    ∃ r', b.run m n r = ((b.valueS m r.caches).1, r') ∧ Records m b n r r' := by
  induction b generalizing n r with
  | raw low high =>
    exact ⟨_, rfl, rfl, by simp [Blk.log], rfl, by simp; omega, by simp [Blk.spine]; omega,
      by simp [Blk.depth]⟩
  | str s =>
    exact ⟨_, rfl, rfl, by simp [Blk.log], rfl, by simp; omega, by simp [Blk.spine]; omega,
      by simp [Blk.depth]⟩
  | user v =>
    exact ⟨_, rfl, rfl, by simp [Blk.log], rfl, by simp; omega, by simp [Blk.spine]; omega,
      by simp [Blk.depth]⟩
  | blkS b ih =>
    exact unary ih (fun v => record (sValueL v)) sValue sLog rfl
      (fun v r => record_eq r (sValueL_eq v r.log)) (fun _ => rfl) (fun c v h => by simp only [Blk.log, h])
      (fun c h => by rcases h with ⟨e, h⟩ | ⟨e, h⟩ | h <;> simp [Blk.log, h]) (fun _ => rfl) rfl rfl
  | blkR b ih =>
    exact unary ih (fun v => record (rValueL m v)) (rValue m) rLog rfl
      (fun v r => record_eq r (rValueL_eq m v r.log)) (fun _ => rfl) (fun c v h => by simp only [Blk.log, h])
      (fun c h => by rcases h with ⟨e, h⟩ | ⟨e, h⟩ | h <;> simp [Blk.log, h]) (fun _ => rfl) rfl rfl
  | incremented b ih =>
    refine unary ih (fun v => do
      if ← record (branchL (v.1 = BitVec.allOnes 64)) then return (0, v.2 + 1) else return (v.1 + 1, v.2))
      (fun v => .ok (incValue v)) (fun v => [.branch (v.1 = BitVec.allOnes 64)]) rfl
      (fun v r => ?_) (fun _ => rfl) (fun c v h => by simp only [Blk.log, h])
      (fun c h => by rcases h with ⟨e, h⟩ | ⟨e, h⟩ | h <;> simp [Blk.log, h]) (fun _ => rfl) rfl rfl
    rw [Io.bind_run_ok (record_eq r rfl), incValue]
    by_cases h : v.1 = BitVec.allOnes 64
    · simp only [h, decide_true, if_true]; rfl
    · simp only [h, decide_false, if_false]; rfl
  | shifted b k ih =>
    exact unary ih (fun v => Io.lift (shiftValue v k)) (fun v => shiftValue v k) (fun _ => []) rfl
      (fun v r => by simp [Io.lift]) (fun _ => rfl)
      (fun c v h => by simp [Blk.log]) (fun c h => rfl) (fun _ => rfl) rfl rfl
  | xored a b iha ihb =>
    obtain ⟨r1, e1, ⟨h1, h2, h3, h4, h5, h6⟩⟩ :=
      iha (n + 1) { r with calls := r.calls + 1, deepest := max r.deepest (n + 1) }
    simp only at e1 h1 h2 h3 h4 h6
    rw [Blk.run, enter_run]
    rcases hva : a.valueS m r.caches with ⟨va, c1⟩
    rw [hva] at e1 h1
    simp only at e1 h1
    rcases ok_or_fails va with ⟨v, rfl⟩ | hv
    · rw [Io.bind_run_ok e1]
      obtain ⟨r2, f1, ⟨g1, g2, g3, g4, g5, g6⟩⟩ := ihb (n + 1) r1
      rw [h1] at f1 g1 g2 g3
      rcases hvb : b.valueS m c1 with ⟨vb, c2⟩
      rw [hvb] at f1 g1
      simp only at f1 g1
      have hl : (Blk.xored a b).log m r.caches = a.log m r.caches ++ b.log m c1 := by
        simp only [Blk.log, hva]
      have hc : (Blk.xored a b).calls m r.caches = 1 + a.calls m r.caches + b.calls m c1 := by
        simp only [Blk.calls, hva]
      rcases ok_or_fails vb with ⟨u, rfl⟩ | hu
      · have hx : (Blk.xored a b).valueS m r.caches = (.ok (v.1 ^^^ u.1, v.2 ^^^ u.2), c2) := by
          simp only [Blk.valueS, hva, hvb]
        rw [Io.bind_run_ok f1, hx]
        exact ⟨r2, rfl, by rw [g1, hx], by rw [g2, h2, hl, List.append_assoc], by rw [g3, h3, hc]; omega,
          by omega, by simp only [Blk.spine]; omega, by simp only [Blk.depth]; omega⟩
      · have hx : (Blk.xored a b).valueS m r.caches = (vb, c2) := by
          rcases hu with ⟨e, rfl⟩ | ⟨e, rfl⟩ | rfl <;> simp only [Blk.valueS, hva, hvb]
        rw [hu.bind f1, hu.refail, hx]
        exact ⟨r2, rfl, by rw [g1, hx], by rw [g2, h2, hl, List.append_assoc], by rw [g3, h3, hc]; omega,
          by omega, by simp only [Blk.spine]; omega, by simp only [Blk.depth]; omega⟩
    · have hx : (Blk.xored a b).valueS m r.caches = (va, c1) := by
        rcases hv with ⟨e, rfl⟩ | ⟨e, rfl⟩ | rfl <;> simp only [Blk.valueS, hva]
      have hl : (Blk.xored a b).log m r.caches = a.log m r.caches := by
        rcases hv with ⟨e, rfl⟩ | ⟨e, rfl⟩ | rfl <;> simp [Blk.log, hva]
      have hc : (Blk.xored a b).calls m r.caches = 1 + a.calls m r.caches := by
        rcases hv with ⟨e, rfl⟩ | ⟨e, rfl⟩ | rfl <;> simp [Blk.calls, hva]
      rw [hv.bind e1, hv.refail, hx]
      exact ⟨r1, rfl, by rw [h1, hx], by rw [h2, hl], by rw [h3, hc]; omega,
        by omega, by simp only [Blk.spine]; omega, by simp only [Blk.depth]; omega⟩
  | cached id b ih =>
    rw [Blk.run, enter_run]
    cases hc : r.caches id with
    | some v =>
      rw [Io.bind_run_ok (show getCache id _ = _ from rfl)]
      simp only [hc]
      exact ⟨_, by simp only [Blk.valueS, hc]; rfl, by simp only [Blk.valueS, hc], by simp [Blk.log, hc],
        by simp only [Blk.calls, hc], by simp only; omega, by simp only [Blk.spine]; omega,
        by simp only [Blk.depth]; omega⟩
    | none =>
      rw [Io.bind_run_ok (show getCache id _ = _ from rfl)]
      simp only [hc]
      obtain ⟨r1, e1, ⟨h1, h2, h3, h4, h5, h6⟩⟩ :=
        ih (n + 1) { r with calls := r.calls + 1, deepest := max r.deepest (n + 1) }
      simp only at e1 h1 h2 h3 h4 h6
      rcases hvb : b.valueS m r.caches with ⟨v, c1⟩
      rw [hvb] at e1 h1
      simp only at e1 h1
      have hl : (Blk.cached id b).log m r.caches = b.log m r.caches := by simp only [Blk.log, hc]
      have hcc : (Blk.cached id b).calls m r.caches = 1 + b.calls m r.caches := by simp only [Blk.calls, hc]
      rcases ok_or_fails v with ⟨u, rfl⟩ | hv
      · rw [Io.bind_run_ok e1]
        have hx : (Blk.cached id b).valueS m r.caches = (.ok u, fun i => if i = id then some u else c1 i) := by
          simp only [Blk.valueS, hc, hvb]
        rw [hx]
        exact ⟨{ r1 with caches := fun i => if i = id then some u else r1.caches i }, rfl,
          by simp only [h1, hx], by simp only [h2, hl], by simp only [h3, hcc]; omega,
          by simp only; omega, by simp only [Blk.spine]; omega, by simp only [Blk.depth]; omega⟩
      · have hx : (Blk.cached id b).valueS m r.caches = (v, c1) := by
          rcases hv with ⟨e, rfl⟩ | ⟨e, rfl⟩ | rfl <;> simp only [Blk.valueS, hc, hvb]
        rw [hv.bind e1, hv.refail, hx]
        exact ⟨r1, rfl, by rw [h1, hx], by rw [h2, hl], by rw [h3, hcc]; omega,
          by omega, by simp only [Blk.spine]; omega, by simp only [Blk.depth]; omega⟩
  | xoredIfHighBit a b iha ihb =>
    obtain ⟨r1, e1, ⟨h1, h2, h3, h4, h5, h6⟩⟩ :=
      iha (n + 1) { r with calls := r.calls + 1, deepest := max r.deepest (n + 1) }
    simp only at e1 h1 h2 h3 h4 h6
    rw [Blk.run, enter_run]
    rcases hva : a.valueS m r.caches with ⟨va, c1⟩
    rw [hva] at e1 h1
    simp only at e1 h1
    rcases ok_or_fails va with ⟨v, rfl⟩ | hv
    · subst h1
      rw [Io.bind_run_ok e1, Io.bind_run_ok (record_eq r1 rfl)]
      obtain ⟨r2, f1, ⟨g1, g2, g3, g4, g5, g6⟩⟩ := iha (n + 1)
        { r1 with log := r1.log ++ [.branch (v.2 &&& 0x8000000000000000 = 0)] }
      simp only at f1 g1 g2 g3 g4 g6
      rcases hva' : a.valueS m r1.caches with ⟨va', c2⟩
      rw [hva'] at f1 g1
      simp only at f1 g1
      rcases ok_or_fails va' with ⟨v', rfl⟩ | hv'
      · by_cases hb : v.2 &&& 0x8000000000000000 = 0
        · simp only [hb, decide_true, if_true] at g2 f1 ⊢
          rw [Io.bind_run_ok f1]
          have hx : (Blk.xoredIfHighBit a b).valueS m r.caches = (shiftValue v' 1, c2) := by
            simp only [Blk.valueS, hva, hva', hb, if_true]
          have hl : (Blk.xoredIfHighBit a b).log m r.caches =
              a.log m r.caches ++ .branch true :: a.log m r1.caches := by
            simp only [Blk.log, hva, hva', hb, decide_true, if_true, List.append_nil]
          have hc : (Blk.xoredIfHighBit a b).calls m r.caches =
              1 + a.calls m r.caches + a.calls m r1.caches := by
            simp only [Blk.calls, hva, hva', hb, if_true, Nat.add_zero]
          rw [hx]
          exact ⟨r2, rfl, by rw [g1, hx], by rw [g2, h2, hl]; simp, by rw [g3, h3, hc]; omega,
            by omega, by simp only [Blk.spine]; omega, by simp only [Blk.depth]; omega⟩
        · simp only [hb, decide_false, Bool.false_eq_true, if_false] at g2 f1 ⊢
          rw [Io.bind_run_ok f1]
          obtain ⟨s, hs⟩ : ∃ s, shiftValue v' 1 = .ok s := ⟨_, rfl⟩
          rw [hs, Io.lift_ok_bind]
          obtain ⟨r3, k0, ⟨k1, k2, k3, k4, k5, k6⟩⟩ := ihb (n + 1) r2
          rw [g1] at k0 k1 k2 k3
          rcases hvb : b.valueS m c2 with ⟨vb, c3⟩
          rw [hvb] at k0 k1
          simp only at k0 k1
          have hl : (Blk.xoredIfHighBit a b).log m r.caches =
              a.log m r.caches ++ .branch false :: a.log m r1.caches ++ b.log m c2 := by
            simp only [Blk.log, hva, hva', hb, decide_false, if_false, List.append_assoc]
          have hc : (Blk.xoredIfHighBit a b).calls m r.caches =
              1 + a.calls m r.caches + (a.calls m r1.caches + b.calls m c2) := by
            simp only [Blk.calls, hva, hva', hb, if_false]
          rcases ok_or_fails vb with ⟨u, rfl⟩ | hu
          · have hx : (Blk.xoredIfHighBit a b).valueS m r.caches = (.ok (s.1 ^^^ u.1, s.2 ^^^ u.2), c3) := by
              simp only [Blk.valueS, hva, hva', hb, if_false, hs, hvb]
            rw [Io.bind_run_ok k0, hx]
            exact ⟨r3, rfl, by rw [k1, hx], by rw [k2, g2, h2, hl]; simp, by rw [k3, g3, h3, hc]; omega,
              by omega, by simp only [Blk.spine]; omega, by simp only [Blk.depth]; omega⟩
          · have hx : (Blk.xoredIfHighBit a b).valueS m r.caches = (vb, c3) := by
              rcases hu with ⟨e, rfl⟩ | ⟨e, rfl⟩ | rfl <;>
                simp only [Blk.valueS, hva, hva', hb, if_false, hs, hvb]
            rw [hu.bind k0, hu.refail, hx]
            exact ⟨r3, rfl, by rw [k1, hx], by rw [k2, g2, h2, hl]; simp, by rw [k3, g3, h3, hc]; omega,
              by omega, by simp only [Blk.spine]; omega, by simp only [Blk.depth]; omega⟩
      · have hx : (Blk.xoredIfHighBit a b).valueS m r.caches = (va', c2) := by
          rcases hv' with ⟨e, rfl⟩ | ⟨e, rfl⟩ | rfl <;> simp only [Blk.valueS, hva, hva']
        have hl : (Blk.xoredIfHighBit a b).log m r.caches =
            a.log m r.caches ++ .branch (v.2 &&& 0x8000000000000000 = 0) :: a.log m r1.caches := by
          rcases hv' with ⟨e, rfl⟩ | ⟨e, rfl⟩ | rfl <;> simp [Blk.log, hva, hva']
        have hc : (Blk.xoredIfHighBit a b).calls m r.caches = 1 + a.calls m r.caches + a.calls m r1.caches := by
          rcases hv' with ⟨e, rfl⟩ | ⟨e, rfl⟩ | rfl <;> simp [Blk.calls, hva, hva']
        refine ⟨r2, ?_, by rw [g1, hx], by rw [g2, h2, hl]; simp, by rw [g3, h3, hc]; omega,
            by omega, by simp only [Blk.spine]; omega, by simp only [Blk.depth]; omega⟩
        split
        · rw [hv'.bind f1, hv'.refail, hx]
        · rw [hv'.bind f1, hv'.refail, hx]
    · have hx : (Blk.xoredIfHighBit a b).valueS m r.caches = (va, c1) := by
        rcases hv with ⟨e, rfl⟩ | ⟨e, rfl⟩ | rfl <;> simp only [Blk.valueS, hva]
      have hl : (Blk.xoredIfHighBit a b).log m r.caches = a.log m r.caches := by
        rcases hv with ⟨e, rfl⟩ | ⟨e, rfl⟩ | rfl <;> simp [Blk.log, hva]
      have hc : (Blk.xoredIfHighBit a b).calls m r.caches = 1 + a.calls m r.caches := by
        rcases hv with ⟨e, rfl⟩ | ⟨e, rfl⟩ | rfl <;> simp [Blk.calls, hva]
      rw [hv.bind e1, hv.refail, hx]
      exact ⟨r1, rfl, by rw [h1, hx], by rw [h2, hl], by rw [h3, hc]; omega,
        by omega, by simp only [Blk.spine]; omega, by simp only [Blk.depth]; omega⟩

end Kuz

namespace Magma
open Kuz (Fails ok_or_fails)

/-- The record `r'` of an evaluation of `b` with outcome `x` that began with `r` inside of `n` calls. -/
structure Records {α : Type} (b : Blk) (x : Exec α) (n : Nat) (r r' : Rec) : Prop where
  calls : r'.calls ≤ r.calls + b.calls
  all : (∃ v, x = .ok v) → r'.calls = r.calls + b.calls
  more : r.deepest ≤ r'.deepest
  most : r'.deepest ≤ max r.deepest (n + b.depth)
  depth : (∃ v, x = .ok v) → r'.deepest = max r.deepest (n + b.depth)

theorem enter_run {α : Type} (n : Nat) (f : Unit → Io Rec α) (r : Rec) :
    (enter n >>= f) r = f () ⟨r.calls + 1, max r.deepest (n + 1)⟩ := rfl

theorem Fails.not_ok {α : Type} {x : Exec α} (h : Fails x) : ¬ ∃ v, x = .ok v := by
  rintro ⟨v, rfl⟩
  rcases h with ⟨e, h⟩ | ⟨e, h⟩ | h <;> cases h

theorem unary {m : Machine} {b B : Blk} {n : Nat} {r : Rec}
    (ih : ∀ n r, ∃ r', b.run m n r = (b.value m, r') ∧ Records b (b.value m) n r r')
    (x : W32 × W32 → Exec (W32 × W32))
    (hrun : B.run m n = enter n >>= fun _ => b.run m (n + 1) >>= fun v => Io.lift (x v))
    (hval : B.value m = b.value m >>= x)
    (hcalls : B.calls = 1 + b.calls) (hd : B.depth = b.depth + 1) :
    ∃ r', B.run m n r = (B.value m, r') ∧ Records B (B.value m) n r r' := by
  obtain ⟨r1, e1, ⟨h1, h2, h3, h4, h5⟩⟩ := ih (n + 1) ⟨r.calls + 1, max r.deepest (n + 1)⟩
  simp only at e1 h1 h2 h3 h4 h5
  rw [hrun, enter_run]
  rcases ok_or_fails (b.value m) with ⟨v, hv⟩ | hv
  · have h2 := h2 ⟨v, hv⟩
    have h5 := h5 ⟨v, hv⟩
    rw [hv] at e1
    rw [Io.bind_run_ok e1, hval, hv]
    exact ⟨r1, rfl, by omega, fun _ => by omega, by omega, by omega, fun _ => by omega⟩
  · rw [hv.bind e1, hval, hv.ebind]
    refine ⟨r1, rfl, by omega, ?_, by omega, by omega, ?_⟩ <;>
    · intro h
      rcases hv with ⟨e, hv⟩ | ⟨e, hv⟩ | hv <;> (rw [hv] at h; obtain ⟨_, h⟩ := h; cases h)

theorem run_eq (m : Machine) (b : Blk) (n : Nat) (r : Rec) :
    ∃ r', b.run m n r = (b.value m, r') ∧ Records b (b.value m) n r r' := by
  induction b generalizing n r with
  | raw low high =>
    exact ⟨_, rfl, Nat.le_refl _, fun _ => rfl, by simp; omega, by simp [Blk.depth], fun _ => by simp [Blk.depth]⟩
  | str s =>
    exact ⟨_, rfl, Nat.le_refl _, fun _ => rfl, by simp; omega, by simp [Blk.depth], fun _ => by simp [Blk.depth]⟩
  | user v =>
    exact ⟨_, rfl, Nat.le_refl _, fun _ => rfl, by simp; omega, by simp [Blk.depth], fun _ => by simp [Blk.depth]⟩
  | swapped b ih => exact unary ih (fun v => .ok (v.2, v.1)) rfl rfl rfl rfl
  | shifted b k ih => exact unary ih (fun v => shiftValue m v k) rfl rfl rfl rfl
  | forwarded b key ih => exact unary ih (forwardRounds key) rfl rfl rfl rfl
  | backwarded b key ih => exact unary ih (backwardRounds key) rfl rfl rfl rfl
  | xored a b iha ihb =>
    obtain ⟨r1, e1, ⟨h1, h2, h3, h4, h5⟩⟩ := iha (n + 1) ⟨r.calls + 1, max r.deepest (n + 1)⟩
    simp only at e1 h1 h2 h3 h4 h5
    rw [Blk.run, enter_run]
    rcases ok_or_fails (a.value m) with ⟨v, hv⟩ | hv
    · have h2 := h2 ⟨v, hv⟩
      have h5 := h5 ⟨v, hv⟩
      rw [hv] at e1
      obtain ⟨r2, f1, ⟨g1, g2, g3, g4, g5⟩⟩ := ihb (n + 1) r1
      rw [Io.bind_run_ok e1]
      rcases ok_or_fails (b.value m) with ⟨u, hu⟩ | hu
      · have g2 := g2 ⟨u, hu⟩
        have g5 := g5 ⟨u, hu⟩
        rw [hu] at f1
        have hx : (Blk.xored a b).value m = .ok (v.1 ^^^ u.1, v.2 ^^^ u.2) := by
          simp only [Blk.value, hv, hu, Exec.ok_bind, Exec.pure_eq]
        rw [Io.bind_run_ok f1, hx]
        exact ⟨r2, rfl, by simp only [Blk.calls]; omega, fun _ => by simp only [Blk.calls]; omega, by omega,
          by simp only [Blk.depth]; omega, fun _ => by simp only [Blk.depth]; omega⟩
      · have hx : (Blk.xored a b).value m = b.value m := by
          simp only [Blk.value, hv, Exec.ok_bind, hu.ebind, hu.refail]
        rw [hu.bind f1, hu.refail, hx]
        exact ⟨r2, rfl, by simp only [Blk.calls]; omega, fun h => absurd h (Fails.not_ok hu), by omega,
          by simp only [Blk.depth]; omega, fun h => absurd h (Fails.not_ok hu)⟩
    · have hx : (Blk.xored a b).value m = a.value m := by
        simp only [Blk.value, hv.ebind, hv.refail]
      rw [hv.bind e1, hv.refail, hx]
      exact ⟨r1, rfl, by simp only [Blk.calls]; omega, fun h => absurd h (Fails.not_ok hv), by omega,
        by simp only [Blk.depth]; omega, fun h => absurd h (Fails.not_ok hv)⟩
  | imitShifted b ih =>
    obtain ⟨r1, e1, ⟨h1, h2, h3, h4, h5⟩⟩ := ih (n + 1) ⟨r.calls + 1, max r.deepest (n + 1)⟩
    simp only at e1 h1 h2 h3 h4 h5
    rw [Blk.run, enter_run]
    rcases ok_or_fails (b.value m) with ⟨v, hv⟩ | hv
    · have h2 := h2 ⟨v, hv⟩
      have h5 := h5 ⟨v, hv⟩
      rw [hv] at e1
      obtain ⟨r2, f1, ⟨g1, g2, g3, g4, g5⟩⟩ := ih (n + 1) r1
      have g2 := g2 ⟨v, hv⟩
      have g5 := g5 ⟨v, hv⟩
      rw [hv] at f1
      have hx : (Blk.imitShifted b).value m = if v.2 &&& 0x80000000 = 0 then shiftValue m v 1 else
          shiftValue m v 1 >>= fun s => .ok (s.1 ^^^ 0x1b, s.2 ^^^ 0) := by
        simp only [Blk.value, hv, Exec.ok_bind]
        rfl
      have key : ∀ x : Exec (W32 × W32), Records (Blk.imitShifted b) x n r r2 := fun x =>
        ⟨by simp only [Blk.calls]; omega, fun _ => by simp only [Blk.calls]; omega, by omega,
          by simp only [Blk.depth]; omega, fun _ => by simp only [Blk.depth]; omega⟩
      refine ⟨r2, ?_, key _⟩
      rw [Io.bind_run_ok e1, hx]
      by_cases hb : v.2 &&& 0x80000000 = 0
      · simp only [hb, if_true]
        rw [Io.bind_run_ok f1]
        rfl
      · simp only [hb, if_false]
        rw [Io.bind_run_ok f1]
        cases shiftValue m v 1 <;> rfl
    · have hx : (Blk.imitShifted b).value m = b.value m := by
        simp only [Blk.value, hv.ebind, hv.refail]
      rw [hv.bind e1, hv.refail, hx]
      exact ⟨r1, rfl, by simp only [Blk.calls]; omega, fun h => absurd h (Fails.not_ok hv), by omega,
        by simp only [Blk.depth]; omega, fun h => absurd h (Fails.not_ok hv)⟩

end Magma
end Goost
