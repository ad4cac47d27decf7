import Verif.Lemmas.Reenter
/-
Helper lemmas: a key that answers two ways, and a key that needs itself.
-/
namespace Goost.Reenter
open Goost.Kuz (Caches sValue rValue incValue shiftValue)
open Spec
variable {W : Type} {m : Machine} {E : Exn → Prop} {D : Prop} {own : Nat → Kuz.Blk} {val : Nat → W64 × W64} {I : W → Prop}

/-! ### Steps -/

theorem first_ok {user : Nat → Io (Caches × W) V} {k : Blk} {s s' : Caches × W} {x : V} (v : V)
    (h : k.valueWith m user s = (.ok x, s')) :
    (Blk.xored (.raw v.1 v.2) k).valueWith m user s = (.ok (v.1 ^^^ x.1, v.2 ^^^ x.2), s') :=
  Eq.trans (KuzToken.bind_ok (a := v) (w' := s) rfl) (Eq.trans (KuzToken.bind_ok h) rfl)

theorem first_diverge {user : Nat → Io (Caches × W) V} {k : Blk} {s s' : Caches × W} (v : V)
    (h : k.valueWith m user s = (.diverge, s')) :
    (Blk.xored (.raw v.1 v.2) k).valueWith m user s = (.diverge, s') :=
  Eq.trans (KuzToken.bind_ok (a := v) (w' := s) rfl) (Eq.trans (KuzToken.bind_diverge h) rfl)

theorem cached_hit {user : Nat → Io (Caches × W) V} {id : Nat} {b : Blk} {s : Caches × W} {v : V} (hc : s.1 id = some v) :
    (Blk.cached id b).valueWith m user s = (.ok v, s) := by simp only [Blk.valueWith, hc]

theorem cached_miss {user : Nat → Io (Caches × W) V} {id : Nat} {b : Blk} {s s' : Caches × W} {v : V} (hc : s.1 id = none)
    (h : b.valueWith m user s = (.ok v, s')) :
    (Blk.cached id b).valueWith m user s = (.ok v, (fun i => if i = id then some v else s'.1 i, s'.2)) := by
  simp only [Blk.valueWith, hc, h]

theorem cached_diverge {user : Nat → Io (Caches × W) V} {id : Nat} {b : Blk} {s s' : Caches × W} (hc : s.1 id = none)
    (h : b.valueWith m user s = (.diverge, s')) : (Blk.cached id b).valueWith m user s = (.diverge, s') := by
  simp only [Blk.valueWith, hc, h]

theorem user_value (n : Nat) (user : Nat → Io (Caches × W) V) (s : Caches × W) : (Blk.user n).valueWith m user s = user n s := rfl

theorem value_succ (env : Nat → Code W Blk V V) (d : Nat) (b : Blk) :
    b.value m env (d + 1) = b.valueWith m fun n => (env n).run (Blk.value m env d) := rfl

theorem inner_value {i : Nat} {b : Kuz.Blk} {z : Spec.Kuz.Block} (h : HasValue m (.cached i b) z) : HasValue m b z := h

theorem call_ok {S Q A R : Type} {lib : Q → Io (S × W) A} {q : Q} {next : Except Exn A → Code W Q A R} {w w' : S × W} {a : A}
    (h : lib q w = (.ok a, w')) : (Code.call q next).run lib w = (next (.ok a)).run lib w' := by
  simp only [Code.run, h]

theorem call_diverge {S Q A R : Type} {lib : Q → Io (S × W) A} {q : Q} {next : Except Exn A → Code W Q A R} {w w' : S × W}
    (h : lib q w = (.diverge, w')) : (Code.call q next).run lib w = (.diverge, w') := by
  simp only [Code.run, h]

/-! ### A loaded cache does not change -/

def Fixed {α : Type} (x : Io (Caches × W) α) : Prop := ∀ s id v, s.1 id = some v → (x s).2.1 id = some v

theorem Fixed.lift {α : Type} (r : Exec α) : Fixed (Io.lift r : Io (Caches × W) α) := fun _ _ _ h => h

theorem Fixed.bind {α β : Type} {x : Io (Caches × W) α} {f : α → Io (Caches × W) β} (hx : Fixed x) (hf : ∀ a, Fixed (f a)) :
    Fixed (x >>= f) := by
  intro s id v h
  have h1 := hx s id v h
  rcases e : x s with ⟨r, s'⟩
  rw [e] at h1
  cases r with
  | ok a => rw [KuzToken.bind_ok e]; exact hf a s' id v h1
  | throw _ => rw [bind_run_throw e]; exact h1
  | ub _ => rw [bind_run_ub e]; exact h1
  | diverge => rw [KuzToken.bind_diverge e]; exact h1

theorem Fixed.valueWith {user : Nat → Io (Caches × W) V} (hu : ∀ n, Fixed (user n)) (b : Blk) : Fixed (b.valueWith m user) := by
  induction b with
  | raw l h => exact Fixed.lift _
  | str s => exact Fixed.lift _
  | user n => exact hu n
  | xored a b iha ihb => exact iha.bind fun _ => ihb.bind fun _ => Fixed.lift _
  | blkS b ih => exact ih.bind fun _ => Fixed.lift _
  | blkR b ih => exact ih.bind fun _ => Fixed.lift _
  | incremented b ih => exact ih.bind fun _ => Fixed.lift _
  | shifted b n ih => exact ih.bind fun _ => Fixed.lift _
  | xoredIfHighBit a b iha ihb =>
    refine iha.bind fun v => ?_
    split
    · exact iha.bind fun _ => Fixed.lift _
    · exact iha.bind fun _ => (Fixed.lift _).bind fun _ => ihb.bind fun _ => Fixed.lift _
  | cached id b ih =>
    intro s i x h
    simp only [Blk.valueWith]
    cases hs : s.1 id with
    | some v => exact h
    | none =>
      have h1 := ih s i x h
      rcases e : b.valueWith m user s with ⟨r, s'⟩
      rw [e] at h1
      cases r with
      | ok v =>
        have : i ≠ id := by rintro rfl; rw [hs] at h; cases h
        simp only [if_neg this]; exact h1
      | throw _ => exact h1
      | ub _ => exact h1
      | diverge => exact h1

theorem Fixed.run {Q A R : Type} {lib : Q → Io (Caches × W) A} (hl : ∀ q, Fixed (lib q)) (p : Code W Q A R) : Fixed (p.run lib) := by
  induction p with
  | done r => exact Fixed.lift _
  | world act next ih => exact fun s id v h => ih s.2 (s.1, act s.2) id v h
  | call q next ih =>
    intro s id v h
    have h1 := hl q s id v h
    simp only [Code.run]
    rcases e : lib q s with ⟨r, s'⟩
    rw [e] at h1
    cases r with
    | ok a => exact ih _ s' id v h1
    | throw _ => exact ih _ s' id v h1
    | ub _ => exact h1
    | diverge => exact h1

theorem Fixed.value (env : Nat → Code W Blk V V) (depth : Nat) (b : Blk) : Fixed (b.value m env depth) := by
  induction depth generalizing b with
  | zero => exact Fixed.valueWith (fun _ => Fixed.lift _) b
  | succ d ih => exact Fixed.valueWith (fun n => Fixed.run (fun b => ih b) _) b

theorem lift_inv {S α : Type} {r : Exec α} {s s' : S} {a : α} (h : (Io.lift r : Io S α) s = (.ok a, s')) : r = .ok a ∧ s = s' :=
  ⟨congrArg Prod.fst h, congrArg Prod.snd h⟩

theorem again_then {W' : Type} {x : Io (Caches × W') V} {f : V → Exec V} {s : Caches × W'} {v r : V} (h : x s = (.ok v, s))
    (hf : f v = .ok r) : (x >>= fun v => Io.lift (f v)) s = (.ok r, s) := by
  refine Eq.trans (KuzToken.bind_ok h) ?_
  rw [hf]
  rfl

/-- What has been evaluated once evaluates to the same as long as the caches are kept. -/
theorem again {W' : Type} {user : Nat → Io (Caches × W) V} (hu : ∀ n, Fixed (user n)) (user' : Nat → Io (Caches × W') V) (b : Blk)
    (hb : Outer (fun _ => True) b) (s s' : Caches × W) (r : V) (h : b.valueWith m user s = (.ok r, s')) (t : Caches × W')
    (ht : ∀ id v, s'.1 id = some v → t.1 id = some v) : b.valueWith m user' t = (.ok r, t) := by
  induction b generalizing s s' r t with
  | raw l h' =>
    obtain ⟨e, -⟩ := lift_inv (r := .ok _) h
    cases e
    rfl
  | str x =>
    obtain ⟨e, -⟩ := lift_inv h
    simp only [Blk.valueWith, e]
    rfl
  | user n => exact hb.elim
  | xored a b iha ihb =>
    obtain ⟨va, t1, h1, h2⟩ := bind_ok_inv h
    obtain ⟨vb, t2, h3, h4⟩ := bind_ok_inv h2
    obtain ⟨e, rfl⟩ := lift_inv (r := .ok _) h4
    cases e
    have k := Fixed.valueWith (m := m) hu b t1
    rw [h3] at k
    refine Eq.trans (KuzToken.bind_ok (iha hb.1 _ _ _ h1 t fun id v g => ht id v (k id v g))) ?_
    exact Eq.trans (KuzToken.bind_ok (ihb hb.2 _ _ _ h3 t ht)) rfl
  | blkS b ih =>
    obtain ⟨va, t1, h1, h2⟩ := bind_ok_inv h
    obtain ⟨e, rfl⟩ := lift_inv h2
    exact again_then (ih hb _ _ _ h1 t ht) e
  | blkR b ih =>
    obtain ⟨va, t1, h1, h2⟩ := bind_ok_inv h
    obtain ⟨e, rfl⟩ := lift_inv h2
    exact again_then (ih hb _ _ _ h1 t ht) e
  | incremented b ih =>
    obtain ⟨va, t1, h1, h2⟩ := bind_ok_inv h
    obtain ⟨e, rfl⟩ := lift_inv (r := .ok _) h2
    exact again_then (f := fun v => .ok (incValue v)) (ih hb _ _ _ h1 t ht) e
  | shifted b n ih =>
    obtain ⟨va, t1, h1, h2⟩ := bind_ok_inv h
    obtain ⟨e, rfl⟩ := lift_inv h2
    exact again_then (ih hb _ _ _ h1 t ht) e
  | xoredIfHighBit a b iha ihb =>
    obtain ⟨va, t1, h1, h2⟩ := bind_ok_inv h
    have ka := Fixed.valueWith (m := m) hu a t1
    have kb := Fixed.valueWith (m := m) hu b
    split at h2
    · rename_i hz
      obtain ⟨va', t2, h3, h4⟩ := bind_ok_inv h2
      obtain ⟨e, rfl⟩ := lift_inv h4
      rw [h3] at ka
      refine Eq.trans (KuzToken.bind_ok (iha hb.1 _ _ _ h1 t fun id v g => ht id v (ka id v g))) ?_
      rw [if_pos hz]
      exact again_then (iha hb.1 _ _ _ h3 t ht) e
    · rename_i hz
      obtain ⟨va', t2, h3, h4⟩ := bind_ok_inv h2
      obtain ⟨vs, t3, h5, h6⟩ := bind_ok_inv h4
      obtain ⟨e5, rfl⟩ := lift_inv h5
      obtain ⟨vb, t4, h7, h8⟩ := bind_ok_inv h6
      obtain ⟨e, rfl⟩ := lift_inv (r := .ok _) h8
      cases e
      have kb' := kb t2
      rw [h7] at kb'
      rw [h3] at ka
      refine Eq.trans (KuzToken.bind_ok (iha hb.1 _ _ _ h1 t fun id v g => ht id v (kb' id v (ka id v g)))) ?_
      rw [if_neg hz]
      refine Eq.trans (KuzToken.bind_ok (iha hb.1 _ _ _ h3 t fun id v g => ht id v (kb' id v g))) ?_
      rw [e5]
      refine Eq.trans (KuzToken.bind_ok (a := vs) (w' := t) rfl) ?_
      exact Eq.trans (KuzToken.bind_ok (ihb hb.2 _ _ _ h7 t ht)) rfl
  | cached i b ih =>
    have : s'.1 i = some r := by
      simp only [Blk.valueWith] at h
      cases hs : s.1 i with
      | some x => rw [hs] at h; cases h; exact hs
      | none =>
        rw [hs] at h
        simp only at h
        rcases e : b.valueWith m user s with ⟨r, t⟩
        rw [e] at h
        cases r with
        | ok x => cases h; simp
        | throw _ => cases h
        | ub _ => cases h
        | diverge => cases h
    exact cached_hit (ht _ _ this)

/-- An encryption that has been done once. -/
theorem again_encryption {W' : Type} {env : Nat → Code W Blk V V} {env' : Nat → Code W' Blk V V} {high low : Blk} {base : Nat} {v r : V}
    {depth depth' : Nat} {s s' : Caches × W} (h : (encryption (Key.ofBlocks high low base) v).value m env depth s = (.ok r, s'))
    (w : W') : (encryption (Key.ofBlocks high low base) v).value m env' depth' (s'.1, w) = (.ok r, (s'.1, w)) := by
  have hf : ∀ n, Fixed ((env n).run (Blk.value m env (depth - 1))) := fun n => Fixed.run (fun b => Fixed.value env _ b) _
  have ho : Outer (fun _ => True) (encryption (Key.ofBlocks high low base) v) := outer_encryption (fun _ _ _ => trivial) v
  cases depth with
  | zero =>
    cases depth' with
    | zero => exact again (fun _ => Fixed.lift _) _ _ ho _ _ _ h _ fun _ _ g => g
    | succ d' => exact again (fun _ => Fixed.lift _) _ _ ho _ _ _ h _ fun _ _ g => g
  | succ d =>
    cases depth' with
    | zero => exact again hf _ _ ho _ _ _ h _ fun _ _ g => g
    | succ d' => exact again hf _ _ ho _ _ _ h _ fun _ _ g => g

/-! ### A key with two answers -/

/-- A call that can only succeed. -/
theorem Right.ok_of {α : Type} {x : Io (Caches × W) α} {r : α} {ref : Exec α} (h : Right m own (fun _ => False) False I x ref)
    (hr : ref = .ok r) {s : Caches × W} (hc : Consistent m own s.1) (hi : I s.2) :
    ∃ s', x s = (.ok r, s') ∧ Consistent m own s'.1 ∧ I s'.2 := by
  obtain ⟨h1, h2, h3⟩ := h s hc hi
  refine ⟨(x s).2, ?_, h2, h3⟩
  rcases h1 with h1 | h1 | ⟨e, h, -⟩
  · rw [← hr, ← h1]
  · exact h1.1.elim
  · exact h.elim

/-- Right caches that are all loaded hold the round keys of the standard. -/
theorem consistent_holds (hm : m.unalignedLoad = true) {high low : Kuz.Blk} {x y : Spec.Kuz.Block} (hh : HasValue m high x)
    (hl : HasValue m low y) {base : Nat} {own : Nat → Kuz.Blk} {c : Caches}
    (hc : Consistent m (keyOwn (Kuz.Key.ofBlocks high low base) base own) c)
    (h : ∀ j, 1 ≤ j → j ≤ 10 → (c (base + j)).isSome) : Holds c base (roundKey (x ++ y)) := by
  have k := ofBlocks_values hm hh hl base
  have g : ∀ (j : Nat) (z : Spec.Kuz.Block), 1 ≤ j → j ≤ 10 →
      HasValue m (keyOwn (Kuz.Key.ofBlocks high low base) base own (base + j)) z → ∃ v, c (base + j) = some v ∧ join64 v = z := by
    intro j z h1 h10 ⟨r, e1, e2⟩
    obtain ⟨v, hv⟩ := Option.isSome_iff_exists.mp (h j h1 h10)
    have := hc _ _ hv
    rw [e1] at this
    exact ⟨v, hv, by rw [← Exec.ok.inj this]; exact e2⟩
  intro i
  match i with
  | 0 => exact g 1 _ (by omega) (by omega) (by simpa only [keyOwn, Nat.add_right_inj, if_true, Nat.reduceEqDiff, if_false, Kuz.Key.ofBlocks] using inner_value k.h1)
  | 1 => exact g 2 _ (by omega) (by omega) (by simpa only [keyOwn, Nat.add_right_inj, if_true, Nat.reduceEqDiff, if_false, Kuz.Key.ofBlocks] using inner_value k.h2)
  | 2 => exact g 3 _ (by omega) (by omega) (by simpa only [keyOwn, Nat.add_right_inj, if_true, Nat.reduceEqDiff, if_false, Kuz.Key.ofBlocks] using inner_value k.h3)
  | 3 => exact g 4 _ (by omega) (by omega) (by simpa only [keyOwn, Nat.add_right_inj, if_true, Nat.reduceEqDiff, if_false, Kuz.Key.ofBlocks] using inner_value k.h4)
  | 4 => exact g 5 _ (by omega) (by omega) (by simpa only [keyOwn, Nat.add_right_inj, if_true, Nat.reduceEqDiff, if_false, Kuz.Key.ofBlocks] using inner_value k.h5)
  | 5 => exact g 6 _ (by omega) (by omega) (by simpa only [keyOwn, Nat.add_right_inj, if_true, Nat.reduceEqDiff, if_false, Kuz.Key.ofBlocks] using inner_value k.h6)
  | 6 => exact g 7 _ (by omega) (by omega) (by simpa only [keyOwn, Nat.add_right_inj, if_true, Nat.reduceEqDiff, if_false, Kuz.Key.ofBlocks] using inner_value k.h7)
  | 7 => exact g 8 _ (by omega) (by omega) (by simpa only [keyOwn, Nat.add_right_inj, if_true, Nat.reduceEqDiff, if_false, Kuz.Key.ofBlocks] using inner_value k.h8)
  | 8 => exact g 9 _ (by omega) (by omega) (by simpa only [keyOwn, Nat.add_right_inj, if_true, Nat.reduceEqDiff, if_false, Kuz.Key.ofBlocks] using inner_value k.h9)
  | 9 => exact g 10 _ (by omega) (by omega) (by simpa only [keyOwn, Nat.add_right_inj, if_true, Nat.reduceEqDiff, if_false, Kuz.Key.ofBlocks] using inner_value k.h10)

/-- The caches of an encryption by a key of two objects of the user. -/
theorem owned_encryption (val : Nat → V) (n k base : Nat) (v : V) (own : Nat → Kuz.Blk) :
    Owned (keyOwn (Kuz.Key.ofBlocks (.user (.ok (val n))) (.user (.ok (val k))) base) base own)
      (plainly val (encryption (Key.ofBlocks (.user n) (.user k) base) v)) := by
  rw [encryption, plainly_encrypted]
  exact Owned.encrypted base trivial trivial trivial

theorem plainly_encryption (hm : m.unalignedLoad = true) (val : Nat → V) (n k base : Nat) (v : V) :
    ∃ r, (plainly val (encryption (Key.ofBlocks (.user n) (.user k) base) v)).value m = .ok r ∧
      join64 r = Spec.Kuz.enc (join64 (val n) ++ join64 (val k)) (join64 v) := by
  rw [encryption, plainly_encrypted]
  exact encrypt_value hm ⟨_, rfl, rfl⟩ ⟨_, rfl, rfl⟩ base ⟨_, rfl, rfl⟩

/-- What the two objects answer from the second time on. -/
def later (b l : V) : Nat → V
  | 0 => b
  | _ => l

theorem dialog_user (key : Key) (x a b l : V) (lib : Blk → Io (Caches × Bool) V) (n : Nat) (c : Caches) :
    ((dialogKey key x a b l n).run lib) (c, true) = (.ok (later b l n), (c, true)) := by
  cases n <;> rfl

theorem dialog_first (key : Key) (x a b l : V) (lib : Blk → Io (Caches × Bool) V) {c c' : Caches} {r : V}
    (h : lib (encryption key x) (c, true) = (.ok r, (c', true))) :
    ((dialogKey key x a b l 0).run lib) (c, false) = (.ok a, (c', true)) := by
  show (Code.run lib (dialog key x a b)) (c, false) = _
  simp only [dialog, Code.run, Bool.false_eq_true, if_false, h]
  rfl

/-- After the first, interrupted, encryption the first round key is the answer that came last. -/
theorem dialog_mixed (hm : m.unalignedLoad = true) (base : Nat) (x a b l : V) (d : Nat) :
    let key := Key.ofBlocks (.user 0) (.user 1) base
    ∃ c, Holds c base (fun i => if i = 0 then join64 a else roundKey (join64 b ++ join64 l) i) ∧
      ∀ v, (encryption key v).value m (dialogKey key x a b l) (d + 2) (noneLoaded, false) =
        (encryption key v).value m (dialogKey key x a b l) (d + 2) (c, true) := by
  intro key
  -- the encryption in between
  have hu : ∀ n, Right m (keyOwn (Kuz.Key.ofBlocks (.user (.ok b)) (.user (.ok l)) base) base fun _ => .raw 0 0) (fun _ => False)
      False (fun w => w = true) ((dialogKey key x a b l n).run ((Blk.value m (dialogKey key x a b l) d)))
      (.ok (later b l n)) := by
    rintro n ⟨c, w⟩ hc rfl
    rw [dialog_user]
    exact ⟨.inl rfl, hc, rfl⟩
  obtain ⟨r, e1, -⟩ := plainly_encryption hm (later b l) 0 1 base x
  obtain ⟨⟨c1, w1⟩, hx, h2, h3⟩ := Right.ok_of
    (Right.valueWith hu (encryption key x) (owned_encryption (later b l) 0 1 base x _)) e1 (s := (noneLoaded, true))
    (consistent_none m _) rfl
  subst h3
  have hx : (encryption key x).value m (dialogKey key x a b l) (d + 1) (noneLoaded, true) = (.ok r, (c1, true)) := hx
  have hn : ∀ j, 1 ≤ j → j ≤ 10 → (c1 (base + j)).isSome := fun j h1 h10 =>
    needs_value (m := m) (env := dialogKey key x a b l) (depth := d + 1) (b := encryption key x) (s := (noneLoaded, true))
      (s' := (c1, true)) (needs_encryption x j h1 h10) hx
  have hold := consistent_holds hm (high := .user (.ok b)) (low := .user (.ok l)) ⟨b, rfl, rfl⟩ ⟨l, rfl, rfl⟩ h2 hn
  -- the interrupted one goes on
  refine ⟨fun i => if i = base + 1 then some a else c1 i, fun i => ?_, fun v => ?_⟩
  · by_cases hi : i = 0
    · subst hi; exact ⟨a, by simp, by simp⟩
    · have : i.val ≠ 0 := fun h => hi (Fin.ext h)
      obtain ⟨u, g1, g2⟩ := hold i
      exact ⟨u, by simp only; rw [if_neg (by omega)]; exact g1, by simp only [if_neg hi]; exact g2⟩
  · have hole : (Blk.user 0).valueWith m
        (fun n => (dialogKey key x a b l n).run (Blk.value m (dialogKey key x a b l) (d + 1))) (noneLoaded, false) =
        (.ok a, (c1, true)) := by
      exact Eq.trans (user_value 0 _ _) (dialog_first key x a b l (Blk.value m (dialogKey key x a b l) (d + 1)) hx)
    have h1 := first_ok v (cached_miss (id := base + 1) rfl hole)
    have h2 : (Blk.cached (base + 1) (.user 0)).valueWith m
        (fun n => (dialogKey key x a b l n).run (Blk.value m (dialogKey key x a b l) (d + 1)))
        (fun i => if i = base + 1 then some a else c1 i, true) =
        (.ok a, (fun i => if i = base + 1 then some a else c1 i, true)) := cached_hit (if_pos rfl)
    rw [value_succ]
    exact Leads.same (Leads.encryption (.user 0) (.user 1) base v) h1 (first_ok v h2)

theorem encWith_head (k : Fin 10 → Spec.Kuz.Block) (a v : Spec.Kuz.Block) :
    Spec.Kuz.encWith ((List.finRange 10).map fun i => if i = 0 then a else k i) v =
      Spec.Kuz.encWith ((List.finRange 10).map k) (v ^^^ a ^^^ k 0) := by
  have e1 : ((List.finRange 10).map fun i => if i = 0 then a else k i) = a :: [k 1, k 2, k 3, k 4, k 5, k 6, k 7, k 8, k 9] := rfl
  have e2 : (List.finRange 10).map k = k 0 :: [k 1, k 2, k 3, k 4, k 5, k 6, k 7, k 8, k 9] := rfl
  have : Spec.Kuz.X a v = Spec.Kuz.X (k 0) (v ^^^ a ^^^ k 0) := by
    simp only [Spec.Kuz.X]
    generalize k 0 = b
    rw [BitVec.xor_comm (v ^^^ a) b, ← BitVec.xor_assoc b b, BitVec.xor_self, BitVec.zero_xor, BitVec.xor_comm]
  have s : ∀ (x y : Spec.Kuz.Block) (ks : List Spec.Kuz.Block) (v : Spec.Kuz.Block),
      Spec.Kuz.encWith (x :: y :: ks) v = Spec.Kuz.encWith (y :: ks) (Spec.Kuz.L (Spec.Kuz.S (Spec.Kuz.X x v))) :=
    fun x y ks v => by rw [Spec.Kuz.encWith]; rfl; simp
  rw [e1, e2, s a, s (k 0), this]

/-- The encryption with a first round key that belongs to another key. -/
theorem encWith_first (a b l v : Spec.Kuz.Block) :
    Spec.Kuz.encWith ((List.finRange 10).map fun i => if i = 0 then a else roundKey (b ++ l) i) v =
      Spec.Kuz.enc (b ++ l) (v ^^^ a ^^^ b) := by
  have k0 : roundKey (b ++ l) 0 = b := by
    show (Spec.Kuz.keyPair (b ++ l) 0).1 = b
    simp only [Spec.Kuz.keyPair, extract_append_high]
  rw [encWith_head, k0]
  rfl

theorem run_first {S Q A R : Type} {asks : Q → Prop} {lib : Q → Io (S × W) A} {c : S}
    (hl : ∀ q, asks q → ∀ w, ∃ w', lib q (c, w) = (.diverge, (c, w'))) (p : Code W Q A R) (hp : First asks p) (w : W) :
    ∃ w', p.run lib (c, w) = (.diverge, (c, w')) := by
  induction p generalizing w with
  | done r => exact hp.elim
  | world act next ih => exact ih w (hp w) (act w)
  | call q next ih =>
    obtain ⟨w', h⟩ := hl q hp w
    exact ⟨w', call_diverge h⟩

/-- A half that needs the key cannot be had. -/
theorem needs_itself {env : Nat → Code W Blk V V} {base k : Nat} {low : Blk}
    (h : First (fun b => ∃ x, b = encryption (Key.ofBlocks (.user k) low base) x) (env k)) (depth : Nat) (c : Caches)
    (hc : c (base + 1) = none) (w : W) (v : V) :
    ∃ w', (encryption (Key.ofBlocks (.user k) low base) v).value m env depth (c, w) = (.diverge, (c, w')) := by
  induction depth generalizing v w with
  | zero => exact ⟨w, Leads.diverge (Leads.encryption (.user k) low base v) (first_diverge v (cached_diverge hc rfl))⟩
  | succ d ih =>
    obtain ⟨w', e⟩ := run_first (lib := Blk.value m env d) (c := c) (fun q ⟨x, hx⟩ w => hx ▸ ih w x) (env k) h w
    exact ⟨w', Leads.diverge (Leads.encryption (.user k) low base v) (first_diverge v (cached_diverge hc e))⟩

/-! ### Histories -/

theorem runCalls_all {γ S α : Type} {call : γ → S → Exec α × S} {P : S → Prop} {Q : γ → Exec α → Prop} (calls : List γ)
    (h : ∀ c ∈ calls, ∀ s, P s → Q c (call c s).1 ∧ P (call c s).2) (s : S) (hs : P s) :
    ∀ p ∈ calls.zip (runCalls call calls s).1, Q p.1 p.2 := by
  induction calls generalizing s with
  | nil => intro p hp; cases hp
  | cons c cs ih =>
    obtain ⟨h1, h2⟩ := h c (by simp) s hs
    intro p hp
    rw [runCalls] at hp
    rcases List.mem_cons.mp hp with rfl | hp
    · exact h1
    · exact ih (fun c hc => h c (by simp [hc])) _ h2 p hp

theorem key_step (hm : m.unalignedLoad = true) {base : Nat} {env : Nat → Code W Blk V V}
    (he : ∀ n, Answers E (fun b => ∃ x, b = encryption (Key.ofBlocks (.user 0) (.user 1) base) x) (val n) (env n)) (depth : Nat) (v : V)
    (s : Caches × W)
    (hs : Consistent m (keyOwn (Kuz.Key.ofBlocks (.user (.ok (val 0))) (.user (.ok (val 1))) base) base fun _ => .raw 0 0) s.1) :
    let z := (encryption (Key.ofBlocks (.user 0) (.user 1) base) v).value m env depth s
    ((∃ r, z.1 = .ok r ∧ join64 r = Spec.Kuz.enc (join64 (val 0) ++ join64 (val 1)) (join64 v)) ∨ z.1 = .diverge ∨ ∃ e, E e ∧ z.1 = .throw e) ∧
      Consistent m (keyOwn (Kuz.Key.ofBlocks (.user (.ok (val 0))) (.user (.ok (val 1))) base) base fun _ => .raw 0 0) z.2.1 := by
  intro z
  have ho := fun v => owned_encryption val 0 1 base v fun _ => .raw 0 0
  obtain ⟨h1, h2, -⟩ := Right.value (m := m) (allowed := fun b => ∃ x, b = encryption (Key.ofBlocks (.user 0) (.user 1) base) x)
    (fun b ⟨x, hx⟩ => ⟨hx ▸ ho x, fun u hu => by
      obtain ⟨r, e, -⟩ := plainly_encryption hm val 0 1 base x
      rw [hx, e] at hu
      cases hu⟩) he depth _ (ho v) s hs trivial
  refine ⟨?_, h2⟩
  obtain ⟨r, e1, e2⟩ := plainly_encryption hm val 0 1 base v
  rw [e1] at h1
  rcases h1 with h1 | h1 | h1
  · exact .inl ⟨r, h1, e2⟩
  · exact .inr (.inl h1.2)
  · exact .inr (.inr h1)

theorem two_step (hm : m.unalignedLoad = true) (base : Nat) (x a b l : V) (depth : Nat) (hd : 2 ≤ depth) (v : V) (s : Caches × Bool)
    (hs : s = (noneLoaded, false) ∨
      (s.2 = true ∧ Holds s.1 base fun i => if i = 0 then join64 a else roundKey (join64 b ++ join64 l) i)) :
    let key := Key.ofBlocks (.user 0) (.user 1) base
    let z := (encryption key v).value m (dialogKey key x a b l) depth s
    (∃ r, z.1 = .ok r ∧ join64 r = Spec.Kuz.enc (join64 b ++ join64 l) (join64 v ^^^ join64 a ^^^ join64 b)) ∧
      (z.2 = (noneLoaded, false) ∨
        (z.2.2 = true ∧ Holds z.2.1 base fun i => if i = 0 then join64 a else roundKey (join64 b ++ join64 l) i)) := by
  intro key z
  have later : ∀ c, (Holds c base fun i => if i = 0 then join64 a else roundKey (join64 b ++ join64 l) i) →
      ∃ r, (encryption key v).value m (dialogKey key x a b l) depth (c, true) = (.ok r, (c, true)) ∧
        join64 r = Spec.Kuz.enc (join64 b ++ join64 l) (join64 v ^^^ join64 a ^^^ join64 b) := by
    intro c hc
    obtain ⟨r, e1, e2⟩ := hc.encryption hm (dialogKey key x a b l) depth (.user 0) (.user 1) v true
    exact ⟨r, e1, by rw [e2, encWith_first]⟩
  have : ∃ r c, z = (.ok r, (c, true)) ∧ (Holds c base fun i => if i = 0 then join64 a else roundKey (join64 b ++ join64 l) i) ∧
      join64 r = Spec.Kuz.enc (join64 b ++ join64 l) (join64 v ^^^ join64 a ^^^ join64 b) := by
    rcases hs with rfl | ⟨h1, h2⟩
    · obtain ⟨d, rfl⟩ : ∃ d, depth = d + 2 := ⟨depth - 2, by omega⟩
      obtain ⟨c, h1, h2⟩ := dialog_mixed hm base x a b l d
      obtain ⟨r, e1, e2⟩ := later c h1
      exact ⟨r, c, Eq.trans (h2 v) e1, h1, e2⟩
    · obtain ⟨c, w⟩ := s
      obtain rfl : w = true := h1
      obtain ⟨r, e1, e2⟩ := later c h2
      exact ⟨r, c, e1, h2, e2⟩
  obtain ⟨r, c, h1, h2, h3⟩ := this
  clear_value z
  subst h1
  exact ⟨⟨r, rfl, h3⟩, .inr ⟨rfl, h2⟩⟩

end Goost.Reenter
