import Verif.Lemmas.Mutex
import Verif.Lemmas.KuzCache
import Verif.Lemmas.KuzStream
/-
Property C117: a mutex around every use makes a shared key safe on every processor; without it, a load may be answered
with an old value.

An event `(t, n)` is the next step of thread `t`; if it is a load, `n` says which of the values that the thread can
still be given it gets. `Locked` are threads that lock one mutex around every request, `Free` threads that do not.
-/
namespace Goost.Props
open Goost.Conc Spec

section
open Goost.Kuz

attribute [local irreducible] Safe in
/-- C117: threads that evaluate blocks of the 128-bit cipher, all caches being fresh, and lock a mutex around every
evaluation: a thread that has returned has got what it would get if every evaluation returned the plain value of the
block, whatever old values loads are answered with. -/
theorem C117_results_right {α : Type} (m : Machine) (own : Nat → Blk)
    (programs : Nat → Prog Blk (Exec (W64 × W64)) α)
    (h : ∀ t, AllRequests (Owned own) (Blk.value m) (programs t)) (events : List (Nat × Nat)) (t : Nat) (a : α)
    (hr : Returned (((Locked.start programs).run (evalBlk m) events).threads t) a) :
    a = alone (Blk.value m) (programs t) := by
  have inv := Locked.Inv.run (I := Good (cacheDiscipline m own)) (P := Owned own) (answer := Blk.value m)
    (handler := evalBlk m)
    (fun o ho mem hm => Safe.run_alone (evalBlk_safe m own o ho (fun _ => False)) hm (fun _ h => h.elim))
    events (Locked.Inv.start (good_fresh m own) programs h)
  exact (inv.outside t _ hr).2

example (events : List (Nat × Nat)) := C117_results_right .x86 (fun _ => .raw 1 2) (fun _ => Prog.op (.cached 3 (.raw 1 2)) .ret)
  (fun _ => ⟨⟨rfl, trivial⟩, trivial⟩) events

attribute [local irreducible] BlkEncrypted in
/-- C117 for threads that share one key and encrypt blocks of their own: each thread gets for each of its blocks the
encryption of the standard. -/
theorem C117_shared_key_conforms (m : Machine) (hm : m.unalignedLoad = true) (high low : Blk)
    (hh : Plain high) (hl : Plain low) (h l : W64 × W64) (hhv : high.value m = .ok h)
    (hlv : low.value m = .ok l) (values : Nat → List (W64 × W64)) (events : List (Nat × Nat))
    (t : Nat) (rs : List (Exec (W64 × W64)))
    (hr : Returned (((Locked.start fun t => (values t).foldr
        (fun v k => Prog.op (BlkEncrypted (BlkRaw.ofPair v) (Key.ofBlocks high low)) fun r =>
          k.bind fun rs => .ret (r :: rs)) (.ret [])).run (evalBlk m) events).threads t) rs) :
    rs.length = (values t).length ∧
    ∀ i (hi : i < (values t).length), ∃ r, rs[i]? = some (.ok r) ∧
      join64 r = Spec.Kuz.enc (join64 h ++ join64 l) (join64 (values t)[i]) := by
  have own : ∀ v : W64 × W64, Owned (keyOwn (Key.ofBlocks high low) 0 fun _ => high)
      (BlkEncrypted (BlkRaw.ofPair v) (Key.ofBlocks high low)) := fun v =>
    Owned.encrypted 0 hh.owned hl.owned trivial
  have hbind : ∀ (p : Prog Blk (Exec (W64 × W64)) (List (Exec (W64 × W64)))) r,
      AllRequests (Owned (keyOwn (Key.ofBlocks high low) 0 fun _ => high)) (Blk.value m) p →
      AllRequests (Owned (keyOwn (Key.ofBlocks high low) 0 fun _ => high)) (Blk.value m)
        (p.bind fun rs => .ret (r :: rs)) := by
    intro p r
    induction p with
    | ret a => exact fun h => h
    | op o k ih => exact fun h => ⟨h.1, ih _ h.2⟩
  have e := C117_results_right m _ _ (fun t => by
    induction values t with
    | nil => trivial
    | cons v vs ih => exact ⟨own v, hbind _ _ ih⟩) events t rs hr
  have e2 : ∀ vs : List (W64 × W64), alone (Blk.value m) (vs.foldr
        (fun v k => Prog.op (BlkEncrypted (BlkRaw.ofPair v) (Key.ofBlocks high low)) fun r =>
          k.bind fun rs => .ret (r :: rs)) (.ret [])) =
      vs.map fun v => (BlkEncrypted (BlkRaw.ofPair v) (Key.ofBlocks high low)).value m := by
    intro vs
    induction vs with
    | nil => rfl
    | cons v vs ih =>
      simp only [List.foldr_cons, List.map_cons, alone, alone_bind]
      rw [ih]
  rw [e2] at e
  subst e
  refine ⟨by simp, fun i hi => ?_⟩
  obtain ⟨r, e3, e4⟩ := encrypts_ofBlocks hm hhv hlv 0 (BlkRaw.ofPair (values t)[i]) (values t)[i] rfl
  refine ⟨r, ?_, e4⟩
  rw [List.getElem?_map, List.getElem?_eq_getElem hi, Option.map_some, e3]

example (events : List (Nat × Nat)) (t : Nat) := C117_shared_key_conforms .x86 rfl (.raw 1 2) (.raw 3 4) trivial trivial _ _
  rfl rfl (fun t => List.replicate t (5, 6)) events t

attribute [local irreducible] BlkEncrypted Safe in
/-- C117, why the mutex is needed: without it, thread `t` has completed an encryption with a fresh key, and has got the
right result, before thread `u` begins to encrypt with the same key. Thread `u` is given the new mark of the first half
being cached, and the old value of the half; it gets the encryption under the key whose first half is zero. -/
theorem C117_without_mutex {α : Type} (m : Machine) (hm : m.unalignedLoad = true) (high low : Blk)
    (hh : Plain high) (hl : Plain low) (h l : W64 × W64) (hhv : high.value m = .ok h) (hlv : low.value m = .ok l)
    (programs : Nat → Prog Blk (Exec (W64 × W64)) α) (t u : Nat) (htu : t ≠ u) (v w : W64 × W64)
    (k k' : Exec (W64 × W64) → Prog Blk _ α)
    (ht : programs t = .op (BlkEncrypted (BlkRaw.ofPair v) (Key.ofBlocks high low)) k)
    (hu : programs u = .op (BlkEncrypted (BlkRaw.ofPair w) (Key.ofBlocks high low)) k') :
    let s := Free.start fun t => (programs t).handle (evalBlk m)
    ∃ before after c r, join64 c = Spec.Kuz.enc (join64 h ++ join64 l) (join64 v) ∧
      join64 r = Spec.Kuz.enc ((0 : BitVec 128) ++ join64 l) (join64 w) ∧
      (s.run before).threads t = (k (.ok c)).handle (evalBlk m) ∧
      (s.run before).threads u = s.threads u ∧
      (s.run (before ++ after)).threads u = (k' (.ok r)).handle (evalBlk m) := by
  intro s
  obtain ⟨c, hc, hc2⟩ := encrypts_ofBlocks hm hhv hlv 0 (BlkRaw.ofPair v) v rfl
  have own : Owned (keyOwn (Key.ofBlocks high low) 0 fun _ => high)
      (BlkEncrypted (BlkRaw.ofPair v) (Key.ofBlocks high low)) := Owned.encrypted 0 hh.owned hl.owned trivial
  obtain ⟨ha, hgood⟩ := Safe.run_alone (evalBlk_safe m _ _ own (fun _ => False)) (good_fresh m _) (fun _ h => h.elim)
  rw [hc] at ha
  have hwarm := warm_after m _ (strict_encrypted (BlkRaw.ofPair v) trivial high low 0) (fun _ => 0) c ha
  have hne := warm_first _ high low hwarm
  have h1 : (runAlone (evalBlk m (BlkEncrypted (BlkRaw.ofPair v) (Key.ofBlocks high low))) fun _ => 0).2 (.loaded 1) = 1 := by
    rcases hgood.value (.loaded 1) with q | q
    · exact absurd q hne
    · simp only [cacheDiscipline] at q
      split at q
      · exact (Option.some.inj q).symm
      · cases q
  obtain ⟨ev, ch, e1, e2⟩ := Free.one_new (fun t => (programs t).handle (evalBlk m)) t u htu
    (evalBlk m (BlkEncrypted (BlkRaw.ofPair v) (Key.ofBlocks high low))) (fun r => (k r).handle (evalBlk m))
    (by simp only [ht, Prog.handle]) (.loaded 1)
  rw [h1] at e2
  rw [ha] at e1
  obtain ⟨ev', e3, -, -⟩ := Free.alone_for_a_while u ch
    (evalBlk m (BlkEncrypted (BlkRaw.ofPair w) (Key.ofBlocks high low))) (fun r => (k' r).handle (evalBlk m))
    (s.run ev) (by rw [e1]; simp only [Ne.symm htu, if_false, hu, Prog.handle])
  obtain ⟨r, e4, e5⟩ := alone_remembered m hm high low hh hl h l (0, 0) hhv hlv
    (Buffered.put (fun _ => 0) (.loaded 1, 1)) (by simp [cachesOf, Buffered.put])
    (fun id hid => by simp [cachesOf, Buffered.put, hid]) w
  refine ⟨ev, ev', c, r, hc2, ?_, ?_, ?_, ?_⟩
  · rw [e5]; rfl
  · rw [e1]; simp
  · rw [e1]; simp only [Ne.symm htu, if_false]; rfl
  · rw [Free.run_append, e3, e2, e4]; simp

/-- C117 for the 128-bit cipher: never are two threads inside the key at once. -/
theorem C117_one_at_a_time {α : Type} (m : Machine) (programs : Nat → Prog Blk (Exec (W64 × W64)) α)
    (events : List (Nat × Nat)) (t u : Nat)
    (ht : Inside (((Locked.start programs).run (evalBlk m) events).threads t))
    (hu : Inside (((Locked.start programs).run (evalBlk m) events).threads u)) : t = u := by
  have h := (Locked.Owns.start programs).run (handler := evalBlk m) events
  exact Option.some.inj (((h t).1 ht).symm.trans ((h u).1 hu))

/-- C117 for the 128-bit cipher: there is no deadlock; from every state that can be reached, every thread can be run to
its end. -/
theorem C117_no_deadlock {α : Type} (m : Machine) (programs : Nat → Prog Blk (Exec (W64 × W64)) α)
    (events : List (Nat × Nat)) (t : Nat) :
    ∃ more a, Returned (((Locked.start programs).run (evalBlk m) (events ++ more)).threads t) a := by
  obtain ⟨more, a, h⟩ := Locked.no_deadlock (evalBlk m) ((Locked.Owns.start programs).run (handler := evalBlk m) events) t
  exact ⟨more, a, by rw [Locked.run_append]; exact h⟩

/-- C117 for the 128-bit cipher without a mutex, the part that is true: once one encryption with the key has been
completed before the threads are started, so that all of them are given what it left in memory (`mem`), every thread
that has returned has got what it would get if every evaluation returned the plain value of the block. -/
theorem C117_after_first {α : Type} (m : Machine) (high low : Blk) (hh : Plain high) (hl : Plain low)
    (first r : W64 × W64) (mem : CacheLoc → W64)
    (hfirst : runAlone (evalBlk m (BlkEncrypted (BlkRaw.ofPair first) (Key.ofBlocks high low)))
      (fun _ => 0) = (.ok r, mem))
    (programs : Nat → Prog Blk (Exec (W64 × W64)) α)
    (h : ∀ t, AllRequests (fun b => ∃ p, Plain p ∧ b = BlkEncrypted p (Key.ofBlocks high low))
      (Blk.value m) (programs t)) (events : List (Nat × Nat)) (t : Nat) (a : α)
    (hr : (Free.run ⟨fun t => (programs t).handle (evalBlk m), ⟨fun l _ => mem l, fun _ => 0, fun _ _ => 0⟩⟩
      events).threads t = .ret a) :
    a = alone (Blk.value m) (programs t) := by
  have hread := fun t => reads_after_first m high low hh hl first r mem hfirst (programs t) (h t)
  rw [Free.reads_run (mem := mem)
    (s := ⟨fun t => (programs t).handle (evalBlk m), ⟨fun l _ => mem l, fun _ => 0, fun _ _ => 0⟩⟩) events
    (fun _ _ => rfl) (fun t => (hread t).1) t a hr]
  exact (hread t).2

/-- Two threads as in `C117_without_mutex`: the second returns the encryption under a wrong key. -/
example : ∃ events r, join64 r = Spec.Kuz.enc ((0 : BitVec 128) ++ join64 (5, 6)) (join64 (7, 8)) ∧
    ((Free.start fun t => (if t = 0 then
      Prog.op (BlkEncrypted (BlkRaw.ofPair (1, 2)) (Key.ofBlocks (.raw 3 4) (.raw 5 6))) .ret
    else if t = 1 then
      .op (BlkEncrypted (BlkRaw.ofPair (7, 8)) (Key.ofBlocks (.raw 3 4) (.raw 5 6))) .ret
    else .ret (.ok (0, 0)) : Prog Blk (Exec (W64 × W64)) _).handle (evalBlk .x86)).run events).threads 1 =
      .ret (.ok r) := by
  obtain ⟨ev, ev', -, r, -, h, -, -, h2⟩ := C117_without_mutex .x86 rfl (.raw 3 4) (.raw 5 6) trivial trivial (3, 4)
    (5, 6) rfl rfl (fun t => if t = 0 then
      Prog.op (BlkEncrypted (BlkRaw.ofPair (1, 2)) (Key.ofBlocks (.raw 3 4) (.raw 5 6))) .ret
    else if t = 1 then
      .op (BlkEncrypted (BlkRaw.ofPair (7, 8)) (Key.ofBlocks (.raw 3 4) (.raw 5 6))) .ret
    else .ret (.ok (0, 0))) 0 1 (by decide) (1, 2) (7, 8) .ret .ret rfl rfl
  exact ⟨ev ++ ev', r, h, h2⟩

/-- Two threads that lock a mutex around the evaluation of a cached block; the second one waits, and asks for the oldest
values that it can still be given. Both get the value. Without the mutex the second gets zeros. -/
example :
    let fill := [(0, 0), (0, 0), (0, 0), (0, 0), (0, 0), (0, 0), (0, 0)]
    (∀ t ≤ 1, (match ((Locked.start (Loc := CacheLoc) (Val := W64) fun _ =>
        Prog.op (Blk.cached 3 (.raw 1 2)) (.ret (α := Exec (W64 × W64)))).run (evalBlk .iso)
      ((1 - 1, 0) :: (1, 0) :: fill ++ [(1, 0), (1, 0), (1, 0), (1, 0), (1, 0)])).threads t with
        | .outside (.ret a) => a | _ => .diverge) = .ok (1, 2)) ∧
    (match ((Free.start fun _ => evalBlk .iso (.cached 3 (.raw 1 2))).run
      (fill ++ [(1, 1), (1, 0), (1, 0)])).threads 1 with | .ret a => a | _ => .diverge) = .ok (0, 0) := by
  decide

end

section
open Goost.Magma

/-- C117 for a `LazyKey` of the 64-bit cipher made from text: a request is any use of the key. A thread that has returned
has got what it would get if it were the only one. -/
theorem C117_magma_results_right {α β : Type} (kd : KeyData)
    (programs : Nat → Prog (Prog Int (Exec W32) β) β α) (events : List (Nat × Nat)) (t : Nat) (a : α)
    (hr : Returned (((Locked.start programs).run (fun use => use.handle (evalKey kd)) events).threads t) a) :
    a = alone (alone (KeyCachedData kd)) (programs t) := by
  have hall : ∀ {Op Res γ : Type} (answer : Op → Res) (p : Prog Op Res γ), AllRequests (fun _ => True) answer p := by
    intro Op Res γ answer p
    induction p with
    | ret a => trivial
    | op o k ih => exact ⟨trivial, ih _⟩
  have inv := Locked.Inv.run (I := Good (keyDiscipline kd)) (P := fun _ => True) (answer := alone (KeyCachedData kd))
    (handler := fun use : Prog Int (Exec W32) β => use.handle (evalKey kd))
    (fun o _ mem hm => Safe.run_alone (Safe.handle (P := fun _ => True) (fun o _ K => evalKey_safe kd o K) o
      (hall _ o) (fun _ => False)) hm (fun _ h => h.elim))
    events (Locked.Inv.start (goodKey_fresh kd) programs fun t => hall _ _)
  exact (inv.outside t _ hr).2

/-- C117 for encryption with the 64-bit cipher: the threads encrypt blocks of their own with a shared key made from a
text of 64 hexadecimal digits, and lock a mutex around every encryption. Each gets for each of its blocks the encryption
of the standard. -/
theorem C117_magma_conforms (s : List Char) (hs : IsHex s) (hl : s.length = 64) (values : Nat → List (W32 × W32))
    (events : List (Nat × Nat)) (t : Nat) (rs : List (Exec (W32 × W32)))
    (hr : Returned (((Locked.start fun t => (values t).foldr
        (fun v k => Prog.op (askEncrypt SboxR3412 v) fun r => k.bind fun rs => .ret (r :: rs)) (.ret [])).run
      (fun use => use.handle (evalKey (KeyDataString s))) events).threads t) rs) :
    rs.length = (values t).length ∧
    ∀ i (hi : i < (values t).length), ∃ c, rs[i]? = some (.ok c) ∧
      join32 c = Spec.Magma.enc (BitVec.ofNat 256 (hexNat s)) (join32 (values t)[i]) := by
  have e := C117_magma_results_right (KeyDataString s) _ events t rs hr
  have e2 : ∀ vs : List (W32 × W32), alone (alone (KeyCachedData (KeyDataString s))) (vs.foldr
        (fun v k => Prog.op (askEncrypt SboxR3412 v) fun r => k.bind fun rs => .ret (r :: rs)) (.ret [])) =
      vs.map fun v => alone (KeyCachedData (KeyDataString s)) (askEncrypt SboxR3412 v) := by
    intro vs
    induction vs with
    | nil => rfl
    | cons v vs ih =>
      simp only [List.foldr_cons, List.map_cons, alone, alone_bind]
      rw [ih]
  rw [e2] at e
  subst e
  refine ⟨by simp, fun i hi => ?_⟩
  refine ⟨_, ?_, join32_encP _ _⟩
  rw [List.getElem?_map, List.getElem?_eq_getElem hi, Option.map_some, alone_encrypt .iso]
  exact congrArg some (BlkEncrypted_value (LazyKey_ofString_computes hs hl) .iso rfl)

example (events : List (Nat × Nat)) (t : Nat) := C117_magma_conforms
  "ffeeddccbbaa99887766554433221100f0f1f2f3f4f5f6f7f8f9fafbfcfdfeff".toList (by decide) (by decide)
  (fun t => List.replicate t (5, 6)) events t

/-- C117 for the 64-bit cipher: never are two threads inside the key at once. -/
theorem C117_magma_one_at_a_time {α β : Type} (kd : KeyData) (programs : Nat → Prog (Prog Int (Exec W32) β) β α)
    (events : List (Nat × Nat)) (t u : Nat)
    (ht : Inside (((Locked.start programs).run (fun use => use.handle (evalKey kd)) events).threads t))
    (hu : Inside (((Locked.start programs).run (fun use => use.handle (evalKey kd)) events).threads u)) : t = u := by
  have h := (Locked.Owns.start programs).run (handler := fun use => use.handle (evalKey kd)) events
  exact Option.some.inj (((h t).1 ht).symm.trans ((h u).1 hu))

/-- C117 for the 64-bit cipher: there is no deadlock. -/
theorem C117_magma_no_deadlock {α β : Type} (kd : KeyData) (programs : Nat → Prog (Prog Int (Exec W32) β) β α)
    (events : List (Nat × Nat)) (t : Nat) :
    ∃ more a, Returned (((Locked.start programs).run (fun use => use.handle (evalKey kd)) (events ++ more)).threads t) a := by
  obtain ⟨more, a, h⟩ := Locked.no_deadlock (fun use => use.handle (evalKey kd))
    ((Locked.Owns.start programs).run (handler := fun use => use.handle (evalKey kd)) events) t
  exact ⟨more, a, by rw [Locked.run_append]; exact h⟩

/-- C117, why the mutex is needed: without it, thread `t` has used a word of a fresh key, and has got it, before thread
`u` begins. Thread `u` is given the new mark of the words being cached, and the old words: it runs as if all words of
the key were zero. -/
theorem C117_magma_without_mutex {α : Type} (kd : KeyData) (hall : ∀ i : Nat, i < 8 → ∃ k, kd i = .ok k)
    (programs : Nat → Prog Int (Exec W32) α) (t u : Nat) (htu : t ≠ u) (i : Int)
    (k : Exec W32 → Prog Int (Exec W32) α) (ht : programs t = .op i k) :
    let s := Free.start fun t => (programs t).handle (evalKey kd)
    ∃ before after, (s.run before).threads t = (k (KeyCachedData kd i)).handle (evalKey kd) ∧
      (s.run before).threads u = s.threads u ∧
      (s.run (before ++ after)).threads u =
        .ret (alone (fun j => if 0 ≤ j ∧ j < 8 then .ok 0 else .ub .oobRead) (programs u)) := by
  intro s
  obtain ⟨ha, hgood⟩ := Safe.run_alone (evalKey_safe kd i (fun _ => False)) (goodKey_fresh kd) (fun _ h => h.elim)
  have hc := cached_after kd hall (fun _ => 0) i
  have h1 : (runAlone (evalKey kd i) fun _ => 0).2 .cached = 1 := by
    rcases hgood.value .cached with q | q
    · exact absurd q hc
    · simp only [keyDiscipline] at q
      split at q
      · exact (Option.some.inj q).symm
      · cases q
  obtain ⟨ev, ch, e1, e2⟩ := Free.one_new (fun t => (programs t).handle (evalKey kd)) t u htu
    (evalKey kd i) (fun r => (k r).handle (evalKey kd)) (by simp only [ht, Prog.handle]) .cached
  rw [h1] at e2
  rw [ha] at e1
  obtain ⟨ev', e3, -, -⟩ := Free.alone_for_a_while u ch ((programs u).handle (evalKey kd)) .ret
    (s.run ev) (by rw [e1, bind_ret]; simp only [Ne.symm htu, if_false])
  refine ⟨ev, ev', ?_, ?_, ?_⟩
  · rw [e1]; simp
  · rw [e1]; simp only [Ne.symm htu, if_false]; rfl
  · rw [Free.run_append, e3, e2, alone_zero]
    simp only [if_true]
    rw [show KeyCachedData (fun _ => .ok 0) = fun j => if 0 ≤ j ∧ j < 8 then .ok 0 else .ub .oobRead from
      funext fun j => KeyCachedData_all (fun _ _ => ⟨0, rfl⟩) j]

example := C117_magma_without_mutex (fun i => .ok (BitVec.ofInt 32 i + 10)) (fun _ _ => ⟨_, rfl⟩)
  (fun t => Prog.op (t : Int) .ret) 0 1 (by decide) 0 _ rfl

/-- C117 without a mutex: the second thread gets the encryption under the zero key, whatever the key is. -/
theorem C117_magma_zero_key (s : List Char) (hs : IsHex s) (hl : s.length = 64) (v w : W32 × W32) :
    ∃ events c, join32 c = Spec.Magma.enc 0 (join32 w) ∧
      ((Free.start fun t => (askEncrypt SboxR3412 (if t = 0 then v else w)).handle (evalKey (KeyDataString s))).run
        events).threads 1 = .ret (.ok c) := by
  obtain ⟨ev, ev', -, -, h⟩ := C117_magma_without_mutex (KeyDataString s)
    (fun i hi => ⟨_, KeyDataString_eq hs hl ⟨i, hi⟩⟩)
    (fun t => askEncrypt SboxR3412 (if t = 0 then v else w)) 0 1 (by decide) 0 _ rfl
  refine ⟨ev ++ ev', _, join32_encP (fun i => Spec.Magma.g Spec.Magma.pi (Spec.Magma.keyWord 0 i)) w, ?_⟩
  rw [h, ← BlkEncrypted_value zero_computes .iso (b := .raw w.1 w.2) (v := w) rfl, ← alone_encrypt,
    show KeyCachedData (fun _ => .ok 0) = fun j => if 0 ≤ j ∧ j < 8 then .ok 0 else .ub .oobRead from
    funext fun j => KeyCachedData_all (fun _ _ => ⟨0, rfl⟩) j]
  rfl

example := C117_magma_zero_key "ffeeddccbbaa99887766554433221100f0f1f2f3f4f5f6f7f8f9fafbfcfdfeff".toList (by decide) (by decide)
  (1, 2) (3, 4)

/-- C117 for the 64-bit cipher without a mutex, the part that is true: once one word of the key has been used before the
threads are started, so that all of them are given what it left in memory (`mem`), every thread that has returned has
got what it would get if it were the only one. -/
theorem C117_magma_after_first {α : Type} (kd : KeyData) (hall : ∀ i : Nat, i < 8 → ∃ k, kd i = .ok k)
    (first : Int) (r : Exec W32) (mem : KeyLoc → W32)
    (hfirst : runAlone (evalKey kd first) (fun _ => 0) = (r, mem))
    (programs : Nat → Prog Int (Exec W32) α) (events : List (Nat × Nat)) (t : Nat) (a : α)
    (hr : (Free.run ⟨fun t => (programs t).handle (evalKey kd), ⟨fun l _ => mem l, fun _ => 0, fun _ _ => 0⟩⟩
      events).threads t = .ret a) :
    a = alone (KeyCachedData kd) (programs t) := by
  have hc := cached_after kd hall (fun _ => 0) first
  have hgood := (Safe.run_alone (evalKey_safe kd first (fun _ => False)) (goodKey_fresh kd) (fun _ h => h.elim)).2
  rw [hfirst] at hc hgood
  rw [Free.reads_run (mem := mem)
    (s := ⟨fun t => (programs t).handle (evalKey kd), ⟨fun l _ => mem l, fun _ => 0, fun _ _ => 0⟩⟩) events
    (fun _ _ => rfl) (fun t => readsOnly_handle_key kd mem hc (programs t)) t a hr]
  have hs := Safe.handle (P := fun _ => True) (fun o _ K => evalKey_safe kd o K) (programs t) (by
        induction programs t with
        | ret a => trivial
        | op o k ih => exact ⟨trivial, ih _⟩) (fun _ => False)
  exact (Safe.run_alone hs hgood (fun _ h => h.elim)).1

/-- A text as in `C117_magma_conforms` and `C117_magma_zero_key`. -/
example : IsHex "ffeeddccbbaa99887766554433221100f0f1f2f3f4f5f6f7f8f9fafbfcfdfeff".toList ∧
    "ffeeddccbbaa99887766554433221100f0f1f2f3f4f5f6f7f8f9fafbfcfdfeff".toList.length = 64 := by decide

end
end Goost.Props
