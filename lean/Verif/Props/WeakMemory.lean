import Verif.Lemmas.WeakMemory
import Verif.Lemmas.KuzCache
/-
Property C113: threads share a key on a machine with store buffers.

A store goes to the buffer of its thread; the thread itself sees it at once, the others when it leaves the buffer.
`Event.turn t` is an access of thread `t`, `Event.leave t i` is store number `i` of its buffer becoming visible.
-/
namespace Goost.Props
open Goost.Conc Goost.Conc.Buffered Spec

section
open Goost.Kuz

/-- C113, the part about machines that make the stores of a thread visible in order (x86). Threads that evaluate
blocks of the 128-bit cipher, all caches being fresh: a thread that has returned has got what it would get if every
evaluation returned the plain value of the block. Missing: machines that do not keep the order, for which it is
false, see `C113_out_of_order`. -/
theorem C113_results_right_partial {α : Type} (m : Machine) (own : Nat → Blk)
    (programs : Nat → Prog Blk (Exec (W64 × W64)) α)
    (h : ∀ t, AllRequests (Owned own) (Blk.value m) (programs t)) (events : List Event) (ho : InOrder events)
    (t : Nat) (a : α)
    (hr : ((start fun t => (programs t).handle (evalBlk m)).run events).threads t = .ret a) :
    a = alone (Blk.value m) (programs t) :=
  BufferedSafe.result (D := cacheDiscipline m own) (s := start fun t => (programs t).handle (evalBlk m))
    (post := fun t a => a = alone (Blk.value m) (programs t))
    ⟨good_fresh m own, fun t => ⟨trivial, fun _ => False, fun _ h => h.elim,
      Safe.handle (fun b hb K => evalBlk_safe m own b hb K) (programs t) (h t) _⟩⟩ events ho hr

/-- C113 for threads that share one key and encrypt blocks of their own, on such a machine: each thread gets for each
of its blocks the encryption of the standard. -/
theorem C113_shared_key_conforms_partial (m : Machine) (hm : m.unalignedLoad = true) (high low : Blk)
    (hh : Plain high) (hl : Plain low) (h l : W64 × W64) (hhv : high.value m = .ok h)
    (hlv : low.value m = .ok l) (values : Nat → List (W64 × W64)) (events : List Event) (ho : InOrder events)
    (t : Nat) (rs : List (Exec (W64 × W64)))
    (hr : ((start fun t => ((values t).foldr
        (fun v k => Prog.op (BlkEncrypted (BlkRaw.ofPair v) (Key.ofBlocks high low)) fun r =>
          k.bind fun rs => .ret (r :: rs)) (.ret [])).handle (evalBlk m)).run events).threads t = .ret rs) :
    rs.length = (values t).length ∧
    ∀ i (hi : i < (values t).length), ∃ r, rs[i]? = some (.ok r) ∧
      join64 r = Spec.Kuz.enc (join64 h ++ join64 l) (join64 (values t)[i]) := by
  have own : ∀ v : W64 × W64, Owned (keyOwn (Key.ofBlocks high low) 0 fun _ => high)
      (BlkEncrypted (BlkRaw.ofPair v) (Key.ofBlocks high low)) := fun v =>
    Owned.encrypted 0 hh.owned hl.owned trivial
  have hbind : ∀ (p : Prog Blk (Exec (W64 × W64)) (List (Exec (W64 × W64)))) r,
      AllRequests (Owned (keyOwn (Key.ofBlocks high low) 0 fun _ => high)) (Blk.value m) p →
      AllRequests (Owned (keyOwn (Key.ofBlocks high low) 0 fun _ => high)) (Blk.value m)
        (p.bind fun rs => .ret (r :: rs)) := by
    intro p r
    induction p with
    | ret a => exact fun h => h
    | op o k ih => exact fun h => ⟨h.1, ih _ h.2⟩
  have e := C113_results_right_partial m _ _ (fun t => by
    induction values t with
    | nil => trivial
    | cons v vs ih => exact ⟨own v, hbind _ _ ih⟩) events ho t rs hr
  have e2 : ∀ vs : List (W64 × W64), alone (Blk.value m) (vs.foldr
        (fun v k => Prog.op (BlkEncrypted (BlkRaw.ofPair v) (Key.ofBlocks high low)) fun r =>
          k.bind fun rs => .ret (r :: rs)) (.ret [])) =
      vs.map fun v => (BlkEncrypted (BlkRaw.ofPair v) (Key.ofBlocks high low)).value m := by
    intro vs
    induction vs with
    | nil => rfl
    | cons v vs ih =>
      simp only [List.foldr_cons, List.map_cons, alone, alone_bind]
      rw [ih]
  rw [e2] at e
  subst e
  refine ⟨by simp, fun i hi => ?_⟩
  obtain ⟨r, e3, e4⟩ := encrypts_ofBlocks hm hhv hlv 0 (BlkRaw.ofPair (values t)[i]) (values t)[i] rfl
  refine ⟨r, ?_, e4⟩
  rw [List.getElem?_map, List.getElem?_eq_getElem hi, Option.map_some, e3]

/-- C113: every thread that gets infinitely many turns returns, whatever order the stores become visible in. -/
theorem C113_every_thread_returns {α : Type} (m : Machine) (programs : Nat → Prog Blk (Exec (W64 × W64)) α)
    (events : Nat → Event) (t : Nat) (h : TurnsForever t events) :
    ∃ n a, ((start fun t => (programs t).handle (evalBlk m)).run (firstEvents events n)).threads t = .ret a :=
  returns_buffered events t h _ _ 0 rfl

attribute [local irreducible] BlkEncrypted in
/-- C113 is false of the code on machines that do not keep the order of stores (ARM): two threads begin to encrypt
with the same fresh key. The mark of the first half being cached becomes visible before the half itself; then the
second thread gets the encryption under the key whose first half is zero, and goes on with it. -/
theorem C113_out_of_order {α : Type} (m : Machine) (hm : m.unalignedLoad = true) (high low : Blk)
    (hh : Plain high) (hl : Plain low) (h l : W64 × W64) (hhv : high.value m = .ok h) (hlv : low.value m = .ok l)
    (programs : Nat → Prog Blk (Exec (W64 × W64)) α) (t u : Nat) (htu : t ≠ u) (v w : W64 × W64)
    (k k' : Exec (W64 × W64) → Prog Blk _ α)
    (ht : programs t = .op (BlkEncrypted (BlkRaw.ofPair v) (Key.ofBlocks high low)) k)
    (hu : programs u = .op (BlkEncrypted (BlkRaw.ofPair w) (Key.ofBlocks high low)) k') :
    ∃ events r, join64 r = Spec.Kuz.enc ((0 : BitVec 128) ++ join64 l) (join64 w) ∧
      ((start fun t => (programs t).handle (evalBlk m)).run events).threads u = (k' (.ok r)).handle (evalBlk m) := by
  obtain ⟨f, hf⟩ := (starts_encrypted m (BlkRaw.ofPair v) trivial v rfl (Key.ofBlocks high low)).bind
    (fun r => (k r).handle (evalBlk m))
  obtain ⟨ev1, h1, h2⟩ := last_first t (evalBlk m (.cached 1 high)) f
    (start fun t => (programs t).handle (evalBlk m)) (by simp only [start, ht, Prog.handle]; exact hf) rfl
    [(.low 1, h.1), (.high 1, h.2)] (.loaded 1, 1) (writes_cached m 1 high hh h hhv _ rfl) (by simp)
  obtain ⟨h3, h4⟩ := h1 u (fun q => htu q.symm)
  obtain ⟨n, h5⟩ := own_turns u (evalBlk m (BlkEncrypted (BlkRaw.ofPair w) (Key.ofBlocks high low)))
    (fun r => (k' r).handle (evalBlk m)) ((start fun t => (programs t).handle (evalBlk m)).run ev1)
    (by rw [h3]; simp only [start, hu, Prog.handle])
  obtain ⟨r, e1, e2⟩ := alone_remembered m hm high low hh hl h l (0, 0) hhv hlv
    (put (fun _ => 0) (.loaded 1, 1)) (by simp [cachesOf, put]) (fun id hid => by simp [cachesOf, put, hid]) w
  refine ⟨ev1 ++ List.replicate n (.turn u), r, ?_, ?_⟩
  · rw [e2]; rfl
  · rw [run_append_events, h5]
    simp only [if_true]
    rw [h4, h2]
    simp only [start, seen]
    rw [e1]

attribute [local irreducible] Safe BlkEncrypted in
/-- C113, what is true on every machine: once one encryption with the key has been completed, and its stores are
visible, before the threads start, every thread that has returned has got what it would get if every evaluation
returned the plain value of the block. `first` is the block that was encrypted, `mem` the memory after that. Missing:
threads that start with a fresh key, see `C113_out_of_order`. -/
theorem C113_after_first_partial {α : Type} (m : Machine) (high low : Blk) (hh : Plain high) (hl : Plain low)
    (first r : W64 × W64) (mem : CacheLoc → W64)
    (hfirst : runAlone (evalBlk m (BlkEncrypted (BlkRaw.ofPair first) (Key.ofBlocks high low)))
      (fun _ => 0) = (.ok r, mem))
    (programs : Nat → Prog Blk (Exec (W64 × W64)) α)
    (h : ∀ t, AllRequests (fun b => ∃ p, Plain p ∧ b = BlkEncrypted p (Key.ofBlocks high low))
      (Blk.value m) (programs t)) (events : List Event) (t : Nat) (a : α)
    (hr : (Buffered.run ⟨fun t => (programs t).handle (evalBlk m), fun _ => [], mem⟩ events).threads t = .ret a) :
    a = alone (Blk.value m) (programs t) := by
  have own : ∀ p, Plain p → Owned (keyOwn (Key.ofBlocks high low) 0 fun _ => high)
      (BlkEncrypted p (Key.ofBlocks high low)) := fun p hp =>
    Owned.encrypted 0 hh.owned hl.owned hp.owned
  have hw := warm_after m _ (strict_encrypted (BlkRaw.ofPair first) trivial high low 0)
    (fun _ => 0) r (congrArg Prod.fst hfirst)
  have hsafe : ∀ p, Plain p → ∀ K, Safe (cacheDiscipline m (keyOwn (Key.ofBlocks high low) 0 fun _ => high))
      K (evalBlk m (BlkEncrypted p (Key.ofBlocks high low)))
      (· = (BlkEncrypted p (Key.ofBlocks high low)).value m) := by
    intro p hp
    exact evalBlk_safe m _ _ (own p hp)
  have hgood := (Safe.run_alone (hsafe (BlkRaw.ofPair first) trivial (fun _ => False)) (good_fresh m _)
    (fun _ h => h.elim)).2
  rw [hfirst] at hgood
  replace hw : Warm mem (BlkEncrypted (BlkRaw.ofPair first) (Key.ofBlocks high low)) := by
    have e : (runAlone (evalBlk m (BlkEncrypted (BlkRaw.ofPair first) (Key.ofBlocks high low)))
      (fun _ => 0)).2 = mem := by rw [hfirst]
    rw [← e]; exact hw
  have hwarm : ∀ p, Plain p → Warm mem (BlkEncrypted p (Key.ofBlocks high low)) := fun p hp =>
    (warm_encrypted mem p _).2 ⟨warm_plain mem p hp, ((warm_encrypted mem _ _).1 hw).2⟩
  have hread : ∀ (p : Prog Blk (Exec (W64 × W64)) α),
      AllRequests (fun b => ∃ p, Plain p ∧ b = BlkEncrypted p (Key.ofBlocks high low))
        (Blk.value m) p → ReadsOnly mem (p.handle (evalBlk m)) := by
    intro p
    induction p with
    | ret a => intro _; trivial
    | op o k ih =>
      rintro ⟨⟨p, hp, rfl⟩, hk⟩
      refine ReadsOnly.bind (evalBlk_readsOnly m mem _ (hwarm p hp)) ?_
      rw [(Safe.run_alone (hsafe p hp (fun _ => False)) hgood (fun _ h => h.elim)).1]
      exact ih _ hk
  have hall := Safe.handle (D := cacheDiscipline m (keyOwn (Key.ofBlocks high low) 0 fun _ => high))
    (P := fun b => ∃ p, Plain p ∧ b = BlkEncrypted p (Key.ofBlocks high low)) (answer := Blk.value m)
    (h := evalBlk m) (by rintro o ⟨p, hp, rfl⟩ K; exact hsafe p hp K) (programs t) (h t) (fun _ => False)
  rw [reads_run (s := ⟨fun t => (programs t).handle (evalBlk m), fun _ => [], mem⟩) events rfl (fun _ => rfl)
    (fun t => hread _ (h t)) t a hr]
  exact (Safe.run_alone hall hgood (fun _ h => h.elim)).1

/-- The theorems about interleaved threads (C65) are about the case that every store becomes visible at once. -/
theorem C113_at_once {Loc Val α : Type} [DecidableEq Loc] [OfNat Val 0] (threads : Nat → MemProg Loc Val α)
    (schedule : List Nat) :
    InOrder (atOnce schedule) ∧
    (start threads).run (atOnce schedule) =
      ⟨(Sys.run ⟨threads, fun _ => 0⟩ schedule).threads, fun _ => [], (Sys.run ⟨threads, fun _ => 0⟩ schedule).mem⟩ := by
  refine ⟨fun t i hi => ?_, atOnce_run ⟨threads, fun _ => 0⟩ schedule⟩
  simp only [atOnce, List.mem_flatMap, List.mem_cons, reduceCtorEq, Event.leave.injEq, List.not_mem_nil, or_false,
    false_or] at hi
  obtain ⟨-, -, -, rfl⟩ := hi
  rfl

/-- Two threads as in `C113_out_of_order`: the second returns the encryption under a wrong key. -/
example : ∃ events r, join64 r = Spec.Kuz.enc ((0 : BitVec 128) ++ join64 (5, 6)) (join64 (7, 8)) ∧
    ((start fun t => (if t = 0 then
      Prog.op (BlkEncrypted (BlkRaw.ofPair (1, 2)) (Key.ofBlocks (.raw 3 4) (.raw 5 6))) .ret
    else if t = 1 then
      .op (BlkEncrypted (BlkRaw.ofPair (7, 8)) (Key.ofBlocks (.raw 3 4) (.raw 5 6))) .ret
    else .ret (.ok (0, 0)) : Prog Blk (Exec (W64 × W64)) _).handle (evalBlk .x86)).run events).threads 1 =
      .ret (.ok r) :=
  C113_out_of_order .x86 rfl (.raw 3 4) (.raw 5 6) trivial trivial (3, 4) (5, 6) rfl rfl
    (fun t => if t = 0 then
      Prog.op (BlkEncrypted (BlkRaw.ofPair (1, 2)) (Key.ofBlocks (.raw 3 4) (.raw 5 6))) .ret
    else if t = 1 then
      .op (BlkEncrypted (BlkRaw.ofPair (7, 8)) (Key.ofBlocks (.raw 3 4) (.raw 5 6))) .ret
    else .ret (.ok (0, 0))) 0 1 (by decide) (1, 2) (7, 8) .ret .ret rfl rfl

/-- An evaluation of a cached block by two threads with stores that are late, but in order: both get the value. -/
example : InOrder [.turn 0, .turn 0, .turn 0, .turn 1, .leave 0 0, .turn 0, .turn 1, .turn 1] ∧
    ∀ t ≤ 1, (match ((start fun _ => evalBlk .iso (.cached 3 (.raw 1 2))).run
      ([.turn 0, .turn 0, .turn 0, .turn 1, .leave 0 0, .turn 0, .turn 1, .turn 1, .turn 0, .turn 0, .turn 1,
        .turn 1, .turn 1])).threads t with | .ret a => a | _ => .diverge) = .ok (1, 2) := by
  refine ⟨?_, by decide⟩
  intro t i h
  simp at h
  exact h.2

end

section
open Goost.Magma

/-- C113 for a `LazyKey` of the 64-bit cipher made from text, on machines that make the stores of a thread visible in
order: a thread that has returned has got what it would get if it were the only one. Missing: machines that do not
keep the order, for which it is false, see `C113_magma_out_of_order`. -/
theorem C113_magma_results_right_partial {α : Type} (kd : KeyData) (programs : Nat → Prog Int (Exec W32) α)
    (events : List Event) (ho : InOrder events) (t : Nat) (a : α)
    (hr : ((start fun t => (programs t).handle (evalKey kd)).run events).threads t = .ret a) :
    a = alone (KeyCachedData kd) (programs t) :=
  BufferedSafe.result (D := keyDiscipline kd) (s := start fun t => (programs t).handle (evalKey kd))
    (post := fun t a => a = alone (KeyCachedData kd) (programs t))
    ⟨goodKey_fresh kd, fun t => ⟨trivial, fun _ => False, fun _ h => h.elim,
      Safe.handle (P := fun _ => True) (fun o _ K => evalKey_safe kd o K) (programs t) (by
        induction programs t with
        | ret a => trivial
        | op o k ih => exact ⟨trivial, ih _⟩) _⟩⟩ events ho hr

/-- C113 for the 64-bit cipher: every thread that gets infinitely many turns returns, whatever order the stores become
visible in. -/
theorem C113_magma_every_thread_returns {α : Type} (kd : KeyData) (programs : Nat → Prog Int (Exec W32) α)
    (events : Nat → Event) (t : Nat) (h : TurnsForever t events) :
    ∃ n a, ((start fun t => (programs t).handle (evalKey kd)).run (firstEvents events n)).threads t = .ret a :=
  returns_buffered events t h _ _ 0 rfl

/-- C113 for encryption with the 64-bit cipher on such a machine: thread `t` encrypts the block `values t` with a
shared key made from a text of 64 hexadecimal digits and gets the encryption of the standard. -/
theorem C113_magma_conforms_partial (s : List Char) (hs : IsHex s) (hl : s.length = 64)
    (values : Nat → W32 × W32) (events : List Event) (ho : InOrder events) (t : Nat) (r : Exec (W32 × W32))
    (hr : ((start fun t => (askEncrypt SboxR3412 (values t)).handle (evalKey (KeyDataString s))).run
      events).threads t = .ret r) :
    ∃ c, r = .ok c ∧ join32 c = Spec.Magma.enc (BitVec.ofNat 256 (hexNat s)) (join32 (values t)) := by
  rw [C113_magma_results_right_partial _ _ events ho t r hr, alone_encrypt .iso]
  exact ⟨_, BlkEncrypted_value (LazyKey_ofString_computes hs hl) .iso rfl, join32_encP _ _⟩

/-- C113 is false of the code on machines that do not keep the order of stores: two threads use the same fresh key.
The mark of the words being cached becomes visible before the words; then the whole second thread runs as if all
words of the key were zero. -/
theorem C113_magma_out_of_order {α : Type} (kd : KeyData) (hall : ∀ i : Nat, i < 8 → ∃ k, kd i = .ok k)
    (programs : Nat → Prog Int (Exec W32) α) (t u : Nat) (htu : t ≠ u) (i : Int)
    (k : Exec W32 → Prog Int (Exec W32) α) (ht : programs t = .op i k) :
    ∃ events, ((start fun t => (programs t).handle (evalKey kd)).run events).threads u =
      .ret (alone (fun j => if 0 ≤ j ∧ j < 8 then .ok 0 else .ub .oobRead) (programs u)) := by
  obtain ⟨es, hw, hn⟩ := writes_key kd hall i (fun _ => 0) rfl
  obtain ⟨ev1, h1, h2⟩ := last_first t (evalKey kd i) (fun r => (k r).handle (evalKey kd))
    (start fun t => (programs t).handle (evalKey kd)) (by simp only [start, ht, Prog.handle]) rfl
    es (.cached, 1) hw hn
  obtain ⟨h3, h4⟩ := h1 u (fun q => htu q.symm)
  obtain ⟨n, h5⟩ := own_turns u ((programs u).handle (evalKey kd)) .ret
    ((start fun t => (programs t).handle (evalKey kd)).run ev1) (by rw [h3, bind_ret]; rfl)
  refine ⟨ev1 ++ List.replicate n (.turn u), ?_⟩
  rw [run_append_events, h5]
  simp only [if_true]
  rw [h4, h2]
  simp only [start, seen]
  rw [alone_zero, show KeyCachedData (fun _ => .ok 0) = fun j => if 0 ≤ j ∧ j < 8 then .ok 0 else .ub .oobRead from
    funext fun j => KeyCachedData_all (fun _ _ => ⟨0, rfl⟩) j]

/-- C113 for encryption out of order: the second thread gets the encryption under the zero key, whatever the key
is. -/
theorem C113_magma_zero_key (s : List Char) (hs : IsHex s) (hl : s.length = 64) (v w : W32 × W32) :
    ∃ events c, join32 c = Spec.Magma.enc 0 (join32 w) ∧
      ((start fun t => (askEncrypt SboxR3412 (if t = 0 then v else w)).handle (evalKey (KeyDataString s))).run
        events).threads 1 = .ret (.ok c) := by
  obtain ⟨events, h⟩ := C113_magma_out_of_order (KeyDataString s) (fun i hi => ⟨_, KeyDataString_eq hs hl ⟨i, hi⟩⟩)
    (fun t => askEncrypt SboxR3412 (if t = 0 then v else w)) 0 1 (by decide) 0 _ rfl
  refine ⟨events, _, join32_encP (fun i => Spec.Magma.g Spec.Magma.pi (Spec.Magma.keyWord 0 i)) w, ?_⟩
  rw [h, ← BlkEncrypted_value zero_computes .iso (b := .raw w.1 w.2) (v := w) rfl, ← alone_encrypt,
    show KeyCachedData (fun _ => .ok 0) = fun j => if 0 ≤ j ∧ j < 8 then .ok 0 else .ub .oobRead from
    funext fun j => KeyCachedData_all (fun _ _ => ⟨0, rfl⟩) j]
  rfl

/-- C113 for the 64-bit cipher, what is true on every machine: once one word of the key has been used, and the stores
are visible, before the threads start, every thread that has returned has got what it would get if it were the only
one. `first` is the word, `mem` the memory after that. Missing: threads that start with a fresh key, see
`C113_magma_out_of_order`. -/
theorem C113_magma_after_first_partial {α : Type} (kd : KeyData) (hall : ∀ i : Nat, i < 8 → ∃ k, kd i = .ok k)
    (first : Int) (r : Exec W32) (mem : KeyLoc → W32)
    (hfirst : runAlone (evalKey kd first) (fun _ => 0) = (r, mem))
    (programs : Nat → Prog Int (Exec W32) α) (events : List Event) (t : Nat) (a : α)
    (hr : (Buffered.run ⟨fun t => (programs t).handle (evalKey kd), fun _ => [], mem⟩ events).threads t = .ret a) :
    a = alone (KeyCachedData kd) (programs t) := by
  have hc := cached_after kd hall (fun _ => 0) first
  have hgood := (Safe.run_alone (evalKey_safe kd first (fun _ => False)) (goodKey_fresh kd) (fun _ h => h.elim)).2
  rw [hfirst] at hc hgood
  rw [reads_run (s := ⟨fun t => (programs t).handle (evalKey kd), fun _ => [], mem⟩) events rfl (fun _ => rfl)
    (fun t => readsOnly_handle_key kd mem hc (programs t)) t a hr]
  have hs := Safe.handle (P := fun _ => True) (fun o _ K => evalKey_safe kd o K) (programs t) (by
        induction programs t with
        | ret a => trivial
        | op o k ih => exact ⟨trivial, ih _⟩) (fun _ => False)
  exact (Safe.run_alone hs hgood (fun _ h => h.elim)).1

/-- A text as in `C113_magma_conforms_partial` and `C113_magma_zero_key`. -/
example : IsHex "ffeeddccbbaa99887766554433221100f0f1f2f3f4f5f6f7f8f9fafbfcfdfeff".toList ∧
    "ffeeddccbbaa99887766554433221100f0f1f2f3f4f5f6f7f8f9fafbfcfdfeff".toList.length = 64 := by decide

/-! The theorems at the text of the standard's example. -/

example := C113_magma_every_thread_returns (KeyDataString "ffeeddccbbaa99887766554433221100f0f1f2f3f4f5f6f7f8f9fafbfcfdfeff".toList)
  (fun t => askEncrypt SboxR3412 (BitVec.ofNat 32 t, 5)) (fun n => .turn (n % 2)) 1
  (fun n => ⟨2 * n + 1, by omega, by simp [Nat.add_mod]⟩)

example (m : Machine) := C113_every_thread_returns m (fun _ => Prog.op (.cached 3 (.raw 1 2)) .ret) (fun n => .turn (n % 2)) 1
  (fun n => ⟨2 * n + 1, by omega, by simp [Nat.add_mod]⟩)

example (events : List Event) (ho : InOrder events) := C113_magma_results_right_partial
  (KeyDataString "ffeeddccbbaa99887766554433221100f0f1f2f3f4f5f6f7f8f9fafbfcfdfeff".toList)
  (fun t => askEncrypt SboxR3412 (BitVec.ofNat 32 t, 5)) events ho 1

example := C113_magma_conforms_partial "ffeeddccbbaa99887766554433221100f0f1f2f3f4f5f6f7f8f9fafbfcfdfeff".toList (by decide) (by decide)
  (fun t => (BitVec.ofNat 32 t, 5))

example := C113_magma_zero_key "ffeeddccbbaa99887766554433221100f0f1f2f3f4f5f6f7f8f9fafbfcfdfeff".toList (by decide) (by decide) (1, 2) (3, 4)

example (m : Machine) (events : List Event) (ho : InOrder events) := C113_results_right_partial m _
  (fun _ => Prog.op (.cached 3 (.raw 1 2)) .ret) (fun _ => ⟨show Owned (fun _ => .raw 1 2) (.cached 3 (.raw 1 2)) from ⟨rfl, trivial⟩, trivial⟩)
  events ho 1

example (events : List Event) (ho : InOrder events) := C113_shared_key_conforms_partial .x86 rfl (.raw 3 4) (.raw 5 6) trivial
  trivial _ _ rfl rfl (fun t => [(BitVec.ofNat 64 t, 7), (8, 9)]) events ho 1

end
end Goost.Props
