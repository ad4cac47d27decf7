import Verif.Lemmas.KuzConc
import Verif.Lemmas.MagmaConc
import Verif.Lemmas.Keys
import Verif.Lemmas.KuzCache
import Verif.Lemmas.KuzStream
/-
Properties C65 and C66: threads running any programs over shared keys.

A thread is any program that asks for values and may choose what to ask next by the answers
(`Prog`); `handle` carries out every request by the accesses to shared memory that the code makes;
`alone answer` is what the program returns if every request gets the given answer. A schedule is any
sequence of thread numbers, there may be any number of threads.
-/
namespace Goost.Props
open Goost.Conc Spec

/-! ### C65 -/

section
open Goost.Kuz

private def kuzHalf : List Char := "8899aabbccddeeff0011223344556677".toList

/-- C65, the part about results. Threads that evaluate blocks, all caches being fresh: whatever the
programs and the schedule are, a thread that has returned has got what it would get if every
evaluation returned the plain value of the block. `Owned own` says only that a cache object belongs to
one block. Missing: freedom from data races, which is false, see `C65_data_race`. -/
theorem C65_results_right_partial {α : Type} (m : Machine) (own : Nat → Blk)
    (programs : Nat → Prog Blk (Exec (W64 × W64)) α)
    (h : ∀ t, AllRequests (Owned own) (Blk.value m) (programs t)) (schedule : List Nat) (t : Nat)
    (a : α)
    (hr : (Sys.run ⟨fun t => (programs t).handle (evalBlk m), fun _ => 0⟩ schedule).threads t =
      .ret a) : a = alone (Blk.value m) (programs t) :=
  SysSafe.result (D := cacheDiscipline m own)
    (post := fun t a => a = alone (Blk.value m) (programs t))
    ⟨good_fresh m own, fun t => ⟨fun _ => False, fun _ h => h.elim,
      Safe.handle (fun b hb K => evalBlk_safe m own b hb K) (programs t) (h t) _⟩⟩ schedule hr

/-- Threads that all ask for the same cached block. -/
example (schedule : List Nat) := C65_results_right_partial .x86 (fun _ => .raw 1 2) (fun _ => Prog.op (.cached 3 (.raw 1 2)) .ret)
  (fun _ => ⟨⟨rfl, trivial⟩, trivial⟩) schedule

/-- C65 for threads that share one key and encrypt blocks of their own: each thread gets for each of its
blocks the encryption of the standard. `values t` are the values of the blocks of thread `t`, which
encrypts them one after the other and returns the list of the results. -/
theorem C65_shared_key_conforms_partial (m : Machine) (hm : m.unalignedLoad = true) (high low : Blk)
    (hh : Plain high) (hl : Plain low) (h l : W64 × W64) (hhv : high.value m = .ok h)
    (hlv : low.value m = .ok l) (values : Nat → List (W64 × W64)) (schedule : List Nat) (t : Nat)
    (rs : List (Exec (W64 × W64)))
    (hr : (Sys.run ⟨fun t => ((values t).foldr
        (fun v k => Prog.op (BlkEncrypted (BlkRaw.ofPair v) (Key.ofBlocks high low)) fun r =>
          k.bind fun rs => .ret (r :: rs)) (.ret [])).handle (evalBlk m), fun _ => 0⟩
        schedule).threads t = .ret rs) :
    rs.length = (values t).length ∧
    ∀ i (hi : i < (values t).length), ∃ r, rs[i]? = some (.ok r) ∧
      join64 r = Spec.Kuz.enc (join64 h ++ join64 l) (join64 (values t)[i]) := by
  have own : ∀ v : W64 × W64, Owned (keyOwn (Key.ofBlocks high low) 0 fun _ => high)
      (BlkEncrypted (BlkRaw.ofPair v) (Key.ofBlocks high low)) := fun v =>
    Owned.encrypted 0 hh.owned hl.owned trivial
  have hbind : ∀ (p : Prog Blk (Exec (W64 × W64)) (List (Exec (W64 × W64)))) r,
      AllRequests (Owned (keyOwn (Key.ofBlocks high low) 0 fun _ => high)) (Blk.value m) p →
      AllRequests (Owned (keyOwn (Key.ofBlocks high low) 0 fun _ => high)) (Blk.value m)
        (p.bind fun rs => .ret (r :: rs)) := by
    intro p r
    induction p with
    | ret a => exact fun h => h
    | op o k ih => exact fun h => ⟨h.1, ih _ h.2⟩
  have e := C65_results_right_partial m _ _ (fun t => by
    induction values t with
    | nil => trivial
    | cons v vs ih => exact ⟨own v, hbind _ _ ih⟩) schedule t rs hr
  have e2 : ∀ vs : List (W64 × W64), alone (Blk.value m) (vs.foldr
        (fun v k => Prog.op (BlkEncrypted (BlkRaw.ofPair v) (Key.ofBlocks high low)) fun r =>
          k.bind fun rs => .ret (r :: rs)) (.ret [])) =
      vs.map fun v => (BlkEncrypted (BlkRaw.ofPair v) (Key.ofBlocks high low)).value m := by
    intro vs
    induction vs with
    | nil => rfl
    | cons v vs ih =>
      simp only [List.foldr_cons, List.map_cons, alone, alone_bind]
      rw [ih]
  rw [e2] at e
  subst e
  refine ⟨by simp, fun i hi => ?_⟩
  obtain ⟨r, e3, e4⟩ := encrypts_ofBlocks hm hhv hlv 0 (BlkRaw.ofPair (values t)[i]) (values t)[i] rfl
  refine ⟨r, ?_, e4⟩
  rw [List.getElem?_map, List.getElem?_eq_getElem hi, Option.map_some, e3]

example (schedule : List Nat) := C65_shared_key_conforms_partial .x86 rfl (.raw 1 2) (.raw 3 4) trivial trivial (1, 2) (3, 4)
  rfl rfl (fun t => List.replicate t (5, 6)) schedule

/-- C65. Every thread that gets infinitely many turns returns. -/
theorem C65_every_thread_returns {α : Type} (m : Machine)
    (programs : Nat → Prog Blk (Exec (W64 × W64)) α) (mem : CacheLoc → W64) (schedule : Nat → Nat)
    (t : Nat) (h : InfinitelyOften t schedule) :
    ∃ n a, (Sys.run ⟨fun t => (programs t).handle (evalBlk m), mem⟩
      (firstTurns schedule n)).threads t = .ret a :=
  returns_from schedule t h _ _ 0 rfl

example (m : Machine) := C65_every_thread_returns m (fun _ => Prog.op (.cached 3 (.raw 1 2)) .ret) (fun _ => 0) (fun n => n % 2)
  1 fun n => ⟨2 * n + 1, by omega, by show (2 * n + 1) % 2 = 1; omega⟩

/-- C65 is false of the code: two threads that begin to encrypt with the same fresh key come to a data
race (on `loaded` of the first round key), whatever the other threads do. -/
theorem C65_data_race {α : Type} (m : Machine) (high low : Blk) (hh : Plain high)
    (hv : W64 × W64) (hhv : high.value m = .ok hv) (programs : Nat → Prog Blk (Exec (W64 × W64)) α)
    (t u : Nat) (htu : t ≠ u) (v w : W64 × W64) (k k' : Exec (W64 × W64) → Prog Blk _ α)
    (ht : programs t = .op (BlkEncrypted (BlkRaw.ofPair v) (Key.ofBlocks high low)) k)
    (hu : programs u = .op (BlkEncrypted (BlkRaw.ofPair w) (Key.ofBlocks high low)) k') :
    ∃ schedule, (Sys.run ⟨fun t => (programs t).handle (evalBlk m), fun _ => 0⟩ schedule).Race := by
  obtain ⟨f, hf⟩ := (starts_encrypted m (BlkRaw.ofPair v) trivial v rfl (Key.ofBlocks high low)).bind
    (fun r => (k r).handle (evalBlk m))
  obtain ⟨g, hg⟩ := (starts_encrypted m (BlkRaw.ofPair w) trivial w rfl (Key.ofBlocks high low)).bind
    (fun r => (k' r).handle (evalBlk m))
  obtain ⟨n, hn⟩ := race_of_fresh m ⟨fun t => (programs t).handle (evalBlk m), fun _ => 0⟩ t u htu
    (0 + 1) high f g (by simp only [ht, Prog.handle]; exact hf)
    (by simp only [hu, Prog.handle]; exact hg) rfl hv (by rw [evalBlk_plain m high hh]; exact hhv)
  exact ⟨_, hn⟩

attribute [local irreducible] Safe BlkEncrypted in
/-- What is true of C65 about races: once one encryption with the key has been completed before the
threads start, they never come to a race. `first` is the block that was encrypted, `mem` the shared
memory after that. Missing: threads that start with a fresh key, see `C65_data_race`. -/
theorem C65_no_race_after_first_partial {α : Type} (m : Machine) (high low : Blk) (hh : Plain high)
    (hl : Plain low) (first r : W64 × W64) (mem : CacheLoc → W64)
    (hfirst : runAlone (evalBlk m (BlkEncrypted (BlkRaw.ofPair first) (Key.ofBlocks high low)))
      (fun _ => 0) = (.ok r, mem))
    (programs : Nat → Prog Blk (Exec (W64 × W64)) α)
    (h : ∀ t, AllRequests (fun b => ∃ p, Plain p ∧ b = BlkEncrypted p (Key.ofBlocks high low))
      (Blk.value m) (programs t)) (schedule : List Nat) :
    ¬ (Sys.run ⟨fun t => (programs t).handle (evalBlk m), mem⟩ schedule).Race := by
  have own : ∀ p, Plain p → Owned (keyOwn (Key.ofBlocks high low) 0 fun _ => high)
      (BlkEncrypted p (Key.ofBlocks high low)) := fun p hp =>
    Owned.encrypted 0 hh.owned hl.owned hp.owned
  have hw := warm_after m _ (strict_encrypted (BlkRaw.ofPair first) trivial high low 0)
    (fun _ => 0) r (congrArg Prod.fst hfirst)
  have hsafe : ∀ p, Plain p → Safe (cacheDiscipline m (keyOwn (Key.ofBlocks high low) 0 fun _ => high))
      (fun _ => False) (evalBlk m (BlkEncrypted p (Key.ofBlocks high low)))
      (· = (BlkEncrypted p (Key.ofBlocks high low)).value m) := by
    intro p hp
    have h := evalBlk_safe m _ _ (own p hp)
    exact h (fun _ => False)
  have hgood := (Safe.run_alone (hsafe (BlkRaw.ofPair first) trivial) (good_fresh m _)
    (fun _ h => h.elim)).2
  rw [hfirst] at hgood
  replace hw : Warm mem (BlkEncrypted (BlkRaw.ofPair first) (Key.ofBlocks high low)) := by
    have e : (runAlone (evalBlk m (BlkEncrypted (BlkRaw.ofPair first) (Key.ofBlocks high low)))
      (fun _ => 0)).2 = mem := by rw [hfirst]
    rw [← e]; exact hw
  have hwarm : ∀ p, Plain p → Warm mem (BlkEncrypted p (Key.ofBlocks high low)) := fun p hp =>
    (warm_encrypted mem p _).2 ⟨warm_plain mem p hp, ((warm_encrypted mem _ _).1 hw).2⟩
  have hread : ∀ (p : Prog Blk (Exec (W64 × W64)) α),
      AllRequests (fun b => ∃ p, Plain p ∧ b = BlkEncrypted p (Key.ofBlocks high low))
        (Blk.value m) p → ReadsOnly mem (p.handle (evalBlk m)) := by
    intro p
    induction p with
    | ret a => intro _; trivial
    | op o k ih =>
      rintro ⟨⟨p, hp, rfl⟩, hk⟩
      refine ReadsOnly.bind (evalBlk_readsOnly m mem _ (hwarm p hp)) ?_
      rw [(Safe.run_alone (hsafe p hp) hgood (fun _ h => h.elim)).1]
      exact ih _ hk
  obtain ⟨h1, h2⟩ := readsOnly_run (s := ⟨fun t => (programs t).handle (evalBlk m), mem⟩)
    (fun t => hread _ (h t)) schedule
  exact readsOnly_no_race h2

attribute [local irreducible] Safe BlkEncrypted in
/-- The hypothesis `hfirst` of `C65_no_race_after_first_partial` is met: the first encryption with a fresh
key of any two halves that have values completes, with the result of the standard. -/
theorem C65_first_completes (m : Machine) (hm : m.unalignedLoad = true) (high low : Blk)
    (hh : Plain high) (hl : Plain low) (h l : W64 × W64) (hhv : high.value m = .ok h)
    (hlv : low.value m = .ok l) (first : W64 × W64) :
    ∃ r mem, runAlone (evalBlk m (BlkEncrypted (BlkRaw.ofPair first) (Key.ofBlocks high low)))
        (fun _ => 0) = (.ok r, mem) ∧
      join64 r = Spec.Kuz.enc (join64 h ++ join64 l) (join64 first) := by
  obtain ⟨r, e3, e4⟩ := encrypts_ofBlocks hm hhv hlv 0 (BlkRaw.ofPair first) first rfl
  have own : Owned (keyOwn (Key.ofBlocks high low) 0 fun _ => high)
      (BlkEncrypted (BlkRaw.ofPair first) (Key.ofBlocks high low)) :=
    Owned.encrypted 0 hh.owned hl.owned trivial
  have h := evalBlk_safe m _ _ own (fun _ => False)
  have h := (Safe.run_alone h (good_fresh m _) (fun _ h => h.elim)).1
  refine ⟨r, _, Prod.ext (h.trans e3) rfl, e4⟩

example := C65_first_completes .x86 rfl (.raw 1 2) (.raw 3 4) trivial trivial (1, 2) (3, 4) rfl rfl (5, 6)

example (schedule : List Nat) : ∃ mem, ¬ (Sys.run ⟨fun t => (Prog.op (BlkEncrypted (BlkRaw.ofPair (BitVec.ofNat 64 t, 1))
    (Key.ofBlocks (.raw 1 2) (.raw 3 4))) Prog.ret).handle (evalBlk .x86), mem⟩ schedule).Race := by
  obtain ⟨r, mem, h, -⟩ := C65_first_completes .x86 rfl (.raw 1 2) (.raw 3 4) trivial trivial (1, 2) (3, 4) rfl rfl (5, 6)
  exact ⟨mem, C65_no_race_after_first_partial .x86 (.raw 1 2) (.raw 3 4) trivial trivial (5, 6) r mem h
    (fun t => Prog.op (BlkEncrypted (BlkRaw.ofPair (BitVec.ofNat 64 t, 1)) (Key.ofBlocks (.raw 1 2) (.raw 3 4))) .ret)
    (fun t => ⟨⟨BlkRaw.ofPair (BitVec.ofNat 64 t, 1), trivial, rfl⟩, trivial⟩) schedule⟩

/-- C65. A thread that is alone does what the sequential model of the caches says: same result, same
caches. -/
theorem C65_alone_is_sequential (m : Machine) (b : Blk) (mem : CacheLoc → W64) :
    b.valueS m (fun id => if mem (.loaded id) ≠ 0 then some (mem (.low id), mem (.high id)) else none) =
      ((runAlone (evalBlk m b) mem).1, fun id =>
        if (runAlone (evalBlk m b) mem).2 (.loaded id) ≠ 0 then
          some ((runAlone (evalBlk m b) mem).2 (.low id), (runAlone (evalBlk m b) mem).2 (.high id))
        else none) := runAlone_valueS m b mem

/-- Halves of a key as in `C65_shared_key_conforms_partial`, `C65_data_race` and `C65_first_completes`. -/
example : Plain (.str kuzHalf) ∧ (Blk.str kuzHalf).value .x86 = .ok (0x0011223344556677, 0x8899aabbccddeeff) :=
  ⟨trivial, by decide +kernel⟩

/-- Two threads as in `C65_data_race`. -/
example : ∃ schedule, (Sys.run ⟨fun t => (if t = 0 then
      Prog.op (BlkEncrypted (BlkRaw.ofPair (1, 2)) (Key.ofBlocks (.raw 3 4) (.raw 5 6))) .ret
    else if t = 1 then
      .op (BlkEncrypted (BlkRaw.ofPair (7, 8)) (Key.ofBlocks (.raw 3 4) (.raw 5 6))) .ret
    else .ret (.ok (0, 0)) : Prog Blk (Exec (W64 × W64)) _).handle (evalBlk .x86), fun _ => 0⟩
    schedule).Race :=
  C65_data_race .x86 (.raw 3 4) (.raw 5 6) trivial (3, 4) rfl
    (fun t => if t = 0 then
      Prog.op (BlkEncrypted (BlkRaw.ofPair (1, 2)) (Key.ofBlocks (.raw 3 4) (.raw 5 6))) .ret
    else if t = 1 then
      .op (BlkEncrypted (BlkRaw.ofPair (7, 8)) (Key.ofBlocks (.raw 3 4) (.raw 5 6))) .ret
    else .ret (.ok (0, 0))) 0 1 (by decide) (1, 2) (7, 8) .ret .ret rfl rfl

/-- A program that evaluates a cached block, then a block chosen by the result: its requests are of one
system of caches. -/
example : AllRequests (Owned fun _ => .raw 1 2) (Blk.value .iso)
    (.op (.cached 3 (.raw 1 2)) fun r =>
      .op (.xored (.cached 3 (.raw 1 2)) (match r with | .ok v => .raw v.1 0 | _ => .raw 0 0)) fun r =>
        .ret r) := by
  simp [AllRequests, Owned, Blk.value]

end

/-! ### C66 -/

section
open Goost.Magma

/-- C66, the part about results. Threads that use one `LazyKey` made from text (a `KeyCachedData` over key
data without mutable state): whatever the programs and the schedule are, a thread that has returned has
got what it would get if it were the only one. Missing: freedom from data races, which is false, see
`C66_data_race`. -/
theorem C66_results_right_partial {α : Type} (kd : KeyData) (programs : Nat → Prog Int (Exec W32) α)
    (schedule : List Nat) (t : Nat) (a : α)
    (hr : (Sys.run ⟨fun t => (programs t).handle (evalKey kd), fun _ => 0⟩ schedule).threads t =
      .ret a) : a = alone (KeyCachedData kd) (programs t) :=
  SysSafe.result (D := keyDiscipline kd)
    (post := fun t a => a = alone (KeyCachedData kd) (programs t))
    ⟨goodKey_fresh kd, fun t => ⟨fun _ => False, fun _ h => h.elim,
      Safe.handle (P := fun _ => True) (fun o _ K => evalKey_safe kd o K) (programs t) (by
        induction programs t with
        | ret a => trivial
        | op o k ih => exact ⟨trivial, ih _⟩) _⟩⟩ schedule hr

example (schedule : List Nat) (t : Nat) := C66_results_right_partial (fun i => .ok (BitVec.ofInt 32 i + 10))
  (fun t => Prog.op (t : Int) fun a => .op 5 fun b => .ret [a, b]) schedule t

/-- C66 for encryption: thread `t` encrypts the block `values t` and gets the value that `BlkEncrypted`
has in a program with one thread. -/
theorem C66_encrypt_partial (m : Machine) (kd : KeyData) (sbox : Sbox) (values : Nat → W32 × W32)
    (schedule : List Nat) (t : Nat) (r : Exec (W32 × W32))
    (hr : (Sys.run ⟨fun t => (askEncrypt sbox (values t)).handle (evalKey kd), fun _ => 0⟩
      schedule).threads t = .ret r) :
    r = (BlkEncrypted (.raw (values t).1 (values t).2)
      (some (LazyKey (KeyCachedData kd) sbox))).value m := by
  rw [C66_results_right_partial kd _ schedule t r hr, alone_encrypt m]

/-- C66 for decryption. -/
theorem C66_decrypt_partial (m : Machine) (kd : KeyData) (sbox : Sbox) (values : Nat → W32 × W32)
    (schedule : List Nat) (t : Nat) (r : Exec (W32 × W32))
    (hr : (Sys.run ⟨fun t => (askDecrypt sbox (values t)).handle (evalKey kd), fun _ => 0⟩
      schedule).threads t = .ret r) :
    r = (BlkDecrypted (.raw (values t).1 (values t).2)
      (some (LazyKey (KeyCachedData kd) sbox))).value m := by
  rw [C66_results_right_partial kd _ schedule t r hr, alone_decrypt m]

/-- C66. Every thread that gets infinitely many turns returns. -/
theorem C66_every_thread_returns {α : Type} (kd : KeyData) (programs : Nat → Prog Int (Exec W32) α)
    (mem : KeyLoc → W32) (schedule : Nat → Nat) (t : Nat) (h : InfinitelyOften t schedule) :
    ∃ n a, (Sys.run ⟨fun t => (programs t).handle (evalKey kd), mem⟩
      (firstTurns schedule n)).threads t = .ret a :=
  returns_from schedule t h _ _ 0 rfl

example := C66_every_thread_returns (fun i => .ok (BitVec.ofInt 32 i + 10)) (fun t => Prog.op (t : Int) .ret) (fun _ => 0)
  (fun n => n % 2) 1 fun n => ⟨2 * n + 1, by omega, by show (2 * n + 1) % 2 = 1; omega⟩

/-- C66 is false of the code: two threads that begin by asking the same fresh key for words come to a data
race (on `cached`), whatever words they ask for and whatever the other threads do. -/
theorem C66_data_race {α : Type} (kd : KeyData)
    (hall : ∀ i : Nat, i < 8 → ∃ k, kd i = .ok k) (programs : Nat → Prog Int (Exec W32) α)
    (t u : Nat) (htu : t ≠ u) (i j : Int) (k k' : Exec W32 → Prog Int (Exec W32) α)
    (ht : programs t = .op i k) (hu : programs u = .op j k') :
    ∃ schedule, (Sys.run ⟨fun t => (programs t).handle (evalKey kd), fun _ => 0⟩ schedule).Race := by
  obtain ⟨n, hn⟩ := race_of_fresh_key kd hall ⟨fun t => (programs t).handle (evalKey kd), fun _ => 0⟩
    t u htu i j _ _ (by simp only [ht, Prog.handle]; rfl) (by simp only [hu, Prog.handle]; rfl) rfl
  exact ⟨_, hn⟩

example := C66_data_race (fun i => .ok (BitVec.ofInt 32 i + 10)) (fun _ _ => ⟨_, rfl⟩) (fun t => Prog.op (t : Int) .ret) 0 1
  (by decide) 0 1 _ _ rfl rfl

/-- What is true of C66 about races: once one call has been completed before the threads start, they never
come to a race. `mem` is the shared memory after that call. Missing: threads that start with a fresh key,
see `C66_data_race`. -/
theorem C66_no_race_after_first_partial {α : Type} (kd : KeyData)
    (hall : ∀ i : Nat, i < 8 → ∃ k, kd i = .ok k) (first : Int) (r : Exec W32) (mem : KeyLoc → W32)
    (hfirst : runAlone (evalKey kd first) (fun _ => 0) = (r, mem))
    (programs : Nat → Prog Int (Exec W32) α) (schedule : List Nat) :
    ¬ (Sys.run ⟨fun t => (programs t).handle (evalKey kd), mem⟩ schedule).Race := by
  have hc := cached_after kd hall (fun _ => 0) first
  rw [hfirst] at hc
  obtain ⟨h1, h2⟩ := readsOnly_run (s := ⟨fun t => (programs t).handle (evalKey kd), mem⟩)
    (fun t => readsOnly_handle_key kd mem hc (programs t)) schedule
  exact readsOnly_no_race h2

/-- Two threads, one asking for words 3 and 5, the other for word 0, on a key whose words are 10 … 17:
a schedule that lets both fill the cache. -/
example : ((Sys.run ⟨fun t => (if t = 0 then
        Prog.op (3 : Int) fun a => .op 5 fun b => .ret [a, b]
      else .op 0 fun a => .ret [a] : Prog Int (Exec W32) (List (Exec W32))).handle
        (evalKey fun i => .ok (BitVec.ofInt 32 i + 10)), fun _ => 0⟩
      (([0, 1] : List Nat) ++ List.replicate 12 1 ++ List.replicate 12 0)).threads 0 |> fun p =>
        match p with | .ret a => a | _ => []) = [.ok 13, .ok 15] := by decide

end
end Goost.Props
