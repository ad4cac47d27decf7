import Verif.Lemmas.ScarceAlone
import Verif.Lemmas.WeakMemory
import Verif.Lemmas.KuzCache
import Verif.Lemmas.KuzStream
import Verif.Props.MagmaCipher
/-
Property C123: threads share a key while memory runs out.

A thread makes requests `(n, b)`: it evaluates the block `b` (asks for the key word `b`) while there is memory for `n`
requests. The programs of the threads are arbitrary, and so are these numbers. What is allowed is written in
Spec/ScarceThreads.
-/
namespace Goost.Props
open Goost.Conc Goost.Conc.Buffered Spec

section
open Goost.Kuz

/-- C123 for blocks of the 128-bit cipher and threads that are interleaved: whichever requests for memory are refused, in
whichever threads, a thread that has returned has got for every evaluation the value of the block, or `bad_alloc`; the
latter only where there was less memory than the block needs. What the others do, and which of them fail, does not
matter. -/
theorem C123_interleaved (m : Machine) : ∃ need : Blk → Nat, ∀ (α : Type) (own : Nat → Blk)
    (programs : Nat → Prog (Nat × Blk) (Exec (W64 × W64)) α),
    (∀ t, MayRequest (fun o => Owned own o.2) (RightOrBadAlloc need (Blk.value m)) (programs t)) →
    ∀ (schedule : List Nat) (t : Nat) (a : α),
      ((Sys.mk (fun t => (programs t).handle (valueWith m)) fun _ => 0).run schedule).threads t = .ret a →
      MayReturn (RightOrBadAlloc need (Blk.value m)) (programs t) a := by
  refine ⟨blkNeed, fun α own programs h schedule t a hr => ?_⟩
  exact SysSafe.result (D := cacheDiscipline m own) (post := fun t => MayReturn _ (programs t))
    ⟨good_fresh m own, fun t => ⟨fun _ => False, fun _ h => h.elim,
      Safe.mayReturn (fun o ho K => valueWith_safe m own o ho K) (programs t) (h t) _⟩⟩ schedule hr

/-- A program as in `C123_interleaved`, `C123_store_buffers` and `C123_mutex`: a cache is asked without memory, asked once
more with memory, and asked again without. -/
def threeTries (_ : Nat) : Prog (Nat × Blk) (Exec (W64 × W64)) (List (Exec (W64 × W64))) :=
  .op (0, .cached 7 (.raw 1 2)) fun a => .op (1, .cached 7 (.raw 1 2)) fun b => .op (0, .cached 7 (.raw 1 2)) fun c =>
    .ret [a, b, c]

example (need : Blk → Nat) (t : Nat) :
    MayRequest (fun o => Owned (fun _ => .raw 1 2) o.2) (RightOrBadAlloc need (Blk.value .x86)) (threeTries t) :=
  ⟨⟨rfl, trivial⟩, fun _ _ => ⟨⟨rfl, trivial⟩, fun _ _ => ⟨⟨rfl, trivial⟩, fun _ _ => trivial⟩⟩⟩

/-- Two threads do this: the first tries of both fail, thread 1 fills the cache, and thread 0 is then answered from it
without memory. -/
example :
    let s := (Sys.mk (fun t => (threeTries t).handle (valueWith .x86)) fun _ => 0).run
      [0, 1, 1, 1, 1, 1, 1, 1, 0, 0, 0, 1, 1, 1, 0, 0, 0]
    s.threads 0 = .ret [.throw .badAlloc, .ok (1, 2), .ok (1, 2)] ∧
    s.threads 1 = .ret [.throw .badAlloc, .ok (1, 2), .ok (1, 2)] := ⟨rfl, rfl⟩

/-- C123 for blocks of the 128-bit cipher on processors that delay stores but make those of a thread visible in
order. -/
theorem C123_store_buffers (m : Machine) : ∃ need : Blk → Nat, ∀ (α : Type) (own : Nat → Blk)
    (programs : Nat → Prog (Nat × Blk) (Exec (W64 × W64)) α),
    (∀ t, MayRequest (fun o => Owned own o.2) (RightOrBadAlloc need (Blk.value m)) (programs t)) →
    ∀ (events : List Event), InOrder events → ∀ (t : Nat) (a : α),
      ((start fun t => (programs t).handle (valueWith m)).run events).threads t = .ret a →
      MayReturn (RightOrBadAlloc need (Blk.value m)) (programs t) a := by
  refine ⟨blkNeed, fun α own programs h events ho t a hr => ?_⟩
  exact BufferedSafe.result (D := cacheDiscipline m own) (s := start fun t => (programs t).handle (valueWith m))
    (post := fun t => MayReturn _ (programs t))
    ⟨good_fresh m own, fun t => ⟨trivial, fun _ => False, fun _ h => h.elim,
      Safe.mayReturn (fun o ho K => valueWith_safe m own o ho K) (programs t) (h t) _⟩⟩ events ho hr

/-- C123 for blocks of the 128-bit cipher with a mutex around every evaluation, on every processor. -/
theorem C123_mutex (m : Machine) : ∃ need : Blk → Nat, ∀ (α : Type) (own : Nat → Blk)
    (programs : Nat → Prog (Nat × Blk) (Exec (W64 × W64)) α),
    (∀ t, MayRequest (fun o => Owned own o.2) (RightOrBadAlloc need (Blk.value m)) (programs t)) →
    ∀ (events : List (Nat × Nat)) (t : Nat) (a : α),
      Returned (((Locked.start programs).run (valueWith m) events).threads t) a →
      MayReturn (RightOrBadAlloc need (Blk.value m)) (programs t) a :=
  ⟨blkNeed, fun _ own programs h events t a hr => Locked.mayReturn (P := fun o => Owned own o.2)
    (fun o ho K => valueWith_safe m own o ho K) (good_fresh m own) programs h events t a hr⟩

attribute [local irreducible] BlkEncrypted in
/-- C123 for threads that share one key and encrypt blocks of their own, with a mutex: each thread gets for each of its
blocks the encryption of the standard, or `bad_alloc`; the latter only if there was less memory than an encryption
needs, however many encryptions have failed before, in this thread and in others. -/
theorem C123_shared_key_conforms (m : Machine) (hm : m.unalignedLoad = true) (high low : Blk)
    (hh : Plain high) (hl : Plain low) (h l : W64 × W64) (hhv : high.value m = .ok h)
    (hlv : low.value m = .ok l) : ∃ need, ∀ (values : Nat → List (Nat × (W64 × W64))) (events : List (Nat × Nat))
    (t : Nat) (rs : List (Exec (W64 × W64))),
    Returned (((Locked.start fun t => encryptEach (Key.ofBlocks high low) (values t)).run (valueWith m) events).threads t)
      rs →
    rs.length = (values t).length ∧
    ∀ i (hi : i < (values t).length),
      (∃ r, rs[i]? = some (.ok r) ∧ join64 r = Spec.Kuz.enc (join64 h ++ join64 l) (join64 (values t)[i].2)) ∨
      (values t)[i].1 < need ∧ rs[i]? = some (.throw .badAlloc) := by
  have hneed : ∀ v : W64 × W64, blkNeed (BlkEncrypted (BlkRaw.ofPair v) (Key.ofBlocks high low)) =
      blkNeed (BlkEncrypted (BlkRaw.ofPair (0, 0)) (Key.ofBlocks high low)) := fun v => blkNeed_encrypted _ rfl
  have own : ∀ v : W64 × W64, Owned (keyOwn (Key.ofBlocks high low) 0 fun _ => high)
      (BlkEncrypted (BlkRaw.ofPair v) (Key.ofBlocks high low)) := fun v =>
    Owned.encrypted 0 hh.owned hl.owned trivial
  refine ⟨blkNeed (BlkEncrypted (BlkRaw.ofPair (0, 0)) (Key.ofBlocks high low)), fun values events t rs hr => ?_⟩
  have e := Locked.mayReturn (R := RightOrBadAlloc blkNeed (Blk.value m))
    (P := fun o => Owned (keyOwn (Key.ofBlocks high low) 0 fun _ => high) o.2)
    (fun o ho K => valueWith_safe m _ o ho K) (good_fresh m _) _ (fun t => by
      induction values t with
      | nil => trivial
      | cons v vs ih => exact ⟨own v.2, fun x _ => mayRequest_bind ih fun _ => trivial⟩) events t rs hr
  clear hr
  generalize values t = vs at e ⊢
  induction vs generalizing rs with
  | nil => cases e; exact ⟨rfl, fun i hi => absurd hi (by simp)⟩
  | cons v vs ih =>
    obtain ⟨x, hx, e⟩ := e
    obtain ⟨rs, h1, rfl⟩ := (mayReturn_bind _ _ _).1 e
    obtain ⟨h2, h3⟩ := ih rs h1
    refine ⟨by simp [h2], fun i hi => ?_⟩
    cases i with
    | zero =>
      simp only [List.getElem_cons_zero, List.getElem?_cons_zero]
      rcases hx with rfl | ⟨hn, rfl⟩
      · obtain ⟨r, e3, e4⟩ := encrypts_ofBlocks hm hhv hlv 0 (BlkRaw.ofPair v.2) v.2 rfl
        exact .inl ⟨r, by rw [e3], e4⟩
      · exact .inr ⟨by rw [← hneed v.2]; exact hn, rfl⟩
    | succ i =>
      simp only [List.getElem_cons_succ, List.getElem?_cons_succ]
      exact h3 i (by simpa using hi)

example := C123_shared_key_conforms .x86 rfl (.raw 1 2) (.raw 3 4) trivial trivial _ _ rfl rfl

/-- C123: a thread that is alone does what the sequential model says, which is the one of C110 (Model/ScarceKuz): same
result, same caches. -/
theorem C123_alone_is_sequential {W : Type} (m : Machine) (n : Nat) (b : Blk) (mem : CacheLoc → W64) (w : W) :
    let caches (mem : CacheLoc → W64) (id : Nat) :=
      if mem (.loaded id) ≠ 0 then some (mem (.low id), mem (.high id)) else none
    (ScarceKuz.Blk.value m (still W b) (n, (caches mem, w))).1 = (runAlone (valueWith m (n, b)) mem).1 ∧
    (ScarceKuz.Blk.value m (still W b) (n, (caches mem, w))).2.2 =
      (caches (runAlone (valueWith m (n, b)) mem).2, w) := by
  obtain ⟨h1, h2⟩ := evalBlkScarce_alone (W := W) m b n mem w
  rw [valueWith, runAlone_bindE]
  cases h : (runAlone (evalBlkScarce m b n) mem).1 with
  | ok v => rw [h] at h2; exact ⟨h2.1, h1⟩
  | throw e => rw [h] at h2; exact ⟨h2, h1⟩
  | ub u => rw [h] at h2; exact ⟨h2, h1⟩
  | diverge => rw [h] at h2; exact ⟨h2, h1⟩

example := C123_alone_is_sequential (W := Unit) .x86 3 (.xored (.cached 1 (.raw 1 2)) (.user (.throw .badAlloc))) (fun _ => 0)

end

section
open Goost.Magma

/-- C123 for a key of the 64-bit cipher made from text (or over any key data whose words need memory) and threads that
are interleaved. The key needs memory for eight requests at most. -/
theorem C123_magma_interleaved {α : Type} (kd : KeyData) (programs : Nat → Prog (Nat × Int) (Exec W32) α)
    (schedule : List Nat) (t : Nat) (a : α)
    (hr : ((Sys.mk (fun t => (programs t).handle (keyWith kd)) fun _ => 0).run schedule).threads t = .ret a) :
    MayReturn (RightOrBadAlloc (fun _ => 8) (KeyCachedData kd)) (programs t) a :=
  SysSafe.result (D := keyDiscipline kd) (post := fun t => MayReturn _ (programs t))
    ⟨goodKey_fresh kd, fun t => ⟨fun _ => False, fun _ h => h.elim,
      Safe.mayReturn (P := fun _ => True) (fun o _ K => keyWith_safe kd o K) (programs t) (mayRequest_true _) _⟩⟩
    schedule hr

/-- Two threads ask for the same word: thread 0 gets memory for three words only and fails, thread 1 then fills the cache,
and thread 0 is answered from it without memory. -/
example :
    let s := (Sys.mk (fun t => (Prog.op (if t = 0 then 3 else 8, 2) fun a => .op (0, 2) fun b => .ret [a, b] :
      Prog (Nat × Int) (Exec W32) _).handle (keyWith fun i => .ok (BitVec.ofInt 32 i + 5))) fun _ => 0).run
      ([0, 0, 0] ++ List.replicate 13 1 ++ [0, 0, 0])
    s.threads 0 = .ret [.throw .badAlloc, .ok 7] ∧ s.threads 1 = .ret [.ok 7, .ok 7] := ⟨rfl, rfl⟩

/-- C123 for a key of the 64-bit cipher on processors that delay stores but make those of a thread visible in order. -/
theorem C123_magma_store_buffers {α : Type} (kd : KeyData) (programs : Nat → Prog (Nat × Int) (Exec W32) α)
    (events : List Event) (ho : InOrder events) (t : Nat) (a : α)
    (hr : ((start fun t => (programs t).handle (keyWith kd)).run events).threads t = .ret a) :
    MayReturn (RightOrBadAlloc (fun _ => 8) (KeyCachedData kd)) (programs t) a :=
  BufferedSafe.result (D := keyDiscipline kd) (s := start fun t => (programs t).handle (keyWith kd))
    (post := fun t => MayReturn _ (programs t))
    ⟨goodKey_fresh kd, fun t => ⟨trivial, fun _ => False, fun _ h => h.elim,
      Safe.mayReturn (P := fun _ => True) (fun o _ K => keyWith_safe kd o K) (programs t) (mayRequest_true _) _⟩⟩
    events ho hr

/-- C123: threads encrypt with a shared key made from a text of 64 digits, interleaved, each with some memory. A thread
that has returned has got the encryption of the standard, or `bad_alloc`; the latter only if memory for a block was
refused or the key had memory for less than eight requests at some question. -/
theorem C123_magma_conforms (s : List Char) (hs : IsHex s) (hl : s.length = 64) (values : Nat → W32 × W32)
    (memory : Nat → Nat → Option Nat) (schedule : List Nat) (t : Nat) (r : Exec (W32 × W32))
    (hr : ((Sys.mk (fun t => (givenMemory (memory t) 0 (askEncrypt SboxR3412 (values t))).handle
      (keyWith (KeyDataString s))) fun _ => 0).run schedule).threads t = .ret r) :
    (∃ c, r = .ok c ∧ join32 c = Spec.Magma.enc (BitVec.ofNat 256 (hexNat s)) (join32 (values t))) ∨
      Short 8 (memory t) ∧ r = .throw .badAlloc := by
  rcases givenMemory_mayReturn _ _ 0 r (askEncrypt_passesOn _ _)
    (C123_magma_interleaved (KeyDataString s) _ schedule t r hr) with rfl | h
  · rw [alone_encrypt .iso]
    exact .inl ⟨_, BlkEncrypted_value (LazyKey_ofString_computes hs hl) .iso rfl, join32_encP _ _⟩
  · exact .inr h

example (memory : Nat → Nat → Option Nat) := C123_magma_conforms (List.replicate 64 'a') (by decide) rfl
  (fun t => (BitVec.ofNat 32 t, 1)) memory

/-- Memory that is short. -/
example : Short 8 (fun j => if j = 5 then none else some 9) ∧ Short 8 (fun j => some (j + 7)) ∧
    ¬ Short 8 fun j => some (j + 8) :=
  ⟨⟨5, by simp⟩, ⟨0, by simp⟩, by rintro ⟨j, h⟩; have := h _ rfl; omega⟩

/-- C123 for a key of the 64-bit cipher with a mutex around every encryption, on every processor: each thread gets for
each of its blocks the encryption of the standard, or `bad_alloc` for want of memory, however many encryptions have
failed before, in this thread and in others. -/
theorem C123_magma_mutex_conforms (s : List Char) (hs : IsHex s) (hl : s.length = 64)
    (values : Nat → List ((Nat → Option Nat) × (W32 × W32))) (events : List (Nat × Nat)) (t : Nat)
    (rs : List (Exec (W32 × W32)))
    (hr : Returned (((Locked.start fun t => encryptEach64 SboxR3412 (values t)).run
      (fun use => (givenMemory use.1 0 use.2).handle (keyWith (KeyDataString s))) events).threads t) rs) :
    rs.length = (values t).length ∧
    ∀ i (hi : i < (values t).length),
      (∃ c, rs[i]? = some (.ok c) ∧
        join32 c = Spec.Magma.enc (BitVec.ofNat 256 (hexNat s)) (join32 (values t)[i].2)) ∨
      Short 8 (values t)[i].1 ∧ rs[i]? = some (.throw .badAlloc) := by
  have e := Locked.mayReturn (D := keyDiscipline (KeyDataString s)) (P := fun o => PassesOn o.2)
    (R := fun o x => x = alone (KeyCachedData (KeyDataString s)) o.2 ∨ Short 8 o.1 ∧ x = .throw .badAlloc)
    (fun o ho K => Safe.imp (fun r h => givenMemory_mayReturn o.1 o.2 0 r ho h)
      (Safe.mayReturn (P := fun _ => True) (fun o _ K => keyWith_safe _ o K) _ (mayRequest_true _) K))
    (goodKey_fresh _) _ (fun t => by
      induction values t with
      | nil => trivial
      | cons v vs ih => exact ⟨askEncrypt_passesOn _ _, fun x _ => mayRequest_bind ih fun _ => trivial⟩) events t rs hr
  clear hr
  generalize values t = vs at e ⊢
  induction vs generalizing rs with
  | nil => cases e; exact ⟨rfl, fun i hi => absurd hi (by simp)⟩
  | cons v vs ih =>
    obtain ⟨x, hx, e⟩ := e
    obtain ⟨rs, h1, rfl⟩ := (mayReturn_bind _ _ _).1 e
    obtain ⟨h2, h3⟩ := ih rs h1
    refine ⟨by simp [h2], fun i hi => ?_⟩
    cases i with
    | zero =>
      simp only [List.getElem_cons_zero, List.getElem?_cons_zero]
      rcases hx with rfl | ⟨hn, rfl⟩
      · rw [alone_encrypt .iso]
        exact .inl ⟨_, congrArg some (BlkEncrypted_value (LazyKey_ofString_computes hs hl) .iso rfl), join32_encP _ _⟩
      · exact .inr ⟨hn, rfl⟩
    | succ i =>
      simp only [List.getElem_cons_succ, List.getElem?_cons_succ]
      exact h3 i (by simpa using hi)

example := C123_magma_mutex_conforms (List.replicate 64 'a') (by decide) rfl
  (fun t => List.replicate t (fun _ => some t, (5, 6)))

end
end Goost.Props
