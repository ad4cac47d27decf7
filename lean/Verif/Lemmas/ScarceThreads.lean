import Verif.Spec.ScarceThreads
import Verif.Lemmas.Mutex
/-
Threads that share a key on a machine that may run out of memory: a program with requests for memory is the program
without them, cut short.
-/
namespace Goost.Conc
open Spec Goost.Kuz ScarceProg

variable {Loc Val α β : Type}

/-- `q`, which was given `n` requests, makes the accesses of `p` and has its result, leaving all but `c` of the requests,
or stops at some point with `bad_alloc`; the latter only if `n < c`. -/
def Cut (c n : Nat) : MemProg Loc Val (Exec α) → MemProg Loc Val (Exec (α × Nat)) → Prop
  | .ret r, .ret (.ok a) => r = .ok a.1 ∧ n ≤ a.2 + c
  | .ret r, .ret (.throw e) => r = .throw e ∨ e = .badAlloc ∧ n < c
  | .ret r, .ret (.ub u) => r = .ub u
  | .ret r, .ret .diverge => r = .diverge
  | .op _ _, .ret r => r = .throw .badAlloc ∧ n < c
  | .op o k, .op o' k' => o' = o ∧ ∀ x, Cut c n (k x) (k' x)
  | .ret _, .op _ _ => False

theorem Cut.refused {c n : Nat} (h : n < c) (p : MemProg Loc Val (Exec α)) : Cut c n p (.ret (.throw .badAlloc)) := by
  cases p with
  | ret r => exact .inr ⟨rfl, h⟩
  | op o k => exact ⟨rfl, h⟩

theorem Cut.mono {c d n : Nat} (hcd : c ≤ d) {p : MemProg Loc Val (Exec α)} {q : MemProg Loc Val (Exec (α × Nat))}
    (h : Cut c n p q) : Cut d n p q := by
  induction q generalizing p with
  | ret r =>
    cases p with
    | ret s =>
      cases r with
      | ok a => exact ⟨h.1, by have := h.2; omega⟩
      | throw e => exact h.imp id fun h => ⟨h.1, by omega⟩
      | ub u => exact h
      | diverge => exact h
    | op o k => exact ⟨h.1, by have := h.2; omega⟩
  | op o k ih =>
    cases p with
    | ret s => exact h.elim
    | op o' k' => exact ⟨h.1, fun x => ih x (h.2 x)⟩

/-- If `q` was given more it is still as good. -/
theorem Cut.more {c n n' : Nat} {p : MemProg Loc Val (Exec α)} {q : MemProg Loc Val (Exec (α × Nat))}
    (h : Cut c n p q) : Cut (c + (n' - n)) n' p q := by
  induction q generalizing p with
  | ret r =>
    cases p with
    | ret s =>
      cases r with
      | ok a => exact ⟨h.1, by have := h.2; omega⟩
      | throw e => exact h.imp id fun h => ⟨h.1, by omega⟩
      | ub u => exact h
      | diverge => exact h
    | op o k => exact ⟨h.1, by have := h.2; omega⟩
  | op o k ih =>
    cases p with
    | ret s => exact h.elim
    | op o' k' => exact ⟨h.1, fun x => ih x (h.2 x)⟩

/-- `q` is `p` with requests for memory, at most `c` of them. -/
def CutBy (c : Nat) (p : MemProg Loc Val (Exec α)) (q : ScarceProg Loc Val α) : Prop := ∀ n, Cut c n p (q n)

theorem CutBy.result (r : Exec α) : CutBy (Loc := Loc) (Val := Val) 0 (.ret r) (result r) := by
  intro n
  cases r with
  | ok a => exact ⟨rfl, Nat.le_refl _⟩
  | throw e => exact .inl rfl
  | ub u => exact rfl
  | diverge => exact rfl

theorem CutBy.request {c : Nat} {p : MemProg Loc Val (Exec α)} {q : ScarceProg Loc Val α} (h : CutBy c p q) :
    CutBy (c + 1) p (request q) := by
  intro n
  cases n with
  | zero => exact Cut.refused (by omega) p
  | succ n => exact ((h n).more (n' := n + 1)).mono (by omega)

theorem CutBy.access {c : Nat} {o : MemOp Loc Val} {k : Val → MemProg Loc Val (Exec α)} {k' : Val → ScarceProg Loc Val α}
    (h : ∀ x, CutBy c (k x) (k' x)) : CutBy c (.op o k) (access o k') := fun n => ⟨rfl, fun x => h x n⟩

theorem CutBy.plain (p : MemProg Loc Val (Exec α)) : CutBy 0 p (plain p) := by
  intro n
  show Cut 0 n p (p.bindE fun a => .ret (.ok (a, n)))
  induction p with
  | ret r =>
    cases r with
    | ok a => exact ⟨rfl, Nat.le_refl _⟩
    | throw e => exact .inl rfl
    | ub u => exact rfl
    | diverge => exact rfl
  | op o k ih => exact ⟨rfl, fun x => ih x⟩

theorem CutBy.andThen {c d : Nat} {p : MemProg Loc Val (Exec α)} {q : ScarceProg Loc Val α}
    {f : α → MemProg Loc Val (Exec β)} {g : α → ScarceProg Loc Val β} (h : CutBy c p q)
    (hf : ∀ a, CutBy d (f a) (g a)) : CutBy (c + d) (p.bindE f) (q.andThen g) := by
  intro n
  have key : ∀ (q : MemProg Loc Val (Exec (α × Nat))) (p : MemProg Loc Val (Exec α)), Cut c n p q →
      Cut (c + d) n (p.bindE f) (q.bindE fun r => g r.1 r.2) := by
    intro q
    induction q with
    | ret r =>
      intro p h
      cases p with
      | ret s =>
        cases r with
        | ok a =>
          obtain ⟨rfl, hn⟩ := h
          exact ((hf a.1 a.2).more (n' := n)).mono (by omega)
        | throw e =>
          rcases h with rfl | ⟨rfl, hn⟩
          · exact .inl rfl
          · exact Cut.refused (by omega) _
        | ub u => cases h; exact rfl
        | diverge => cases h; exact rfl
      | op o k =>
        obtain ⟨rfl, hn⟩ := h
        exact Cut.refused (by omega) _
    | op o k ih =>
      intro p h
      cases p with
      | ret s => exact h.elim
      | op o' k' =>
        obtain ⟨rfl, h⟩ := h
        exact ⟨rfl, fun x => ih x _ (h x)⟩
  exact key _ _ (h n)

theorem CutBy.mono {c d : Nat} (hcd : c ≤ d) {p : MemProg Loc Val (Exec α)} {q : ScarceProg Loc Val α}
    (h : CutBy c p q) : CutBy d p q := fun n => (h n).mono hcd

/-! ### Blocks and keys -/

/-- The number of requests for memory that are enough for `value()` of a block. -/
def blkNeed : Kuz.Blk → Nat
  | .raw _ _ => 1
  | .str _ => 1
  | .xored a b => blkNeed a + blkNeed b + 1
  | .blkS b => blkNeed b + 1
  | .blkR b => blkNeed b + 1
  | .incremented b => blkNeed b + 1
  | .shifted b _ => blkNeed b + 1
  | .xoredIfHighBit a b => blkNeed a + (blkNeed a + blkNeed b + 1) + 1
  | .cached _ b => blkNeed b
  | .user _ => 1

theorem blkNeed_transform {b b' : Kuz.Blk} (h : blkNeed b = blkNeed b') :
    ∀ n, blkNeed (BlkL.transform b n) = blkNeed (BlkL.transform b' n)
  | 0 => h
  | n + 1 => blkNeed_transform (by rw [blkNeed, blkNeed, h]) n

theorem blkNeed_step {b b' : Kuz.Blk} (h : blkNeed b = blkNeed b') (k : Kuz.Blk) :
    blkNeed (Key.encryptStep b k) = blkNeed (Key.encryptStep b' k) :=
  blkNeed_transform (by simp only [blkNeed, h]) 16

/-- The need of an encryption does not depend on the value that is encrypted. -/
theorem blkNeed_encrypted (key : Key) {b b' : Kuz.Blk} (h : blkNeed b = blkNeed b') :
    blkNeed (BlkEncrypted b key) = blkNeed (BlkEncrypted b' key) := by
  have e := blkNeed_step (blkNeed_step (blkNeed_step (blkNeed_step (blkNeed_step (blkNeed_step (blkNeed_step
    (blkNeed_step (blkNeed_step h key.k1) key.k2) key.k3) key.k4) key.k5) key.k6) key.k7) key.k8) key.k9
  rw [BlkEncrypted, BlkEncrypted, Key.encrypt, Key.encrypt, blkNeed, blkNeed, e]

theorem evalBlk_cut (m : Machine) (b : Kuz.Blk) : CutBy (blkNeed b) (evalBlk m b) (evalBlkScarce m b) := by
  induction b with
  | raw low high => exact (CutBy.result _).request
  | str s => exact (CutBy.result _).request
  | xored a b iha ihb => exact (iha.andThen fun va => ihb.andThen (d := 0) fun vb => CutBy.result _).request
  | blkS b ih => exact (ih.andThen (d := 0) fun v => CutBy.result _).request
  | blkR b ih => exact (ih.andThen (d := 0) fun v => CutBy.result _).request
  | incremented b ih => exact (ih.andThen (d := 0) fun v => CutBy.result _).request
  | shifted b n ih => exact (ih.andThen (d := 0) fun v => CutBy.result _).request
  | xoredIfHighBit a b iha ihb =>
    simp only [evalBlk, evalBlkScarce, blkNeed]
    refine (iha.andThen fun va => CutBy.request ?_).request
    split
    · exact (iha.andThen (d := 0) fun v => CutBy.result _).mono (by omega)
    · refine (iha.andThen (d := blkNeed b) fun v => ?_)
      exact ((CutBy.result _).andThen fun s => ihb.andThen (d := 0) fun vb => CutBy.result _).mono (by omega)
  | cached id b ih =>
    simp only [evalBlk, evalBlkScarce, blkNeed]
    refine CutBy.access fun x => ?_
    split
    · exact (CutBy.plain _).mono (by omega)
    · exact ih.andThen (d := 0) fun v => CutBy.access fun _ => CutBy.access fun _ => CutBy.access fun _ => CutBy.plain _
  | user v => exact (CutBy.result _).request

theorem fillKey_cut (kd : Magma.KeyData) (n : Nat) : ∀ i, CutBy n (fillKey kd n i) (fillKeyScarce kd n i) := by
  induction n with
  | zero => exact fun i => CutBy.result _
  | succ n ih =>
    intro i
    have e : fillKey kd (n + 1) i = (Prog.ret (kd i)).bindE fun k => .op (.store (.key i) k) fun _ => fillKey kd n (i + 1) := by
      rw [bindE_ret, fillKey]; cases kd i <;> rfl
    rw [e]
    exact (((CutBy.result (kd i)).andThen fun k => CutBy.access fun _ => ih (i + 1)).mono (by omega)).request

theorem evalKey_cut (kd : Magma.KeyData) (index : Int) : CutBy 8 (evalKey kd index) (evalKeyScarce kd index) := by
  refine CutBy.access fun x => ?_
  split
  · exact (CutBy.plain _).mono (by omega)
  · exact (fillKey_cut kd 8 0).andThen (d := 0) fun _ => CutBy.access fun _ => CutBy.plain _

/-! ### What is safe is safe if it is cut -/

theorem Cut.safe {D : Discipline Loc Val} {c n : Nat} {x : Exec α} (q : MemProg Loc Val (Exec (α × Nat))) :
    ∀ {p : MemProg Loc Val (Exec α)} {K : Loc → Prop}, Cut c n p q → Safe D K p (· = x) →
      Safe D K (q.bindE fun v => .ret (.ok v.1)) (fun r => r = x ∨ n < c ∧ r = .throw .badAlloc) := by
  induction q with
  | ret r =>
    intro p K h hs
    cases p with
    | ret s =>
      cases hs
      cases r with
      | ok a => cases h.1; exact .inl rfl
      | throw e =>
        rcases h with rfl | ⟨rfl, hn⟩
        · exact .inl rfl
        · exact .inr ⟨hn, rfl⟩
      | ub u => cases h; exact .inl rfl
      | diverge => cases h; exact .inl rfl
    | op o k =>
      obtain ⟨rfl, hn⟩ := h
      exact .inr ⟨hn, rfl⟩
  | op o k ih =>
    intro p K h hs
    cases p with
    | ret s => exact h.elim
    | op o' k' =>
      obtain ⟨rfl, h⟩ := h
      cases o with
      | load l => exact fun x hx => ih x (h x) (hs x hx)
      | store l v => exact ⟨hs.1, hs.2.1, ih v (h v) hs.2.2⟩

theorem valueWith_safe (m : Machine) (own : Nat → Kuz.Blk) (o : Nat × Kuz.Blk) (h : Owned own o.2) (K : CacheLoc → Prop) :
    Safe (cacheDiscipline m own) K (valueWith m o)
      (RightOrBadAlloc blkNeed (Kuz.Blk.value m) o) :=
  Cut.safe _ (evalBlk_cut m o.2 o.1) (evalBlk_safe m own o.2 h K)

theorem keyWith_safe (kd : Magma.KeyData) (o : Nat × Int) (K : KeyLoc → Prop) :
    Safe (keyDiscipline kd) K (keyWith kd o)
      (RightOrBadAlloc (fun _ => 8) (Magma.KeyCachedData kd) o) :=
  Cut.safe _ (evalKey_cut kd o.2 o.1) (evalKey_safe kd o.2 K)

/-! ### Programs -/

section
variable {Op R : Type} {P : Op → Prop}

theorem Safe.imp {D : Discipline Loc Val} {post post' : α → Prop} (hi : ∀ a, post a → post' a) {p : MemProg Loc Val α} :
    ∀ {K : Loc → Prop}, Safe D K p post → Safe D K p post' := by
  induction p with
  | ret a => exact fun h => hi a h
  | op o k ih =>
    intro K h
    cases o with
    | load l => exact fun x hx => ih x (h x hx)
    | store l x => exact ⟨h.1, h.2.1, ih x h.2.2⟩

theorem Safe.mayReturn {Res : Type} {R : Op → Res → Prop} {D : Discipline Loc Val} {h : Op → MemProg Loc Val Res}
    (hh : ∀ o, P o → ∀ K, Safe D K (h o) (R o)) (p : Prog Op Res α) (hp : MayRequest P R p) :
    ∀ K, Safe D K (p.handle h) (MayReturn R p) := by
  induction p with
  | ret a => intro K; exact rfl
  | op o k ih =>
    intro K
    refine (hh o hp.1 K).bind fun a ha K => ?_
    exact Safe.imp (fun r hr => ⟨a, ha, hr⟩) (ih _ (hp.2 a ha) K)

theorem Locked.mayReturn [DecidableEq Loc] [OfNat Val 0] {Res : Type} {R : Op → Res → Prop} {D : Discipline Loc Val}
    {h : Op → MemProg Loc Val Res} (hh : ∀ o, P o → ∀ K, Safe D K (h o) (R o)) (h0 : Good D fun _ => 0)
    (programs : Nat → Prog Op Res α) (hp : ∀ t, MayRequest P R (programs t)) (events : List (Nat × Nat)) (t : Nat) (a : α)
    (hr : Returned (((Locked.start programs).run h events).threads t) a) : MayReturn R (programs t) a := by
  have inv := Locked.InvOf.run (I := Good D) (handler := h)
    (J := fun t p => MayRequest P R p ∧ ∀ r, MayReturn R p r → MayReturn R (programs t) r)
    (fun t o k hj mem hm => by
      obtain ⟨r1, r2⟩ := Safe.run_alone (hh o hj.1.1 fun _ => False) hm (fun _ h => h.elim)
      exact ⟨⟨hj.1.2 _ r1, fun r hr => hj.2 r ⟨_, r1, hr⟩⟩, r2⟩)
    events (Locked.InvOf.start h0 programs fun t => ⟨hp t, fun _ h => h⟩)
  exact (inv.outside t _ hr).2 a rfl

theorem mayRequest_true {Res : Type} {R : Op → Res → Prop} (p : Prog Op Res α) : MayRequest (fun _ => True) R p := by
  induction p with
  | ret a => trivial
  | op o k ih => exact ⟨trivial, fun x _ => ih x⟩

theorem mayReturn_bind {Res : Type} {R : Op → Res → Prop} (p : Prog Op Res α) (f : α → Prog Op Res β) (r : β) :
    MayReturn R (p.bind f) r ↔ ∃ a, MayReturn R p a ∧ MayReturn R (f a) r := by
  induction p with
  | ret a => exact ⟨fun h => ⟨a, rfl, h⟩, fun ⟨_, e, h⟩ => by cases e; exact h⟩
  | op o k ih =>
    constructor
    · rintro ⟨x, hx, h⟩
      obtain ⟨a, h1, h2⟩ := (ih x).1 h
      exact ⟨a, ⟨x, hx, h1⟩, h2⟩
    · rintro ⟨a, ⟨x, hx, h1⟩, h2⟩
      exact ⟨x, hx, (ih x).2 ⟨a, h1, h2⟩⟩

theorem mayRequest_bind {Res : Type} {R : Op → Res → Prop} {p : Prog Op Res α} {f : α → Prog Op Res β}
    (h : MayRequest P R p) (hf : ∀ a, MayRequest P R (f a)) : MayRequest P R (p.bind f) := by
  induction p with
  | ret a => exact hf a
  | op o k ih => exact ⟨h.1, fun x hx => ih x (h.2 x hx)⟩

/-! ### Computations that pass on exceptions -/

/-- If a question is answered with `bad_alloc`, so is the program. -/
def PassesOn {R : Type} : Prog Op (Exec R) (Exec α) → Prop
  | .ret _ => True
  | .op _ k => k (.throw .badAlloc) = .ret (.throw .badAlloc) ∧ ∀ x, PassesOn (k x)

theorem PassesOn.bindE {R : Type} {p : Prog Op (Exec R) (Exec α)} {f : α → Prog Op (Exec R) (Exec β)} (h : PassesOn p)
    (hf : ∀ a, PassesOn (f a)) : PassesOn (p.bindE f) := by
  induction p with
  | ret r =>
    cases r with
    | ok a => exact hf a
    | throw e => trivial
    | ub u => trivial
    | diverge => trivial
  | op o k ih =>
    refine ⟨?_, fun x => ih x (h.2 x)⟩
    show (k (.throw .badAlloc)).bindE f = _
    rw [h.1]; rfl

theorem askRounds_passesOn (sbox : Magma.Sbox) (is : List Int) : ∀ v, PassesOn (askRounds sbox is v) := by
  induction is with
  | nil => exact fun v => trivial
  | cons i is ih => exact fun v => PassesOn.bindE ⟨rfl, fun _ => trivial⟩ fun t => ih _

theorem askEncrypt_passesOn (sbox : Magma.Sbox) (v : W32 × W32) : PassesOn (askEncrypt sbox v) :=
  (askRounds_passesOn sbox _ v).bindE fun v => (askRounds_passesOn sbox _ v).bindE fun v =>
    (askRounds_passesOn sbox _ v).bindE fun v => (askRounds_passesOn sbox _ v).bindE fun _ => trivial

theorem askDecrypt_passesOn (sbox : Magma.Sbox) (v : W32 × W32) : PassesOn (askDecrypt sbox v) :=
  (askRounds_passesOn sbox _ v).bindE fun v => (askRounds_passesOn sbox _ v).bindE fun v =>
    (askRounds_passesOn sbox _ v).bindE fun v => (askRounds_passesOn sbox _ v).bindE fun _ => trivial

theorem givenMemory_mayReturn {answer : Int → Exec W32} {c : Nat} (memory : Nat → Option Nat) (p : KeyProg α) :
    ∀ (i : Nat) (r : Exec α), PassesOn p → MayReturn (RightOrBadAlloc (fun _ => c) answer) (givenMemory memory i p) r →
      r = alone answer p ∨ Short c memory ∧ r = .throw .badAlloc := by
  induction p with
  | ret a => exact fun i r _ h => .inl h
  | op o k ih =>
    intro i r hp h
    rw [givenMemory] at h
    cases hm : memory i with
    | none =>
      rw [hm] at h
      exact .inr ⟨⟨i, fun n hn => by rw [hm] at hn; cases hn⟩, h⟩
    | some n =>
      rw [hm] at h
      obtain ⟨x, rfl | ⟨hn, rfl⟩, h⟩ := h
      · exact ih _ (i + 1) r (hp.2 _) h
      · refine .inr ⟨⟨i, fun n' hn' => by rw [hm] at hn'; cases hn'; exact hn⟩, ?_⟩
        simp only [hp.1, givenMemory] at h
        exact h

end
end Goost.Conc
