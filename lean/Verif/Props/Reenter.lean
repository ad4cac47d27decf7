import Verif.Lemmas.ReenterDialog
import Verif.Lemmas.ReenterMagma
/-
Property C126: a key that is used again while it is being asked for.
-/
namespace Goost.Props
open Goost.Reenter Spec
open Goost.Kuz (Caches)
open Goost.Magma (CachedData)
variable {W : Type}

/-- C126: blocks over objects of the user that may themselves evaluate blocks. If each object has one answer (or refuses)
and calls the library only for blocks `allowed` that have no undefined behaviour, then every evaluation has the outcome it has with objects
that just return, or one of the refusals, or it runs out of stack. -/
theorem C126_blocks (m : Machine) (own : Nat → Kuz.Blk) (val : Nat → BitVec 64 × BitVec 64) (E : Exn → Prop) (allowed : Reenter.Blk → Prop)
    (ha : ∀ b, allowed b → Owned own (plainly val b) ∧ ∀ u, (plainly val b).value m ≠ .ub u)
    (env : Nat → Code W Reenter.Blk (BitVec 64 × BitVec 64) (BitVec 64 × BitVec 64)) (he : ∀ n, Answers E allowed (val n) (env n))
    (calls : List (Nat × Reenter.Blk)) (hc : ∀ q ∈ calls, Owned own (plainly val q.2)) (w : W) :
    ∀ p ∈ calls.zip (runCalls (fun q => q.2.value m env q.1) calls (noneLoaded, w)).1,
      Outcome E p.2 ((plainly val p.1.2).value m) := by
  refine runCalls_all (S := Caches × W) (P := fun s => Consistent m own s.1)
    (Q := fun q r => Outcome E r ((plainly val q.2).value m)) calls (fun q hq s hs => ?_) (noneLoaded, w)
    (consistent_none m own)
  obtain ⟨h1, h2, -⟩ := Right.value ha he q.1 q.2 (hc q hq) s hs trivial
  refine ⟨?_, h2⟩
  rcases h1 with h1 | h1 | h1
  · exact .inl h1
  · exact .inr (.inl h1.2)
  · exact .inr (.inr h1)

/-- A block that is cached while it is being evaluated: the object asks for the same cache over another object. -/
example (calls : List (Nat × Reenter.Blk)) (hc : calls = [(3, .cached 7 (.user 0)), (0, .incremented (.cached 7 (.user 1)))]) :
    ∀ p ∈ calls.zip (runCalls (fun q => q.2.value .x86 (fun n => if n = 0 then .call (.cached 7 (.user 1)) fun _ => .done (.ok (5, 6))
        else .world (· + 1) fun _ => .done (.ok (5, 6))) q.1) calls (noneLoaded, 0)).1,
      Outcome (fun _ => False) p.2 ((plainly (fun _ => (5, 6)) p.1.2).value .x86) := by
  refine C126_blocks .x86 (fun _ => .user (.ok (5, 6))) (fun _ => (5, 6)) _ (· = .cached 7 (.user 1)) ?_ _ ?_ calls ?_ 0
  · rintro b rfl
    exact ⟨⟨rfl, trivial⟩, fun u h => by cases h⟩
  · intro n
    split
    · exact ⟨rfl, fun _ => .inl rfl⟩
    · exact fun _ => .inl rfl
  · subst hc
    simp [plainly, Owned]

/-- C126: a key of two halves that may encrypt with this very key before they answer. Every encryption, with whatever stack is left,
in whatever history, is that of the standard, or a refusal, or there was not enough stack. -/
theorem C126_key (m : Machine) (hm : m.unalignedLoad = true) (base : Nat) (val : Nat → BitVec 64 × BitVec 64) (E : Exn → Prop)
    (env : Nat → Code W Reenter.Blk (BitVec 64 × BitVec 64) (BitVec 64 × BitVec 64))
    (he : ∀ n, Answers E (fun b => ∃ x, b = encryption (Reenter.Key.ofBlocks (.user 0) (.user 1) base) x) (val n) (env n))
    (calls : List (Nat × BitVec 64 × BitVec 64)) (w : W) :
    ∀ p ∈ calls.zip (runCalls (fun q => (encryption (Reenter.Key.ofBlocks (.user 0) (.user 1) base) q.2).value m env q.1)
        calls (noneLoaded, w)).1,
      (∃ r, p.2 = .ok r ∧ join64 r = Spec.Kuz.enc (join64 (val 0) ++ join64 (val 1)) (join64 p.1.2)) ∨ p.2 = .diverge ∨
        ∃ e, E e ∧ p.2 = .throw e := by
  exact runCalls_all (call := fun q => (encryption (Reenter.Key.ofBlocks (.user 0) (.user 1) base) q.2).value m env q.1)
    (Q := fun q z => (∃ r, z = .ok r ∧ join64 r = Spec.Kuz.enc (join64 (val 0) ++ join64 (val 1)) (join64 q.2)) ∨
      z = .diverge ∨ ∃ e, E e ∧ z = .throw e) calls (fun q _ s hs => key_step hm he q.1 q.2 s hs) (noneLoaded, w) (consistent_none m _)

/-- A dialog that gives the same answer twice. -/
example (v x a l : BitVec 64 × BitVec 64) :
    let key := Reenter.Key.ofBlocks (.user 0) (.user 1) 20
    ∀ p ∈ [(1, v), (2, v), (0, x)].zip (runCalls (fun q => (encryption key q.2).value .x86 (dialogKey key x a a l) q.1)
        [(1, v), (2, v), (0, x)] (noneLoaded, false)).1,
      (∃ r, p.2 = .ok r ∧ join64 r = Spec.Kuz.enc (join64 a ++ join64 l) (join64 p.1.2)) ∨ p.2 = .diverge ∨ ∃ e, False ∧ p.2 = .throw e := by
  intro key
  refine C126_key .x86 rfl 20 (fun n => if n = 0 then a else l) (fun _ => False) (dialogKey key x a a l) (fun n => ?_) _ false
  cases n with
  | zero =>
    intro w
    cases w
    · exact ⟨⟨x, rfl⟩, fun _ => .inl rfl⟩
    · exact .inl rfl
  | succ n => exact .inl rfl

/-- C126: once an encryption has returned, whatever happened in between, the ten round keys are settled: they are those that it used, and
every later encryption, whatever the halves would do or answer now, uses them, asks for nothing and changes nothing. -/
theorem C126_no_more_questions (m : Machine) (hm : m.unalignedLoad = true) (high low : Reenter.Blk) (base depth : Nat)
    (env : Nat → Code W Reenter.Blk (BitVec 64 × BitVec 64) (BitVec 64 × BitVec 64)) (v r : BitVec 64 × BitVec 64) (s s' : Caches × W)
    (h : (encryption (Reenter.Key.ofBlocks high low base) v).value m env depth s = (.ok r, s')) :
    ∃ k : Fin 10 → Spec.Kuz.Block, join64 r = Spec.Kuz.encWith ((List.finRange 10).map k) (join64 v) ∧
      ∀ (W' : Type) (env' : Nat → Code W' Reenter.Blk (BitVec 64 × BitVec 64) (BitVec 64 × BitVec 64)) (depth' : Nat)
        (x : BitVec 64 × BitVec 64) (w : W'), ∃ y,
        (encryption (Reenter.Key.ofBlocks high low base) x).value m env' depth' (s'.1, w) = (.ok y, (s'.1, w)) ∧
          join64 y = Spec.Kuz.encWith ((List.finRange 10).map k) (join64 x) := by
  obtain ⟨k, hk⟩ := holds_of_some fun j h1 h10 => needs_value (needs_encryption (high := high) (low := low) v j h1 h10) h
  refine ⟨k, ?_, fun W' env' depth' x w => hk.encryption hm env' depth' high low x w⟩
  obtain ⟨y, e1, e2⟩ := hk.encryption hm env 0 high low v s'.2
  have e3 := again_encryption (env' := env) (depth' := 0) h s'.2
  rw [e3] at e1
  cases e1
  exact e2

/-- There are such encryptions: those of the dialog below. -/
example (x a b l v : BitVec 64 × BitVec 64) :
    let key := Reenter.Key.ofBlocks (.user 0) (.user 1) 20
    ∃ (c : Caches) (k : Fin 10 → Spec.Kuz.Block), ∀ (u : BitVec 64 × BitVec 64), ∃ y,
      (encryption key u).value .x86 (dialogKey key x a b l) 0 (c, false) = (.ok y, (c, false)) ∧
        join64 y = Spec.Kuz.encWith ((List.finRange 10).map k) (join64 u) := by
  intro key
  obtain ⟨⟨r, h, -⟩, -⟩ := two_step (m := .x86) rfl 20 x a b l 2 (by omega) v (noneLoaded, false) (.inl rfl)
  rcases hz : (encryption key v).value .x86 (dialogKey key x a b l) 2 (noneLoaded, false) with ⟨z, s'⟩
  obtain rfl : z = .ok r := by rw [← h]; exact (congrArg Prod.fst hz).symm
  obtain ⟨k, -, hk⟩ := C126_no_more_questions .x86 rfl (.user 0) (.user 1) 20 2 (dialogKey key x a b l) v r (noneLoaded, false) s' hz
  exact ⟨s'.1, k, fun u => hk Bool (dialogKey key x a b l) 0 u false⟩

/-- C126: a dialog that is answered twice. While it asks for the first half of the key for the first time, the program encrypts something with the
key; that question is answered by `b`, the interrupted one then by `a`. From then on the key is that of `b`, with `a` for the first round. -/
theorem C126_two_answers (m : Machine) (hm : m.unalignedLoad = true) (base : Nat) (x a b l : BitVec 64 × BitVec 64)
    (calls : List (Nat × BitVec 64 × BitVec 64)) (hd : ∀ q ∈ calls, 2 ≤ q.1) :
    let key := Reenter.Key.ofBlocks (.user 0) (.user 1) base
    ∀ p ∈ calls.zip (runCalls (fun q => (encryption key q.2).value m (dialogKey key x a b l) q.1) calls (noneLoaded, false)).1,
      ∃ r, p.2 = .ok r ∧ join64 r = Spec.Kuz.enc (join64 b ++ join64 l) (join64 p.1.2 ^^^ join64 a ^^^ join64 b) := by
  intro key
  exact runCalls_all (call := fun q => (encryption key q.2).value m (dialogKey key x a b l) q.1)
    (Q := fun q z => ∃ r, z = .ok r ∧ join64 r = Spec.Kuz.enc (join64 b ++ join64 l) (join64 q.2 ^^^ join64 a ^^^ join64 b)) calls
    (fun q hq s hs => two_step hm base x a b l q.1 (hd q hq) q.2 s hs) (noneLoaded, false) (.inl rfl)

example (a b l v : BitVec 64 × BitVec 64) :
    let key := Reenter.Key.ofBlocks (.user 0) (.user 1) 20
    ∀ p ∈ [(2, v), (5, a)].zip (runCalls (fun q => (encryption key q.2).value .x86 (dialogKey key v a b l) q.1) [(2, v), (5, a)]
        (noneLoaded, false)).1,
      ∃ r, p.2 = .ok r ∧ join64 r = Spec.Kuz.enc (join64 b ++ join64 l) (join64 p.1.2 ^^^ join64 a ^^^ join64 b) :=
  C126_two_answers .x86 rfl 20 v a b l _ (by simp)

/-- C126: if the two answers are different, every result is wrong for the answer that the round keys were made of; if they are equal, all
results are right. -/
theorem C126_two_answers_wrong (a b l v : Spec.Kuz.Block) :
    Spec.Kuz.enc (b ++ l) (v ^^^ a ^^^ b) = Spec.Kuz.enc (b ++ l) v ↔ a = b := by
  constructor
  · intro h
    have h := kuz_enc_injective _ h
    have : a ^^^ b = 0 := by
      have := congrArg (v ^^^ ·) h
      simpa [← BitVec.xor_assoc] using this
    exact BitVec.xor_eq_zero_iff.mp this
  · rintro rfl
    rw [BitVec.xor_assoc, BitVec.xor_self, BitVec.xor_zero]

example : Spec.Kuz.enc ((1 : Spec.Kuz.Block) ++ (2 : Spec.Kuz.Block)) (5 ^^^ 3 ^^^ 1) ≠ Spec.Kuz.enc ((1 : Spec.Kuz.Block) ++ (2 : Spec.Kuz.Block)) 5 :=
  fun h => absurd ((C126_two_answers_wrong 3 1 2 5).mp h) (by decide)

/-- C126: a first half that always encrypts with the key before it answers: no encryption ever returns, however much stack there is. -/
theorem C126_needs_itself (m : Machine) (base k : Nat) (low : Reenter.Blk)
    (env : Nat → Code W Reenter.Blk (BitVec 64 × BitVec 64) (BitVec 64 × BitVec 64))
    (h : First (fun b => ∃ x, b = encryption (Reenter.Key.ofBlocks (.user k) low base) x) (env k)) (calls : List (Nat × BitVec 64 × BitVec 64))
    (w : W) :
    ∀ p ∈ calls.zip (runCalls (fun q => (encryption (Reenter.Key.ofBlocks (.user k) low base) q.2).value m env q.1) calls (noneLoaded, w)).1,
      p.2 = .diverge := by
  refine runCalls_all (S := Caches × W) (P := fun s => s.1 = noneLoaded) (Q := fun _ z => z = .diverge) calls (fun q _ s hs => ?_) _ rfl
  obtain ⟨c, w⟩ := s
  obtain rfl : c = noneLoaded := hs
  obtain ⟨w', e⟩ := needs_itself (m := m) h q.1 noneLoaded rfl w q.2
  rw [e]
  exact ⟨rfl, rfl⟩

/-- A half that is kept encrypted under the key itself. -/
example (v : BitVec 64 × BitVec 64) :
    ∀ p ∈ [(1000, v), (7, v)].zip (runCalls (fun q => (encryption (Reenter.Key.ofBlocks (.user 0) (.raw 1 2) 20) q.2).value .x86
        (fun _ => .world (· + 1) fun n => .call (encryption (Reenter.Key.ofBlocks (.user 0) (.raw 1 2) 20) (n, 0)) fun r =>
          .done (match r with | .ok r => .ok r | .error e => .throw e)) q.1) [(1000, v), (7, v)] (noneLoaded, (0 : BitVec 64))).1,
      p.2 = .diverge :=
  C126_needs_itself .x86 20 0 (.raw 1 2) (fun _ => .world (· + 1) fun n => .call (encryption _ (n, 0)) fun r =>
    .done (match r with | .ok r => .ok r | .error e => .throw e)) (fun n => ⟨(n, 0), rfl⟩) _ 0

/-! ### The 64-bit cipher -/

/-- C126 for the 64-bit cipher: key data behind a cache that may use the key before they answer. Every encryption and decryption, with
whatever stack is left, in whatever history, is right, or a refusal, or there was not enough stack. -/
theorem C126_magma (m : Machine) (val : Nat → BitVec 32) (sub : BitVec 32 → BitVec 32) (E : Exn → Prop)
    (env : Int → Code W Int (BitVec 32) (BitVec 32))
    (he : ∀ i : Nat, i < 8 → Answers E (fun i => 0 ≤ i ∧ i < 8) (val i) (env i)) (calls : List (Nat × Bool × BitVec 32 × BitVec 32)) (w : W) :
    ∀ p ∈ calls.zip (runCalls (cipherCall m env sub) calls ({}, w)).1,
      (∃ r, p.2 = .ok r ∧ join32 r = cipherValue sub val p.1) ∨ p.2 = .diverge ∨ ∃ e, E e ∧ p.2 = .throw e := by
  refine runCalls_all (S := CachedData × W) (P := Words val fun _ => False)
    (Q := fun q z => (∃ r, z = .ok r ∧ join32 r = cipherValue sub val q) ∨ z = .diverge ∨ ∃ e, E e ∧ z = .throw e) calls
    (fun q _ s hs => ?_) _ ⟨rfl, fun h => Bool.noConfusion h, fun _ _ h => h.elim⟩
  obtain ⟨h1, h2⟩ := cipherCall_right (q := q) (D := True) (fun i hi => cachedKey_right he q.1 i hi _) m sub s hs
  refine ⟨?_, h2⟩
  obtain ⟨r, e1, e2⟩ := cipher_value m sub val q
  rw [e1] at h1
  rcases h1 with h1 | h1 | h1
  · exact .inl ⟨r, h1, e2⟩
  · exact .inr (.inl h1.2)
  · exact .inr (.inr h1)

/-- Words that are asked for twice, with the same answers. -/
example (a : Nat → BitVec 32) : ∀ p ∈ [(1, true, 1, 2), (2, true, 1, 2), (1, false, 3, 4)].zip
      (runCalls (cipherCall .iso (dialogWords 3 a a) id) [(1, true, 1, 2), (2, true, 1, 2), (1, false, 3, 4)] ({}, 0)).1,
    (∃ r, p.2 = .ok r ∧ join32 r = cipherValue id a p.1) ∨ p.2 = .diverge ∨ ∃ e, False ∧ p.2 = .throw e := by
  refine C126_magma .iso a id (fun _ => False) (dialogWords 3 a a) (fun i hi w => ?_) _ 0
  simp only [Int.toNat_natCast, ite_self]
  split
  · exact ⟨by omega, fun _ _ => .inl rfl⟩
  · exact .inl rfl

/-- C126 for the 64-bit cipher: once a word has been returned, the eight words are settled: every later call, whatever the key data would
do or answer now, asks for nothing and changes nothing. -/
theorem C126_magma_no_more_questions (env : Int → Code W Int (BitVec 32) (BitVec 32)) (depth : Nat) (i : Int) (v : BitVec 32)
    (s s' : CachedData × W) (hs : s.1.key.length = 8) (h : cachedKey env depth i s = (.ok v, s')) :
    ∃ words : Nat → BitVec 32, i < 8 ∧ v = words i.toNat ∧
      ∀ (m : Machine) (sub : BitVec 32 → BitVec 32) (W' : Type) (env' : Int → Code W' Int (BitVec 32) (BitVec 32))
        (q : Nat × Bool × BitVec 32 × BitVec 32) (w : W'), 0 < q.1 →
        ∃ r, cipherCall m env' sub q (s'.1, w) = (.ok r, (s'.1, w)) ∧ join32 r = cipherValue sub words q := by
  obtain ⟨h1, h2, h3⟩ := cachedKey_settles h hs
  have hk : ∀ j < 8, s'.1.key[j]? = some ((s'.1.key[j]?).getD 0) := by
    intro j hj
    rw [List.getElem?_eq_getElem (by omega)]
    rfl
  refine ⟨fun j => (s'.1.key[j]?).getD 0, ?_, ?_, fun m sub W' env' q w hq => ?_⟩
  · have := (vgetI_ok h3).2.1; omega
  · simp only [(vgetI_ok h3).2.2, Option.getD_some]
  · obtain ⟨d, hd⟩ : ∃ d, q.1 = d + 1 := ⟨q.1 - 1, by omega⟩
    refine cipherCall_settled m sub q (c := s'.1) h1 hk hd w

example (a b : Nat → BitVec 32) : ∃ (c : CachedData) (words : Nat → BitVec 32), b 1 = words 1 ∧ ∃ r,
    cipherCall .x86 (dialogWords 3 a b) id (1, true, 5, 6) (c, 0) = (.ok r, (c, 0)) ∧ join32 r = cipherValue id words (1, true, 5, 6) := by
  obtain ⟨key, -, -, h⟩ := dialogWords_mixed 3 (by omega) a b 0 1 (by omega)
  obtain ⟨words, -, h1, h2⟩ := C126_magma_no_more_questions (dialogWords 3 a b) 2 1 (b 1) ({}, 0) _ rfl h
  exact ⟨_, words, h1, h2 .x86 id Nat (dialogWords 3 a b) (1, true, 5, 6) 0 (by decide)⟩

/-- C126 for the 64-bit cipher: key data that are answered twice. While the word `p` is asked for, the program uses the key; that use is answered
`b`, the interrupted one `a`. From then on the key is of words of both: `b` before `p`, `a` from `p` on. -/
theorem C126_magma_two_answers (m : Machine) (sub : BitVec 32 → BitVec 32) (p : Nat) (hp : p < 8) (a b : Nat → BitVec 32)
    (calls : List (Nat × Bool × BitVec 32 × BitVec 32)) (hd : ∀ q ∈ calls, 2 ≤ q.1) :
    ∀ z ∈ calls.zip (runCalls (cipherCall m (dialogWords p a b) sub) calls ({}, 0)).1,
      ∃ r, z.2 = .ok r ∧ join32 r = cipherValue sub (fun j => if j < p then b j else a j) z.1 := by
  refine runCalls_all (S := CachedData × Nat)
    (P := fun s => s = ({}, 0) ∨ (s.1.cached = true ∧ ∀ j < 8, s.1.key[j]? = some (if j < p then b j else a j)))
    (Q := fun q z => ∃ r, z = .ok r ∧ join32 r = cipherValue sub (fun j => if j < p then b j else a j) q) calls
    (fun q hq s hs => ?_) _ (.inl rfl)
  obtain ⟨d, hd⟩ : ∃ d, q.1 = d + 2 := ⟨q.1 - 2, by have := hd q hq; omega⟩
  obtain ⟨h1, h2⟩ := cipherCall_right (E := fun _ => False) (D := False) (val := fun j => if j < p then b j else a j)
    (P := fun s => s = ({}, 0) ∨ (s.1.cached = true ∧ ∀ j < 8, s.1.key[j]? = some (if j < p then b j else a j)))
    (env := dialogWords p a b) (q := q) (fun i hi s hs => by
      rw [hd]
      rcases hs with rfl | ⟨g1, g2⟩
      · obtain ⟨key, -, k2, k3⟩ := dialogWords_mixed p hp a b d i hi
        rw [k3]
        exact ⟨.inl rfl, .inr ⟨rfl, k2⟩⟩
      · rw [cachedKey_hit (d := d + 1) g1 (g2 i hi)]
        exact ⟨.inl rfl, .inr ⟨g1, g2⟩⟩) m sub s hs
  refine ⟨?_, h2⟩
  obtain ⟨r, e1, e2⟩ := cipher_value m sub (fun j => if j < p then b j else a j) q
  rw [e1] at h1
  rcases h1 with h1 | h1 | ⟨e, h1, -⟩
  · exact ⟨r, h1, e2⟩
  · exact h1.1.elim
  · exact h1.elim

example (a b : Nat → BitVec 32) : ∀ z ∈ [(2, true, 1, 2), (7, false, 3, 4)].zip
      (runCalls (cipherCall .iso (dialogWords 5 a b) id) [(2, true, 1, 2), (7, false, 3, 4)] ({}, 0)).1,
    ∃ r, z.2 = .ok r ∧ join32 r = cipherValue id (fun j => if j < 5 then b j else a j) z.1 :=
  C126_magma_two_answers .iso id 5 (by omega) a b _ (by simp)

end Goost.Props
