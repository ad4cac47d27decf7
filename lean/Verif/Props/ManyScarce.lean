import Verif.Lemmas.ManyScarce
import Verif.Props.ScarceKuz
/-
C136: several keys of the 128-bit cipher, used in turns, while memory runs out.
-/
namespace Goost.Props
open Spec Goost.KuzToken
open Goost.Kuz (Caches)
variable {W κ : Type}

/-- Two keys with caches of their own, for examples. -/
theorem two_own_caches : OwnCaches (fun k : Bool => if k then 10 else 0) := by
  intro a b h
  cases a <;> cases b <;> simp_all

/-- Any number of keys, used in turns in any order, each time with whatever memory there is: each attempt does what it should with
its key alone, or throws `bad_alloc`. Then it may have learnt something about its own key, which is right; the others are not touched. -/
theorem C136_in_turns (m : Machine) (hm : m.unalignedLoad = true) (high low : κ → Io W (BitVec 64 × BitVec 64)) (base : κ → Nat)
    (hb : OwnCaches base) (tries : List (κ × Nat × KeyUse W)) (w : W) :
    let library := runCalls (attemptAmong m fun k => Key.ofBlocks (.user (high k)) (.user (low k)) (base k)) tries (noneLoaded, w)
    ∃ memories, mayResultAmong high low (tries.map fun u => (u.1, u.2.2)) (fun _ => (none, none), w) library.1 (memories, library.2.2) :=
  ⟨_, (ScarceKuz.attempts_among (high := high) (low := low) (H := fun k => .user (high k)) (L := fun k => .user (low k)) hm hb
    (fun _ => inferInstance) (fun _ => inferInstance) (fun _ => inferInstance) (fun _ => inferInstance) (fun _ _ => trivial) (fun _ _ => trivial) tries (noneLoaded, w)
    (fun _ => Inv_none)).1⟩

/-- Two tokens that give each half once; the attempts with the first fail for lack of memory, and those with the second do not disturb it. -/
example (m : Machine) (hm : m.unalignedLoad = true) (n : Nat) := C136_in_turns m hm (fun k : Bool => if k then token 1 (5, 6) else token 3 (1, 2))
  (fun k => if k then token 2 (7, 8) else token 4 (3, 4)) (fun k => if k then 10 else 0)
  two_own_caches
  [(true, n, .ctr 9 [] (3, 4) []), (false, 700, .mac [(1, 2)] (3, 4) 16), (true, 5, .mac [(1, 2)] (3, 4) 16)] []

/-- After any such history, for every key: there is an amount of memory with which its next use does what it should; with less it throws
`bad_alloc`, and has done a beginning of this. -/
theorem C136_enough (m : Machine) (hm : m.unalignedLoad = true) (high low : κ → Io W (BitVec 64 × BitVec 64)) (base : κ → Nat)
    (hb : OwnCaches base) (tries : List (κ × Nat × KeyUse W)) (w : W) :
    let key := fun k => Key.ofBlocks (.user (high k)) (.user (low k)) (base k)
    let library := runCalls (attemptAmong m key) tries (noneLoaded, w)
    ∃ memories : KeyMemories κ W, memories.2 = library.2.2 ∧
      mayResultAmong high low (tries.map fun u => (u.1, u.2.2)) (fun _ => (none, none), w) library.1 memories ∧
      ∀ (k : κ) (u : KeyUse W), ∃ N, ∀ n,
        let next := attemptAmong m key (k, n, u) library.2
        let should := ideal (high k) (low k) u (memoryOf memories k)
        (N ≤ n → next.1 = should.1 ∧ next.2.2 = should.2.2.2) ∧
        (n < N → next.1 = .throw .badAlloc ∧ ∃ h l, cutShort (high k) (low k) u (memoryOf memories k) (h, l, next.2.2)) := by
  obtain ⟨h1, h2⟩ := ScarceKuz.attempts_among (high := high) (low := low) (H := fun k => .user (high k)) (L := fun k => .user (low k)) hm hb
    (fun _ => inferInstance) (fun _ => inferInstance) (fun _ => inferInstance) (fun _ => inferInstance) (fun _ _ => trivial) (fun _ _ => trivial) tries (noneLoaded, w) (fun _ => Inv_none)
  refine ⟨_, rfl, h1, fun k u => ?_⟩
  obtain ⟨N, hN⟩ := ScarceKuz.attempt_result (hi := high k) (lo := low k) (H := .user (high k)) (L := .user (low k)) (base := base k) hm u _ (h2 k)
  refine ⟨N, fun n => ?_⟩
  obtain ⟨-, k1, k2⟩ := hN n
  refine ⟨fun hn => ?_, fun hn => ?_⟩
  · obtain ⟨i1, i2⟩ := k1 hn
    exact ⟨i1, congrArg (·.2.2) i2⟩
  · obtain ⟨i1, i2⟩ := k2 hn
    exact ⟨i1, _, _, i2⟩

/-- Two tokens that give each half once; the attempts with the first fail for lack of memory, and those with the second do not disturb it. -/
example (m : Machine) (hm : m.unalignedLoad = true) (n : Nat) := C136_enough m hm (fun k : Bool => if k then token 1 (5, 6) else token 3 (1, 2))
  (fun k => if k then token 2 (7, 8) else token 4 (3, 4)) (fun k => if k then 10 else 0)
  two_own_caches
  [(true, n, .ctr 9 [] (3, 4) []), (false, 700, .mac [(1, 2)] (3, 4) 16), (true, 5, .mac [(1, 2)] (3, 4) 16)] []

/-- For keys given by texts of 64 digits, after any such history: every next result is that of the standard for the key that is used, or
`bad_alloc`, and with enough memory the former. A failed attempt has at most read the block that it was to encrypt. -/
theorem C136_text_keys (m : Machine) (hm : m.unalignedLoad = true) (text : κ → List Char) (hs : ∀ k, IsHex (text k))
    (hl : ∀ k, (text k).length = 64) (base : κ → Nat) (hb : OwnCaches base) :
    ∃ key : κ → Key W, (∀ k, Key.ofString (text k) (base k) = .ok (key k)) ∧
      ∀ (tries : List (κ × Nat × KeyUse W)) (w : W),
        let library := (runCalls (attemptAmong m key) tries (noneLoaded, w)).2
        ∀ (k : κ) (u : KeyUse W), ∃ N, ∀ n,
          let next := attemptAmong m key (k, n, u) library
          let standard := kuzResult (BitVec.ofNat 256 (hexNat (text k))) u library.2
          (N ≤ n → next.1 = standard.1 ∧ next.2.2 = standard.2) ∧
          (n < N → next.1 = .throw .badAlloc ∧ atMostRead u library.2 next.2.2) := by
  have hk := fun k => ScarceKuz.ofString_halves (W := W) m (hs k) (hl k) (base k)
  choose h l e1 e2 e3 e4 using hk
  refine ⟨_, e1, fun tries w => ?_⟩
  obtain ⟨h1, h2⟩ := ScarceKuz.attempts_among (high := fun k => pure (h k)) (low := fun k => pure (l k))
    (H := fun k => .str ((text k).take 32)) (L := fun k => .str (((text k).drop 32).take 32)) hm hb
    (fun k => ScarceKuz.acts_text (e2 k)) (fun k => ScarceKuz.acts_text (e3 k)) (fun _ => inferInstance) (fun _ => inferInstance) (fun _ _ => trivial) (fun _ _ => trivial) tries (noneLoaded, w)
    (fun _ => Inv_none)
  intro library k u
  have h3 := ScarceKuz.mayResultAmong_agrees (h := h) (l := l) _ (fun _ => ⟨.inl rfl, .inl rfl⟩) h1 k
  have := ScarceKuz.acts_text (W := W) (e2 k)
  have := ScarceKuz.acts_text (W := W) (e3 k)
  obtain ⟨N, hN⟩ := ScarceKuz.attempt_result (hi := pure (h k)) (lo := pure (l k)) (H := .str ((text k).take 32))
    (L := .str (((text k).drop 32).take 32)) (base := base k) hm u _ (h2 k)
  refine ⟨N, fun n => ?_⟩
  obtain ⟨-, k1, k2⟩ := hN n
  obtain ⟨j1, j2, -⟩ := ScarceKuz.ideal_agrees u h3
  rw [e4 k] at j1 j2
  refine ⟨fun hn => ?_, fun hn => ?_⟩
  · obtain ⟨i1, i2⟩ := k1 hn
    exact ⟨i1.trans j1, (congrArg (·.2.2) i2).trans j2⟩
  · obtain ⟨i1, i2⟩ := k2 hn
    exact ⟨i1, (ScarceKuz.cutShort_agrees h3 i2).1⟩

/-- Two keys given by texts. -/
example := C136_text_keys (W := Unit) .x86 rfl (fun k : Bool => List.replicate 64 (if k then 'a' else '7'))
  (fun k c hc => by rw [List.eq_of_mem_replicate hc]; cases k <;> decide) (fun k => by simp) _ two_own_caches

end Goost.Props
