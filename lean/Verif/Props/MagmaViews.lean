import Verif.Lemmas.MagmaViewsRun
/-
C128: when the data behind blocks and keys of the 64-bit cipher are read.
-/
namespace Goost.Props
open Goost.MagmaViews Spec Spec.MagmaViews

/-! ### Two programs, for examples -/

/-- Keys of the three kinds over the same words; the words are changed; all keys are used; the words are changed again; all
keys are used again. -/
def threeKeys (k k' : Nat → BitVec 32) (x : BitVec 64) : List Step :=
  [.make (.key 0), .make (.cachedKey 0), .make (.nativeKey 0), .rekey 0 k, .transform 0 x, .transform 1 x, .transform 2 x,
    .rekey 0 k', .transform 0 x, .transform 1 x, .transform 2 x]

/-- A block of the user, encrypted and decrypted with keys of two kinds, and a copy. -/
def readBack (v : V) (k : Nat → BitVec 32) : List Step :=
  [.make (.own 0), .make (.key 0), .make (.cachedKey 0), .make (.encrypted 0 1), .make (.decrypted 3 2), .change 0 v, .rekey 0 k,
    .make (.copy 4), .rekey 0 fun _ => 0, .ask 3, .ask 4, .ask 5]

/-! ### The property -/

/-- C128. Take any program that makes blocks and keys of the 64-bit cipher from each other, in any order and sharing them in any
way, changes its variables and the data of its keys whenever it wants, and calls `value()` and `transform` as often as it wants.
Every call returns, and returns what `Right` says of its moment: blocks are views of what they are made of; copies keep what they
were made with; a key follows its data, except that cached data are those of the first use and a vector is copied. -/
theorem C128_answers (start : Nat → V) (keys : Nat → Nat → BitVec 32) (p : List Step) (hp : sound [] p = true) :
    List.Forall₂ (fun x q => ∃ a, x = .ok a ∧ Right start keys p q.2 q.1 a) (run p [] ⟨start, keys, fun _ => {}⟩) (asked p) :=
  (Inv.init start keys p).run p [] [] _ rfl hp

/-- A program that shares, caches, copies and changes. -/
example : sound [] (readBack (1, 2) fun _ => 3) = true ∧ (asked (readBack (1, 2) fun _ => 3)).length = 3 := ⟨rfl, rfl⟩

theorem magma_firstUse_unique {p : List Step} {j t u u' : Nat} (h : FirstUse p j t u) (h' : FirstUse p j t u') : u = u' := by
  rcases Nat.lt_trichotomy u u' with hl | hl | hl
  · rcases h.2.2 with e | e
    · exact absurd h'.1 (by omega)
    · exact absurd e (h'.2.1 u hl)
  · exact hl
  · rcases h'.2.2 with e | e
    · exact absurd h.1 (by omega)
    · exact absurd e (h.2.1 u' hl)

/-- C128. A key has at most one choice of words at a moment. -/
theorem C128_words_unique (keys : Nat → Nat → BitVec 32) (p : List Step) (k t : Nat) (ws ws' : Nat → BitVec 32)
    (h : Words keys p k t ws) (h' : Words keys p k t ws') : ws = ws' := by
  cases h with
  | key e => cases h' with | key e' => simp_all | _ => simp_all
  | nativeKey e => cases h' with | nativeKey e' => simp_all | _ => simp_all
  | cachedKey e u =>
    cases h' with
    | cachedKey e' u' => rw [e] at e'; cases e'; rw [magma_firstUse_unique u u']
    | _ => simp_all

/-- All three kinds of keys have words. -/
example (keys k k' x) : Words keys (threeKeys k k' x) 0 4 k ∧ Words keys (threeKeys k k' x) 2 4 (keys 0) ∧
    Words keys (threeKeys k k' x) 1 4 k := by
  refine ⟨.key (c := 0) (t₀ := 0) rfl, .nativeKey (c := 0) (t₀ := 2) rfl, .cachedKey (c := 0) (t₀ := 1) (u := 4) rfl
    ⟨Nat.le_refl _, fun s hs => ?_, .inl rfl⟩⟩
  have : s = 0 ∨ s = 1 ∨ s = 2 ∨ s = 3 := by omega
  rcases this with rfl | rfl | rfl | rfl <;> simp [Uses, threeKeys]

/-- C128. `Shows` leaves no choice: there is at most one value an object can show at a moment. -/
theorem C128_unique (start : Nat → V) (keys : Nat → Nat → BitVec 32) (p : List Step) (i t : Nat) (x y : BitVec 64)
    (hx : Shows start keys p i t x) (hy : Shows start keys p i t y) : x = y := by
  induction hx generalizing y with
  | own e => cases hy with | own e' => simp_all | _ => simp_all
  | fixed e => cases hy with | fixed e' => simp_all | _ => simp_all
  | copy e _ ih =>
    cases hy with
    | copy e' h' => rw [e] at e'; cases e'; exact ih _ h'
    | _ => simp_all
  | xored e _ _ ih1 ih2 =>
    cases hy with
    | xored e' h1 h2 => rw [e] at e'; cases e'; rw [ih1 _ h1, ih2 _ h2]
    | _ => simp_all
  | swapped e _ ih =>
    cases hy with
    | swapped e' h' => rw [e] at e'; cases e'; rw [ih _ h']
    | _ => simp_all
  | encrypted e _ u ih =>
    cases hy with
    | encrypted e' h' u' => rw [e] at e'; cases e'; rw [ih _ h', C128_words_unique _ _ _ _ _ _ u u']
    | _ => simp_all
  | decrypted e _ u ih =>
    cases hy with
    | decrypted e' h' u' => rw [e] at e'; cases e'; rw [ih _ h', C128_words_unique _ _ _ _ _ _ u u']
    | _ => simp_all

/-- An encrypted block after the key has been changed. -/
example : Shows (fun _ => (0, 0)) (fun _ _ => 0) (readBack (1, 2) fun _ => 3) 3 9 (Magma.encF (round fun _ => 0) (join32 (1, 2))) :=
  .encrypted (b := 0) (k := 1) (t₀ := 3) rfl (.own (c := 0) (t₀ := 0) rfl) (.key (c := 0) (t₀ := 1) rfl)

/-- C128. Making an object from blocks and keys of any kind neither reads nor changes anything, `BlkRaw(block)` and keys from
vectors excepted. -/
theorem C128_making_reads_nothing (o : List Obj) (how : How) (hc : ∀ a, how ≠ .copy a) (hn : ∀ c, how ≠ .nativeKey c)
    (hb : ∀ a ∈ how.blocks, ∃ b, o[a]? = some (.block b)) (hk : ∀ a ∈ how.keys, ∃ k, o[a]? = some (.key k)) :
    ∃ x, ∀ s, build o how s = (.ok x, s) := by
  cases how with
  | copy a => exact absurd rfl (hc a)
  | nativeKey a => exact absurd rfl (hn a)
  | own d => exact ⟨_, fun _ => rfl⟩
  | fixed v => exact ⟨_, fun _ => rfl⟩
  | key d => exact ⟨_, fun _ => rfl⟩
  | cachedKey d => exact ⟨_, fun _ => rfl⟩
  | swapped a =>
    obtain ⟨b, e⟩ := hb a (by simp [How.blocks])
    exact ⟨_, fun s => by simp only [build]; rw [lift_bind (blockAt_eq e)]; rfl⟩
  | xored a d =>
    obtain ⟨b, e⟩ := hb a (by simp [How.blocks])
    obtain ⟨b', e'⟩ := hb d (by simp [How.blocks])
    exact ⟨_, fun s => by simp only [build]; rw [lift_bind (blockAt_eq e), lift_bind (blockAt_eq e')]; rfl⟩
  | encrypted a k =>
    obtain ⟨b, e⟩ := hb a (by simp [How.blocks])
    obtain ⟨b', e'⟩ := hk k (by simp [How.keys])
    exact ⟨_, fun s => by simp only [build]; rw [lift_bind (blockAt_eq e), lift_bind (keyAt_eq e')]; rfl⟩
  | decrypted a k =>
    obtain ⟨b, e⟩ := hb a (by simp [How.blocks])
    obtain ⟨b', e'⟩ := hk k (by simp [How.keys])
    exact ⟨_, fun s => by simp only [build]; rw [lift_bind (blockAt_eq e), lift_bind (keyAt_eq e')]; rfl⟩

/-- A block that fails whenever it is read can be wrapped all the same. -/
example : ∃ x, ∀ s, build [.block (.user fun w => (.throw .outOfRange, w)), .key (cachedKey 1 0)] (.encrypted 0 1) s = (.ok x, s) :=
  C128_making_reads_nothing _ _ (by simp) (by simp) (by simp [How.blocks]) (by simp [How.keys])

/-- C128. Copies never change. -/
theorem C128_copies_keep (start : Nat → V) (keys : Nat → Nat → BitVec 32) (p : List Step) (i a t₀ t t' : Nat) (x : BitVec 64)
    (hi : (objects p)[i]? = some (.copy a, t₀)) (h : Shows start keys p i t x) : Shows start keys p i t' x := by
  cases h with
  | copy e h => exact .copy e h
  | _ => simp_all

/-- The copy of `readBack`, at any moment `t'`. -/
example (x : BitVec 64) (t' : Nat) (h : Shows (fun _ => (0, 0)) (fun _ _ => 0) (readBack (1, 2) fun _ => 3) 5 11 x) :
    Shows (fun _ => (0, 0)) (fun _ _ => 0) (readBack (1, 2) fun _ => 3) 5 t' x :=
  C128_copies_keep _ _ _ 5 4 7 11 t' x rfl h

/-- C128. Once a key with cached data has been used, its words never change. -/
theorem C128_cached_keep (keys : Nat → Nat → BitVec 32) (p : List Step) (k c t₀ u t t' : Nat) (ws : Nat → BitVec 32)
    (hi : (objects p)[k]? = some (.cachedKey c, t₀)) (hu : Uses p u k) (ht : u ≤ t) (ht' : u ≤ t') (h : Words keys p k t ws) :
    Words keys p k t' ws := by
  cases h with
  | @cachedKey _ _ v e f =>
    have hv : v ≤ u := Nat.le_of_not_lt fun hl => f.2.1 u hl hu
    refine .cachedKey e ⟨Nat.le_trans hv ht', f.2.1, .inr ?_⟩
    rcases f.2.2 with e | e
    · have : v = u := by omega
      rw [this]; exact hu
    · exact e
  | _ => simp_all

/-- In `readBack` making the copy uses the cached key, through the blocks between; its words are the same ever after. -/
example (ws : Nat → BitVec 32) (h : Words (fun _ _ => 0) (readBack (1, 2) fun _ => 3) 2 7 ws) :
    Words (fun _ _ => 0) (readBack (1, 2) fun _ => 3) 2 11 ws :=
  C128_cached_keep _ _ 2 0 2 7 7 11 ws rfl
    (.inl ⟨4, .inr rfl, .through (how := .decrypted 3 2) (t := 4) rfl (by simp) (by simp [How.blocks, How.keys]) (.self 2)⟩)
    (Nat.le_refl _) (by omega) h

/-- C128. The words of a key from a vector never change. -/
theorem C128_native_keep (keys : Nat → Nat → BitVec 32) (p : List Step) (k c t₀ t t' : Nat) (ws : Nat → BitVec 32)
    (hi : (objects p)[k]? = some (.nativeKey c, t₀)) (h : Words keys p k t ws) : Words keys p k t' ws := by
  cases h with
  | nativeKey e => exact .nativeKey e
  | _ => simp_all

example (keys k k' x) (ws : Nat → BitVec 32) (h : Words keys (threeKeys k k' x) 2 6 ws) : Words keys (threeKeys k k' x) 2 10 ws :=
  C128_native_keep _ _ 2 0 2 6 10 ws rfl h

/-- C128. The first key follows its words, the second keeps those of its first use, the third those it was made with. -/
theorem C128_three_keys (start : Nat → V) (keys : Nat → Nat → BitVec 32) (k k' : Nat → BitVec 32) (x : BitVec 64) :
    run (threeKeys k k' x) [] ⟨start, keys, fun _ => {}⟩ =
      [.ok (.word (Magma.encF (round k) x)), .ok (.word (Magma.encF (round k) x)), .ok (.word (Magma.encF (round (keys 0)) x)),
       .ok (.word (Magma.encF (round k') x)), .ok (.word (Magma.encF (round k) x)),
       .ok (.word (Magma.encF (round (keys 0)) x))] := by
  have key := C128_answers start keys (threeKeys k k' x) rfl
  have ha : asked (threeKeys k k' x) = [(.transform 0 x, 4), (.transform 1 x, 5), (.transform 2 x, 6), (.transform 0 x, 8),
    (.transform 1 x, 9), (.transform 2 x, 10)] := rfl
  have hu : ∀ s, s < 5 → ¬ Uses (threeKeys k k' x) s 1 := by
    intro s hs
    have : s = 0 ∨ s = 1 ∨ s = 2 ∨ s = 3 ∨ s = 4 := by omega
    rcases this with rfl | rfl | rfl | rfl | rfl <;> simp [Uses, threeKeys]
  have hu' : Uses (threeKeys k k' x) 5 1 := .inr ⟨x, rfl⟩
  have w0 : Words keys (threeKeys k k' x) 0 4 k := .key (c := 0) (t₀ := 0) rfl
  have w1 : Words keys (threeKeys k k' x) 1 5 k := .cachedKey (c := 0) (t₀ := 1) (u := 5) rfl ⟨Nat.le_refl _, hu, .inl rfl⟩
  have w2 : ∀ t, Words keys (threeKeys k k' x) 2 t (keys 0) := fun t => .nativeKey (c := 0) (t₀ := 2) rfl
  have w3 : Words keys (threeKeys k k' x) 0 8 k' := .key (c := 0) (t₀ := 0) rfl
  have w4 : Words keys (threeKeys k k' x) 1 9 k := .cachedKey (c := 0) (t₀ := 1) (u := 5) rfl ⟨by omega, hu, .inr hu'⟩
  have right : ∀ {a : Answer} {i t : Nat} {ws : Nat → BitVec 32}, Right start keys (threeKeys k k' x) t (.transform i x) a →
      Words keys (threeKeys k k' x) i t ws → a = .word (Magma.encF (round ws) x) := by
    intro a i t ws h hw
    cases a with
    | pair v => exact h.elim
    | word y =>
      obtain ⟨ws', h1, rfl⟩ := h
      rw [C128_words_unique _ _ _ _ _ _ h1 hw]
  rw [ha] at key
  generalize run (threeKeys k k' x) [] ⟨start, keys, fun _ => {}⟩ = r at key
  rcases key with _ | ⟨⟨a, rfl, s1⟩, key⟩
  rcases key with _ | ⟨⟨b, rfl, s2⟩, key⟩
  rcases key with _ | ⟨⟨c, rfl, s3⟩, key⟩
  rcases key with _ | ⟨⟨a', rfl, s4⟩, key⟩
  rcases key with _ | ⟨⟨b', rfl, s5⟩, key⟩
  rcases key with _ | ⟨⟨c', rfl, s6⟩, key⟩
  rcases key with _ | _
  rw [right s1 w0, right s2 w1, right s3 (w2 6), right s4 w3, right s5 w4, right s6 (w2 10)]

end Goost.Props
