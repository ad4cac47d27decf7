import Verif.Lemmas.ViewsRun
/-
C127: when the data behind an object are read.
-/
namespace Goost.Props
open Goost.Views Spec Spec.Views

/-! ### Two programs, for examples -/

/-- The two halves of a key and a block are the variables 0, 1 and 2; the block is encrypted; then all of them are changed;
then the block is encrypted again, with the same objects. -/
def keyChanged (h l z h' l' z' : V) : List Step :=
  [.make (.own 0), .make (.own 1), .make (.own 2), .make (.key 0 1), .make (.encrypted 2 3), .change 0 h, .change 1 l,
    .change 2 z, .ask 4, .change 0 h', .change 1 l', .change 2 z', .ask 4]

/-- A counter that is a variable; the block after it, the same cached, and a copy of it; then the variable is changed. -/
def counters (z z' : V) : List Step :=
  [.make (.own 0), .make (.next 0), .make (.cached 1), .change 0 z, .make (.copy 1), .ask 1, .ask 2, .ask 3, .change 0 z',
    .ask 1, .ask 2, .ask 3]

/-! ### The property -/

/-- C127. Take any program that makes blocks and keys from each other, in any order and sharing them in any way, changes its
variables whenever it wants, and asks blocks for their values as often as it wants. Every call returns, and returns what
`Shows` says of the moment of the call: blocks are views of what they are made of, evaluated when they are asked, except that
copies keep what they were made with, and cached blocks and keys keep what they saw when they were used for the first time. -/
theorem C127_answers (m : Machine) (hm : m.unalignedLoad = true) (start : Cells) (p : List Step) (hp : sound [] p = true) :
    List.Forall₂ (fun x q => ∃ v, x = .ok v ∧ Shows start p q.1 q.2 (join64 v)) (run m p [] (fun _ => none, start)) (asked p) :=
  (Inv.init start p).run hm p [] [] _ _ rfl hp

/-- A program that shares, caches, copies and changes. -/
example : sound [] (counters (1, 2) (3, 4)) = true ∧ (asked (counters (1, 2) (3, 4))).length = 6 := ⟨rfl, rfl⟩

theorem firstUse_unique {p : List Step} {j t u u' : Nat} (h : FirstUse p j t u) (h' : FirstUse p j t u') : u = u' := by
  rcases Nat.lt_trichotomy u u' with hl | hl | hl
  · rcases h.2.2 with e | e
    · exact absurd h'.1 (by omega)
    · exact absurd e (h'.2.1 u hl)
  · exact hl
  · rcases h'.2.2 with e | e
    · exact absurd h.1 (by omega)
    · exact absurd e (h.2.1 u' hl)

/-- C127. `Shows` leaves no choice: there is at most one value an object can show at a moment. -/
theorem C127_unique (start : Cells) (p : List Step) (i t : Nat) (x y : BitVec 128) (hx : Shows start p i t x)
    (hy : Shows start p i t y) : x = y := by
  induction hx generalizing y with
  | own e => cases hy with | own e' => simp_all | _ => simp_all
  | fixed e => cases hy with | fixed e' => simp_all | _ => simp_all
  | copy e _ ih =>
    cases hy with
    | copy e' h' => rw [e] at e'; cases e'; exact ih _ h'
    | _ => simp_all
  | cached e u _ ih =>
    cases hy with
    | cached e' u' h' => rw [e] at e'; cases e'; cases firstUse_unique u u'; exact ih _ h'
    | _ => simp_all
  | xored e _ _ ih1 ih2 =>
    cases hy with
    | xored e' h1 h2 => rw [e] at e'; cases e'; rw [ih1 _ h1, ih2 _ h2]
    | _ => simp_all
  | substituted e _ ih =>
    cases hy with
    | substituted e' h' => rw [e] at e'; cases e'; rw [ih _ h']
    | _ => simp_all
  | mixed e _ ih =>
    cases hy with
    | mixed e' h' => rw [e] at e'; cases e'; rw [ih _ h']
    | _ => simp_all
  | rotated e _ ih =>
    cases hy with
    | rotated e' h' => rw [e] at e'; cases e'; rw [ih _ h']
    | _ => simp_all
  | shifted e _ ih =>
    cases hy with
    | shifted e' h' => rw [e] at e'; cases e'; rw [ih _ h']
    | _ => simp_all
  | next e _ ih =>
    cases hy with
    | next e' h' => rw [e] at e'; cases e'; rw [ih _ h']
    | _ => simp_all
  | encrypted e f u _ _ _ ih1 ih2 ih3 =>
    cases hy with
    | encrypted e' f' u' h1 h2 h3 =>
      rw [e] at e'; cases e'
      rw [f] at f'; cases f'
      cases firstUse_unique u u'
      rw [ih1 _ h1, ih2 _ h2, ih3 _ h3]
    | _ => simp_all

/-- The copy in that program. -/
example : Shows (fun _ => (0, 0)) (counters (1, 2) (3, 4)) 3 7 (join64 (1, 2) + 1) :=
  .copy (a := 1) (t₀ := 4) rfl (.next (a := 0) (t₀ := 1) rfl (.own (c := 0) (t₀ := 0) rfl))

/-- C127. Making an object from blocks of any kind, whatever they are and whatever their caches hold, neither reads nor
changes anything, `BlkRaw(block)` excepted. -/
theorem C127_making_reads_nothing (m : Machine) (o : List Obj) (how : How) (hc : ∀ a, how ≠ .copy a)
    (hb : ∀ a ∈ how.blocks, ∃ b, o[a]? = some (.block b)) (hk : ∀ a ∈ how.keys, ∃ k, o[a]? = some (.key k)) :
    ∃ x, ∀ s, build m o how s = (.ok x, s) := by
  cases how with
  | copy a => exact absurd rfl (hc a)
  | own d => exact ⟨_, fun _ => rfl⟩
  | fixed v => exact ⟨_, fun _ => rfl⟩
  | cached a =>
    obtain ⟨b, e⟩ := hb a (by simp [How.blocks])
    exact ⟨_, fun s => by simp only [build]; rw [lift_bind (blockAt_eq e)]; rfl⟩
  | substituted a =>
    obtain ⟨b, e⟩ := hb a (by simp [How.blocks])
    exact ⟨_, fun s => by simp only [build]; rw [lift_bind (blockAt_eq e)]; rfl⟩
  | mixed a =>
    obtain ⟨b, e⟩ := hb a (by simp [How.blocks])
    exact ⟨_, fun s => by simp only [build]; rw [lift_bind (blockAt_eq e)]; rfl⟩
  | rotated a =>
    obtain ⟨b, e⟩ := hb a (by simp [How.blocks])
    exact ⟨_, fun s => by simp only [build]; rw [lift_bind (blockAt_eq e)]; rfl⟩
  | shifted a n =>
    obtain ⟨b, e⟩ := hb a (by simp [How.blocks])
    exact ⟨_, fun s => by simp only [build]; rw [lift_bind (blockAt_eq e)]; rfl⟩
  | next a =>
    obtain ⟨b, e⟩ := hb a (by simp [How.blocks])
    exact ⟨_, fun s => by simp only [build]; rw [lift_bind (blockAt_eq e)]; rfl⟩
  | xored a d =>
    obtain ⟨b, e⟩ := hb a (by simp [How.blocks])
    obtain ⟨b', e'⟩ := hb d (by simp [How.blocks])
    exact ⟨_, fun s => by simp only [build]; rw [lift_bind (blockAt_eq e), lift_bind (blockAt_eq e')]; rfl⟩
  | key a d =>
    obtain ⟨b, e⟩ := hb a (by simp [How.blocks])
    obtain ⟨b', e'⟩ := hb d (by simp [How.blocks])
    exact ⟨_, fun s => by simp only [build]; rw [lift_bind (blockAt_eq e), lift_bind (blockAt_eq e')]; rfl⟩
  | encrypted a k =>
    obtain ⟨b, e⟩ := hb a (by simp [How.blocks])
    obtain ⟨b', e'⟩ := hk k (by simp [How.keys])
    exact ⟨_, fun s => by simp only [build]; rw [lift_bind (blockAt_eq e), lift_bind (keyAt_eq e')]; rfl⟩

/-- An object that fails whenever it is read can be wrapped all the same. -/
example : ∃ x, ∀ s, build .x86 [.block (.user fun w => (.throw .outOfRange, w))] (.mixed 0) s = (.ok x, s) :=
  C127_making_reads_nothing _ _ _ (by simp) (by simp [How.blocks]) (by simp [How.keys])

/-- C127. Copies never change. -/
theorem C127_copies_keep (start : Cells) (p : List Step) (i a t₀ t t' : Nat) (x : BitVec 128)
    (hi : (objects p)[i]? = some (.copy a, t₀)) (h : Shows start p i t x) : Shows start p i t' x := by
  cases h with
  | copy e h => exact .copy e h
  | _ => simp_all

/-- The copy of `counters`, at any moment `t'`. -/
example (t' : Nat) : Shows (fun _ => (0, 0)) (counters (1, 2) (3, 4)) 3 t' (join64 (1, 2) + 1) :=
  C127_copies_keep _ _ 3 1 4 7 t' _ rfl (.copy (a := 1) (t₀ := 4) rfl (.next (a := 0) (t₀ := 1) rfl (.own (c := 0) (t₀ := 0) rfl)))

/-- C127. Once a cached block has been used, it never changes. -/
theorem C127_cached_keep (start : Cells) (p : List Step) (i a t₀ u t t' : Nat) (x : BitVec 128)
    (hi : (objects p)[i]? = some (.cached a, t₀)) (hu : Uses p u i) (ht : u ≤ t) (ht' : u ≤ t') (h : Shows start p i t x) :
    Shows start p i t' x := by
  cases h with
  | @cached _ _ _ b v _ e f h =>
    have hv : v ≤ u := Nat.le_of_not_lt fun hl => f.2.1 u hl hu
    refine .cached e ⟨Nat.le_trans hv ht', f.2.1, .inr ?_⟩ h
    rcases f.2.2 with e | e
    · have : v = u := by omega
      rw [this]; exact hu
    · exact e
  | _ => simp_all

/-- The cached block of `counters` after its first use. -/
example (x : BitVec 128) (h : Shows (fun _ => (0, 0)) (counters (1, 2) (3, 4)) 2 6 x) :
    Shows (fun _ => (0, 0)) (counters (1, 2) (3, 4)) 2 10 x :=
  C127_cached_keep _ _ 2 1 2 6 6 10 x rfl ⟨2, .inl rfl, .self 2⟩ (Nat.le_refl _) (by omega) h

/-- C127. A key that has been used is not changed any more by what its data are: the second answer is the cipher of the new
block with the key of the first call. What the variables were when the objects were made does not matter. -/
theorem C127_key_changed (m : Machine) (hm : m.unalignedLoad = true) (start : Cells) (h l z h' l' z' : V) :
    ∃ v v', run m (keyChanged h l z h' l' z') [] (fun _ => none, start) = [.ok v, .ok v'] ∧
      join64 v = Kuz.enc (join64 h ++ join64 l) (join64 z) ∧ join64 v' = Kuz.enc (join64 h ++ join64 l) (join64 z') := by
  have key := C127_answers m hm start (keyChanged h l z h' l' z') rfl
  have hu : ∀ s, s < 8 → ¬ Uses (keyChanged h l z h' l' z') s 3 := by
    rintro s hs ⟨i, hi, -⟩
    have : s = 0 ∨ s = 1 ∨ s = 2 ∨ s = 3 ∨ s = 4 ∨ s = 5 ∨ s = 6 ∨ s = 7 := by omega
    rcases this with rfl | rfl | rfl | rfl | rfl | rfl | rfl | rfl <;> simp [keyChanged] at hi
  have hu' : Uses (keyChanged h l z h' l' z') 8 3 :=
    ⟨4, .inl rfl, .through (how := .encrypted 2 3) (t := 4) rfl (by simp) (by simp [How.blocks, How.keys]) (.self 3)⟩
  have h1 : Shows start (keyChanged h l z h' l' z') 4 8 (Kuz.enc (join64 h ++ join64 l) (join64 z)) :=
    .encrypted (u := 8) (t₀ := 4) (t₁ := 3) (b := 2) (k := 3) (h := 0) (l := 1) rfl rfl ⟨Nat.le_refl _, hu, .inl rfl⟩
      (.own (c := 0) (t₀ := 0) rfl) (.own (c := 1) (t₀ := 1) rfl) (.own (c := 2) (t₀ := 2) rfl)
  have h2 : Shows start (keyChanged h l z h' l' z') 4 12 (Kuz.enc (join64 h ++ join64 l) (join64 z')) :=
    .encrypted (u := 8) (t₀ := 4) (t₁ := 3) (b := 2) (k := 3) (h := 0) (l := 1) rfl rfl ⟨by omega, hu, .inr hu'⟩
      (.own (c := 0) (t₀ := 0) rfl) (.own (c := 1) (t₀ := 1) rfl) (.own (c := 2) (t₀ := 2) rfl)
  generalize run m (keyChanged h l z h' l' z') [] (fun _ => none, start) = r at key
  have ha : asked (keyChanged h l z h' l' z') = [(4, 8), (4, 12)] := rfl
  rw [ha] at key
  cases key with
  | cons e1 key =>
    cases key with
    | cons e2 key =>
      cases key
      obtain ⟨v, rfl, s1⟩ := e1
      obtain ⟨v', rfl, s2⟩ := e2
      exact ⟨v, v', rfl, C127_unique _ _ _ _ _ _ s1 h1, C127_unique _ _ _ _ _ _ s2 h2⟩

/-- The key and the block are zeros when the objects are made and are changed twice. -/
example : ∃ v v', run .x86 (keyChanged (1, 2) (3, 4) (5, 6) (7, 8) (9, 10) (11, 12)) [] (fun _ => none, fun _ => (0, 0)) =
    [.ok v, .ok v'] ∧ join64 v' = Kuz.enc (join64 (1, 2) ++ join64 (3, 4)) (join64 (11, 12)) :=
  let ⟨v, v', e, _, f⟩ := C127_key_changed .x86 rfl (fun _ => (0, 0)) (1, 2) (3, 4) (5, 6) (7, 8) (9, 10) (11, 12)
  ⟨v, v', e, f⟩

/-- C127. The block after the counter follows the variable; the cached one and the copy do not. -/
theorem C127_counters (m : Machine) (hm : m.unalignedLoad = true) (start : Cells) (z z' : V) :
    ∃ a b c a' b' c', run m (counters z z') [] (fun _ => none, start) = [.ok a, .ok b, .ok c, .ok a', .ok b', .ok c'] ∧
      join64 a = join64 z + 1 ∧ join64 b = join64 z + 1 ∧ join64 c = join64 z + 1 ∧
      join64 a' = join64 z' + 1 ∧ join64 b' = join64 z + 1 ∧ join64 c' = join64 z + 1 := by
  have key := C127_answers m hm start (counters z z') rfl
  have ha : asked (counters z z') = [(1, 5), (2, 6), (3, 7), (1, 9), (2, 10), (3, 11)] := rfl
  have own : ∀ t, Shows start (counters z z') 1 t (join64 (contents start (counters z z') 0 t) + 1) :=
    fun t => .next (a := 0) (t₀ := 1) rfl (.own (c := 0) (t₀ := 0) rfl)
  have two : ∀ i, RestsOn (counters z z') i 2 → i = 2 := by
    intro i hi
    cases hi with
    | self => rfl
    | @through _ a _ how t e hc hm hr =>
      have : i = 0 ∨ i = 1 ∨ i = 2 ∨ i = 3 ∨ 4 ≤ i := by omega
      rcases this with rfl | rfl | rfl | rfl | hi
      · cases e; simp [How.blocks, How.keys] at hm
      · cases e
        simp only [How.blocks, How.keys, List.append_nil, List.mem_singleton] at hm
        subst hm
        cases hr with
        | through e hc hm hr => cases e; simp [How.blocks, How.keys] at hm
      · rfl
      · cases e; exact absurd rfl (hc 1)
      · have : (objects (counters z z')).length = 4 := rfl
        rw [List.getElem?_eq_none (by omega)] at e
        cases e
  have hu : ∀ s, s < 6 → ¬ Uses (counters z z') s 2 := by
    rintro s hs ⟨i, hi, hr⟩
    rw [two i hr] at hi
    have : s = 0 ∨ s = 1 ∨ s = 2 ∨ s = 3 ∨ s = 4 ∨ s = 5 := by omega
    rcases this with rfl | rfl | rfl | rfl | rfl | rfl <;> simp [counters] at hi
  have hu' : Uses (counters z z') 6 2 := ⟨2, .inl rfl, .self 2⟩
  have b1 : Shows start (counters z z') 2 6 (join64 z + 1) := .cached (a := 1) (t₀ := 2) rfl ⟨Nat.le_refl _, hu, .inl rfl⟩ (own 6)
  have b2 : Shows start (counters z z') 2 10 (join64 z + 1) := .cached (a := 1) (t₀ := 2) rfl ⟨by omega, hu, .inr hu'⟩ (own 6)
  have c1 : ∀ t, Shows start (counters z z') 3 t (join64 z + 1) := fun t => .copy (a := 1) (t₀ := 4) rfl (own 4)
  rw [ha] at key
  generalize run m (counters z z') [] (fun _ => none, start) = r at key
  rcases key with _ | ⟨⟨a, rfl, s1⟩, key⟩
  rcases key with _ | ⟨⟨b, rfl, s2⟩, key⟩
  rcases key with _ | ⟨⟨c, rfl, s3⟩, key⟩
  rcases key with _ | ⟨⟨a', rfl, s4⟩, key⟩
  rcases key with _ | ⟨⟨b', rfl, s5⟩, key⟩
  rcases key with _ | ⟨⟨c', rfl, s6⟩, key⟩
  rcases key with _ | _
  exact ⟨a, b, c, a', b', c', rfl, C127_unique _ _ _ _ _ _ s1 (own 5), C127_unique _ _ _ _ _ _ s2 b1,
    C127_unique _ _ _ _ _ _ s3 (c1 7), C127_unique _ _ _ _ _ _ s4 (own 9), C127_unique _ _ _ _ _ _ s5 b2,
    C127_unique _ _ _ _ _ _ s6 (c1 11)⟩

end Goost.Props
