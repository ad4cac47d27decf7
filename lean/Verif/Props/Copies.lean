import Verif.Lemmas.Copies
import Verif.Props.Views
/-
C137: copies of blocks and keys.
-/
namespace Goost.Props
open Goost.Copies Spec Spec.Copies
open Goost.Views (V Cells How)

/-! ### Programs, for examples -/

/-- The two halves of a key and a block are the variables 0, 1 and 2. The key is copied before it is used, and the program
lets go of the halves. The block is encrypted with the key; then the program lets go of the key, everything is changed, and
the block is encrypted with the copy. -/
def keyCopied (h l z h' l' z' : V) : List Act :=
  [.make (.own 0), .make (.own 1), .make (.own 2), .make (.key 0 1), .duplicate 3, .drop 0, .drop 1, .make (.encrypted 2 3),
    .make (.encrypted 2 4), .change 0 h, .change 1 l, .change 2 z, .ask 5, .drop 3, .drop 5, .change 0 h', .change 1 l',
    .change 2 z', .ask 6]

/-- The same with a second key made of the same halves, instead of a copy. -/
def keyRemade (h l z h' l' z' : V) : List Act :=
  [.make (.own 0), .make (.own 1), .make (.own 2), .make (.key 0 1), .make (.key 0 1), .drop 0, .drop 1, .make (.encrypted 2 3),
    .make (.encrypted 2 4), .change 0 h, .change 1 l, .change 2 z, .ask 5, .drop 3, .drop 5, .change 0 h', .change 1 l',
    .change 2 z', .ask 6]

/-- A cached block is copied, and the copy is copied. The last copy is used; then the variable is changed, and the other two
are used. -/
def cachedCopied (z z' : V) : List Act :=
  [.make (.own 0), .make (.cached 0), .duplicate 1, .duplicate 2, .change 0 z, .ask 3, .drop 3, .change 0 z', .ask 1, .drop 1,
    .ask 2]

/-! ### The property -/

/-- C137. Take any program that makes blocks and keys from each other, copies them whenever it wants, also copies of copies,
lets go of them whenever it wants, changes its variables and asks for values. Its calls return exactly what those of the
program `plain` return, in which every copy is the original and nothing is let go of. -/
theorem C137_copies (m : Machine) (start : Cells) (p : List Act) (hp : sound [] p = true) :
    run m p [] 0 (fun _ => none, start) = Views.run m (plain [] 0 p) [] (fun _ => none, start) :=
  run_eq (vars := []) (names := []) (o := []) (o' := []) p ⟨rfl, rfl, fun a k h => by simp at h⟩ hp _

/-- Programs that copy keys, cached blocks and copies, and let go of the originals. -/
example : sound [] (keyCopied (1, 2) (3, 4) (5, 6) (7, 8) (9, 10) (11, 12)) = true ∧ sound [] (cachedCopied (1, 2) (3, 4)) = true ∧
    plain [] 0 (cachedCopied (1, 2) (3, 4)) =
      [.make (.own 0), .make (.cached 0), .change 0 (1, 2), .ask 1, .change 0 (3, 4), .ask 1, .ask 1] := ⟨rfl, rfl, rfl⟩

/-- C137. So every call returns, and what C127 says of the program without copies is what it returns: a copy shows what the
original would show, and has been used for the first time when the original or any copy of it has. -/
theorem C137_answers (m : Machine) (hm : m.unalignedLoad = true) (start : Cells) (p : List Act) (hp : sound [] p = true) :
    List.Forall₂ (fun x q => ∃ v, x = .ok v ∧ Spec.Views.Shows start (plain [] 0 p) q.1 q.2 (join64 v))
      (run m p [] 0 (fun _ => none, start)) (Spec.Views.asked (plain [] 0 p)) := by
  rw [C137_copies m start p hp]
  exact C127_answers m hm start _
    (sound_plain (vars := []) (names := []) (made := []) p ⟨rfl, fun a k h => by simp at h⟩ hp)

/-- Two values are asked for in the first program, of objects made of the same key. -/
example : Spec.Views.asked (plain [] 0 (keyCopied (1, 2) (3, 4) (5, 6) (7, 8) (9, 10) (11, 12))) = [(4, 9), (5, 13)] := rfl

/-- C137. A copy of a key, made before the key has been used, is the key: it encrypts with the halves that the original saw
at its first use, whatever has become of them, and of the original, since. -/
theorem C137_key_copied (m : Machine) (hm : m.unalignedLoad = true) (start : Cells) (h l z h' l' z' : V) :
    ∃ v v', run m (keyCopied h l z h' l' z') [] 0 (fun _ => none, start) = [.ok v, .ok v'] ∧
      join64 v = Kuz.enc (join64 h ++ join64 l) (join64 z) ∧ join64 v' = Kuz.enc (join64 h ++ join64 l) (join64 z') := by
  have key := C137_answers m hm start (keyCopied h l z h' l' z') rfl
  generalize hq : plain [] 0 (keyCopied h l z h' l' z') = q at key
  have hq' : q = [.make (.own 0), .make (.own 1), .make (.own 2), .make (.key 0 1), .make (.encrypted 2 3),
    .make (.encrypted 2 3), .change 0 h, .change 1 l, .change 2 z, .ask 4, .change 0 h', .change 1 l', .change 2 z', .ask 5] := hq.symm
  clear hq
  subst hq'
  have hu : ∀ s, s < 9 → ¬ Spec.Views.Uses [.make (.own 0), .make (.own 1), .make (.own 2), .make (.key 0 1), .make (.encrypted 2 3),
      .make (.encrypted 2 3), .change 0 h, .change 1 l, .change 2 z, .ask 4, .change 0 h', .change 1 l', .change 2 z', .ask 5] s 3 := by
    rintro s hs ⟨i, hi, -⟩
    have : s = 0 ∨ s = 1 ∨ s = 2 ∨ s = 3 ∨ s = 4 ∨ s = 5 ∨ s = 6 ∨ s = 7 ∨ s = 8 := by omega
    rcases this with rfl | rfl | rfl | rfl | rfl | rfl | rfl | rfl | rfl <;> simp at hi
  have hu' : Spec.Views.Uses [.make (.own 0), .make (.own 1), .make (.own 2), .make (.key 0 1), .make (.encrypted 2 3),
      .make (.encrypted 2 3), .change 0 h, .change 1 l, .change 2 z, .ask 4, .change 0 h', .change 1 l', .change 2 z', .ask 5] 9 3 :=
    ⟨4, .inl rfl, .through (how := .encrypted 2 3) (t := 4) rfl (by simp) (by simp [How.blocks, How.keys]) (.self 3)⟩
  have h1 : Spec.Views.Shows start [.make (.own 0), .make (.own 1), .make (.own 2), .make (.key 0 1), .make (.encrypted 2 3),
      .make (.encrypted 2 3), .change 0 h, .change 1 l, .change 2 z, .ask 4, .change 0 h', .change 1 l', .change 2 z', .ask 5] 4 9
      (Kuz.enc (join64 h ++ join64 l) (join64 z)) :=
    .encrypted (u := 9) (t₀ := 4) (t₁ := 3) (b := 2) (k := 3) (h := 0) (l := 1) rfl rfl ⟨Nat.le_refl _, hu, .inl rfl⟩
      (.own (c := 0) (t₀ := 0) rfl) (.own (c := 1) (t₀ := 1) rfl) (.own (c := 2) (t₀ := 2) rfl)
  have h2 : Spec.Views.Shows start [.make (.own 0), .make (.own 1), .make (.own 2), .make (.key 0 1), .make (.encrypted 2 3),
      .make (.encrypted 2 3), .change 0 h, .change 1 l, .change 2 z, .ask 4, .change 0 h', .change 1 l', .change 2 z', .ask 5] 5 13
      (Kuz.enc (join64 h ++ join64 l) (join64 z')) :=
    .encrypted (u := 9) (t₀ := 5) (t₁ := 3) (b := 2) (k := 3) (h := 0) (l := 1) rfl rfl ⟨by omega, hu, .inr hu'⟩
      (.own (c := 0) (t₀ := 0) rfl) (.own (c := 1) (t₀ := 1) rfl) (.own (c := 2) (t₀ := 2) rfl)
  generalize run m (keyCopied h l z h' l' z') [] 0 (fun _ => none, start) = r at key
  rcases key with _ | ⟨⟨v, rfl, s1⟩, key⟩
  rcases key with _ | ⟨⟨v', rfl, s2⟩, key⟩
  rcases key with _ | _
  exact ⟨v, v', rfl, C127_unique _ _ _ _ _ _ s1 h1, C127_unique _ _ _ _ _ _ s2 h2⟩

/-- The key and the block are zeros when the objects are made and are changed twice. -/
example : ∃ v v', run .x86 (keyCopied (1, 2) (3, 4) (5, 6) (7, 8) (9, 10) (11, 12)) [] 0 (fun _ => none, fun _ => (0, 0)) =
    [.ok v, .ok v'] ∧ join64 v' = Kuz.enc (join64 (1, 2) ++ join64 (3, 4)) (join64 (11, 12)) :=
  let ⟨v, v', e, _, f⟩ := C137_key_copied .x86 rfl (fun _ => (0, 0)) (1, 2) (3, 4) (5, 6) (7, 8) (9, 10) (11, 12)
  ⟨v, v', e, f⟩

/-- C137. A second key made of the same halves is not a copy: it sees them at its own first use. -/
theorem C137_key_remade (m : Machine) (hm : m.unalignedLoad = true) (start : Cells) (h l z h' l' z' : V) :
    ∃ v v', run m (keyRemade h l z h' l' z') [] 0 (fun _ => none, start) = [.ok v, .ok v'] ∧
      join64 v = Kuz.enc (join64 h ++ join64 l) (join64 z) ∧ join64 v' = Kuz.enc (join64 h' ++ join64 l') (join64 z') := by
  have key := C137_answers m hm start (keyRemade h l z h' l' z') rfl
  have hq : plain [] 0 (keyRemade h l z h' l' z') = [.make (.own 0), .make (.own 1), .make (.own 2), .make (.key 0 1),
    .make (.key 0 1), .make (.encrypted 2 3), .make (.encrypted 2 4), .change 0 h, .change 1 l, .change 2 z, .ask 5,
    .change 0 h', .change 1 l', .change 2 z', .ask 6] := rfl
  rw [hq] at key
  clear hq
  have four : ∀ i j, Spec.Views.RestsOn [.make (.own 0), .make (.own 1), .make (.own 2), .make (.key 0 1),
      .make (.key 0 1), .make (.encrypted 2 3), .make (.encrypted 2 4), .change 0 h, .change 1 l, .change 2 z, .ask 5,
      .change 0 h', .change 1 l', .change 2 z', .ask 6] i j → j = 4 → i = 4 ∨ i = 6 := by
    intro i j hi hj
    induction hi with
    | self => exact .inl hj
    | @through i a j how t e hc hm hr ih =>
      have ih := ih hj
      have : i = 0 ∨ i = 1 ∨ i = 2 ∨ i = 3 ∨ i = 4 ∨ i = 5 ∨ i = 6 ∨ 7 ≤ i := by omega
      rcases this with rfl | rfl | rfl | rfl | rfl | rfl | rfl | hi
      · cases e; simp [How.blocks, How.keys] at hm
      · cases e; simp [How.blocks, How.keys] at hm
      · cases e; simp [How.blocks, How.keys] at hm
      · cases e; simp [How.blocks, How.keys] at hm; omega
      · exact .inl rfl
      · cases e; simp [How.blocks, How.keys] at hm; omega
      · exact .inr rfl
      · rw [List.getElem?_eq_none (by exact hi)] at e
        cases e
  have hu3 : ∀ s, s < 10 → ¬ Spec.Views.Uses [.make (.own 0), .make (.own 1), .make (.own 2), .make (.key 0 1),
      .make (.key 0 1), .make (.encrypted 2 3), .make (.encrypted 2 4), .change 0 h, .change 1 l, .change 2 z, .ask 5,
      .change 0 h', .change 1 l', .change 2 z', .ask 6] s 3 := by
    rintro s hs ⟨i, hi, -⟩
    have : s = 0 ∨ s = 1 ∨ s = 2 ∨ s = 3 ∨ s = 4 ∨ s = 5 ∨ s = 6 ∨ s = 7 ∨ s = 8 ∨ s = 9 := by omega
    rcases this with rfl | rfl | rfl | rfl | rfl | rfl | rfl | rfl | rfl | rfl <;> simp at hi
  have hu4 : ∀ s, s < 14 → ¬ Spec.Views.Uses [.make (.own 0), .make (.own 1), .make (.own 2), .make (.key 0 1),
      .make (.key 0 1), .make (.encrypted 2 3), .make (.encrypted 2 4), .change 0 h, .change 1 l, .change 2 z, .ask 5,
      .change 0 h', .change 1 l', .change 2 z', .ask 6] s 4 := by
    rintro s hs ⟨i, hi, hr⟩
    have h46 := four i 4 hr rfl
    have : s = 0 ∨ s = 1 ∨ s = 2 ∨ s = 3 ∨ s = 4 ∨ s = 5 ∨ s = 6 ∨ s = 7 ∨ s = 8 ∨ s = 9 ∨ s = 10 ∨ s = 11 ∨ s = 12 ∨ s = 13 := by
      omega
    rcases this with rfl | rfl | rfl | rfl | rfl | rfl | rfl | rfl | rfl | rfl | rfl | rfl | rfl | rfl <;> simp at hi
    omega
  have h1 : Spec.Views.Shows start [.make (.own 0), .make (.own 1), .make (.own 2), .make (.key 0 1),
      .make (.key 0 1), .make (.encrypted 2 3), .make (.encrypted 2 4), .change 0 h, .change 1 l, .change 2 z, .ask 5,
      .change 0 h', .change 1 l', .change 2 z', .ask 6] 5 10 (Kuz.enc (join64 h ++ join64 l) (join64 z)) :=
    .encrypted (u := 10) (t₀ := 5) (t₁ := 3) (b := 2) (k := 3) (h := 0) (l := 1) rfl rfl ⟨Nat.le_refl _, hu3, .inl rfl⟩
      (.own (c := 0) (t₀ := 0) rfl) (.own (c := 1) (t₀ := 1) rfl) (.own (c := 2) (t₀ := 2) rfl)
  have h2 : Spec.Views.Shows start [.make (.own 0), .make (.own 1), .make (.own 2), .make (.key 0 1),
      .make (.key 0 1), .make (.encrypted 2 3), .make (.encrypted 2 4), .change 0 h, .change 1 l, .change 2 z, .ask 5,
      .change 0 h', .change 1 l', .change 2 z', .ask 6] 6 14 (Kuz.enc (join64 h' ++ join64 l') (join64 z')) :=
    .encrypted (u := 14) (t₀ := 6) (t₁ := 4) (b := 2) (k := 4) (h := 0) (l := 1) rfl rfl ⟨Nat.le_refl _, hu4, .inl rfl⟩
      (.own (c := 0) (t₀ := 0) rfl) (.own (c := 1) (t₀ := 1) rfl) (.own (c := 2) (t₀ := 2) rfl)
  generalize run m (keyRemade h l z h' l' z') [] 0 (fun _ => none, start) = r at key
  rcases key with _ | ⟨⟨v, rfl, s1⟩, key⟩
  rcases key with _ | ⟨⟨v', rfl, s2⟩, key⟩
  rcases key with _ | _
  exact ⟨v, v', rfl, C127_unique _ _ _ _ _ _ s1 h1, C127_unique _ _ _ _ _ _ s2 h2⟩

/-- The second key is made of halves that are zeros and are changed twice. -/
example : ∃ v v', run .x86 (keyRemade (1, 2) (3, 4) (5, 6) (7, 8) (9, 10) (11, 12)) [] 0 (fun _ => none, fun _ => (0, 0)) =
    [.ok v, .ok v'] ∧ join64 v' = Kuz.enc (join64 (7, 8) ++ join64 (9, 10)) (join64 (11, 12)) :=
  let ⟨v, v', e, _, f⟩ := C137_key_remade .x86 rfl (fun _ => (0, 0)) (1, 2) (3, 4) (5, 6) (7, 8) (9, 10) (11, 12)
  ⟨v, v', e, f⟩

/-- C137. A cached block and its copies read the block behind them once between them. -/
theorem C137_cached_copied (m : Machine) (start : Cells) (z z' : V) :
    run m (cachedCopied z z') [] 0 (fun _ => none, start) = [.ok z, .ok z, .ok z] := rfl

/-- The variable is changed between the first use and the other two. -/
example : run .x86 (cachedCopied (1, 2) (3, 4)) [] 0 (fun _ => none, fun _ => (0, 0)) = [.ok (1, 2), .ok (1, 2), .ok (1, 2)] :=
  C137_cached_copied _ _ _ _

end Goost.Props
