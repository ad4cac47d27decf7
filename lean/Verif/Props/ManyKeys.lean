import Verif.Lemmas.ManyKeys
import Verif.Lemmas.ScarceKuz
import Verif.Props.KuzToken
import Verif.Props.Kuznyechik
/-
Property C111: several keys of the 128-bit cipher, used in turns. Property C112: a key derived from another key.
`idealAmong`, `idealDerived` and `derivedResult` are in Spec/ManyKeys.
-/
namespace Goost.Props
open Goost.KuzToken (Key Blk)
open Spec Spec.Modes
variable {W κ : Type} [DecidableEq κ]

/-- C111. Any number of keys, used in turns in any order: each behaves as if it were alone, and they share nothing
but the outside world. -/
theorem C111_in_turns (m : Machine) (hm : m.unalignedLoad = true)
    (high low : κ → Io W (BitVec 64 × BitVec 64)) (base : κ → Nat) (hb : OwnCaches base)
    (uses : List (κ × KeyUse W)) (w : W) :
    let library := runCalls (performAmong m fun k => Key.ofBlocks (.user (high k)) (.user (low k)) (base k)) uses
      (noneLoaded, w)
    let memories := runCalls (idealAmong high low) uses (fun _ => (none, none), w)
    library.1 = memories.1 ∧ library.2.2 = memories.2.2 := by
  obtain ⟨h1, h2, -⟩ := KuzToken.among (high := high) (low := low) (H := fun k => .user (high k))
    (L := fun k => .user (low k)) hm hb (fun _ => inferInstance) (fun _ => inferInstance) (fun _ _ => trivial)
    (fun _ _ => trivial) uses (noneLoaded, w) (fun _ => KuzToken.Inv_none)
  exact ⟨h1, congrArg (·.2) h2⟩

/-- C111 for keys given by texts of 64 digits: each result is that of the standard for the key that was used,
whatever was done with the others. -/
theorem C111_text_keys (m : Machine) (hm : m.unalignedLoad = true) (text : κ → List Char)
    (hs : ∀ k, IsHex (text k)) (hl : ∀ k, (text k).length = 64) (base : κ → Nat) (hb : OwnCaches base) :
    ∃ key : κ → Key W, (∀ k, Key.ofString (text k) (base k) = .ok (key k)) ∧
      ∀ (uses : List (κ × KeyUse W)) (w : W),
        let library := runCalls (performAmong m key) uses (noneLoaded, w)
        let standard := runCalls (fun u => kuzResult (BitVec.ofNat 256 (hexNat (text u.1))) u.2) uses w
        library.1 = standard.1 ∧ library.2.2 = standard.2 := by
  have hk := fun k => ScarceKuz.ofString_halves (W := W) m (hs k) (hl k) (base k)
  choose h l e1 e2 e3 e4 using hk
  refine ⟨_, e1, fun uses w => ?_⟩
  obtain ⟨j1, j2, -⟩ := KuzToken.among (high := fun k => pure (h k)) (low := fun k => pure (l k))
    (H := fun k => .str ((text k).take 32)) (L := fun k => .str (((text k).drop 32).take 32)) hm hb
    (fun k => ScarceKuz.acts_text (e2 k)) (fun k => ScarceKuz.acts_text (e3 k)) (fun _ _ => trivial)
    (fun _ _ => trivial) uses (noneLoaded, w) (fun _ => KuzToken.Inv_none)
  obtain ⟨k1, k2⟩ := ScarceKuz.among_fixed (h := h) (l := l) uses (fun _ => (none, none), w)
    (fun _ => ⟨.inl rfl, .inl rfl⟩)
  simp only [e4] at k1 k2
  exact ⟨j1.trans k1, (congrArg (·.2) j2).trans k2⟩

/-- Two tokens, used in turns: each gives its halves once, and this is enough. The halves of the second are the
numbers 3 and 4. -/
example (m : Machine) (hm : m.unalignedLoad = true) : ∃ r1 r2 r3,
    let run := runCalls (performAmong m fun b : Bool => Key.ofBlocks (.user (token (if b then 3 else 1) (5, 6)))
      (.user (token (if b then 4 else 2) (7, 8))) (if b then 10 else 0))
      [(false, .mac [(1, 2)] (3, 4) 16), (true, .ctr 9 [(1, 2)] (3, 4) []),
        (false, .encrypt (fun w => (.ok (1, 2), w ++ [5])))] (noneLoaded, [])
    run.1 = [.ok r1, .ok r2, .ok r3] ∧ run.2.2 = [1, 2, 3, 4, 5] := by
  obtain ⟨h1, h2⟩ := C111_in_turns (κ := Bool) m hm (fun b => token (if b then 3 else 1) (5, 6))
    (fun b => token (if b then 4 else 2) (7, 8)) (fun b => if b then 10 else 0) (by unfold OwnCaches; decide)
    [(false, .mac [(1, 2)] (3, 4) 16), (true, .ctr 9 [(1, 2)] (3, 4) []),
        (false, .encrypt (fun w => (.ok (1, 2), w ++ [5])))] []
  exact ⟨_, _, _, h1.trans rfl, h2.trans rfl⟩

/-- Key texts as required. -/
example : ∀ b : Bool, IsHex (if b then kuzKeyText else kuzKeyText.reverse) ∧
    (if b then kuzKeyText else kuzKeyText.reverse).length = 64 := by decide

/-! ### A key derived from another -/

/-- C112. The halves of a key are encryptions of two blocks under a master key, and both keys are used in turns in
any order. Every use gives what it should; the blocks and the halves of the master key are read as often and in the
order the two memories say. -/
theorem C112_derived_key (m : Machine) (hm : m.unalignedLoad = true)
    (high low a b : Io W (BitVec 64 × BitVec 64)) (base base' : Nat) (uses : List (TwoUses W)) (w : W) :
    let library := runCalls (performDerived m (Key.ofBlocks (.user high) (.user low) base) a b base') uses
      (noneLoaded, (noneLoaded, w))
    let memories := runCalls (idealDerived high low a b) uses (none, none, (none, none, w))
    library.1 = memories.1 ∧ library.2.2.2 = memories.2.2.2.2.2 := by
  obtain ⟨h1, h2⟩ := KuzToken.derived_history (hi := high) (lo := low) (H := .user high) (L := .user low) hm base
    base' a b uses (noneLoaded, (noneLoaded, w)) (none, none, (none, none, w))
    ⟨KuzToken.Inv_none, rfl, rfl, KuzToken.Inv_none, rfl⟩
  exact ⟨h1, congrArg (·.2.2) h2.2.2.2.2⟩

/-- C112 for a master key given by a text of 64 digits and two fixed blocks: the derived key is the one whose halves
the standard computes. -/
theorem C112_text_master (m : Machine) (hm : m.unalignedLoad = true) {text : List Char} (hs : IsHex text)
    (hl : text.length = 64) (a b : BitVec 64 × BitVec 64) (base base' : Nat) :
    ∃ master : Key W, Key.ofString text base = .ok master ∧
      ∀ (uses : List (TwoUses W)) (w : W),
        let library := runCalls (performDerived m master (pure a) (pure b) base') uses
          (noneLoaded, (noneLoaded, w))
        let standard := runCalls (derivedResult (BitVec.ofNat 256 (hexNat text)) a b) uses w
        library.1 = standard.1 ∧ library.2.2.2 = standard.2 := by
  obtain ⟨h, l, e1, e2, e3, e4⟩ := ScarceKuz.ofString_halves (W := W) m hs hl base
  have a1 := ScarceKuz.acts_text (W := W) e2
  have a2 := ScarceKuz.acts_text (W := W) e3
  refine ⟨_, e1, fun uses w => ?_⟩
  obtain ⟨h1, h2⟩ := KuzToken.derived_history (hi := pure h) (lo := pure l) (H := .str (text.take 32))
    (L := .str ((text.drop 32).take 32)) hm base base' (pure a) (pure b) uses (noneLoaded, (noneLoaded, w))
    (none, none, (none, none, w)) ⟨KuzToken.Inv_none, rfl, rfl, KuzToken.Inv_none, rfl⟩
  obtain ⟨k1, k2⟩ := ScarceKuz.derived_fixed h l a b uses w
  rw [e4] at k1 k2
  exact ⟨h1.trans k1, (congrArg (·.2.2) h2.2.2.2.2).trans k2⟩

/-- The master key is on a token; the derived key is used twice, then the master key. The two blocks are read once
each, and so are the halves of the master key, at the first use of the derived key. -/
example (m : Machine) (hm : m.unalignedLoad = true) : ∃ r1 r2 r3,
    let run := runCalls (performDerived m (Key.ofBlocks (.user (token 1 (5, 6))) (.user (token 2 (7, 8))) 0)
      (token 3 (1, 1)) (token 4 (2, 2)) 0)
      [.derived (.mac [(1, 2)] (3, 4) 16), .derived (.ctr 9 [(1, 2)] (3, 4) []),
        .master (.encrypt (fun w => (.ok (1, 2), w ++ [5])))] (noneLoaded, (noneLoaded, []))
    run.1 = [.ok r1, .ok r2, .ok r3] ∧ run.2.2.2 = [3, 1, 2, 4, 5] := by
  obtain ⟨h1, h2⟩ := C112_derived_key m hm (token 1 (5, 6)) (token 2 (7, 8)) (token 3 (1, 1)) (token 4 (2, 2)) 0 0
    [.derived (.mac [(1, 2)] (3, 4) 16), .derived (.ctr 9 [(1, 2)] (3, 4) []),
        .master (.encrypt (fun w => (.ok (1, 2), w ++ [5])))] []
  exact ⟨_, _, _, h1.trans rfl, h2.trans rfl⟩

/-- A text as required. -/
example : IsHex kuzKeyText ∧ kuzKeyText.length = 64 := by decide

end Goost.Props
