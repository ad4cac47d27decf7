import Verif.Lemmas.KuzTokenStreams
/-
Property C109, continued: counter-mode streams that are read only once, with keys that come from a token.
-/
namespace Goost.Props
open Goost.KuzToken (Key Blk view Inv Inv_none)
open Spec Spec.Modes
variable {W ι : Type}

/-- C109 for programs that hold any number of iterators of counter-mode streams, with any initialization vectors, and
use the key otherwise in between. Whatever the streams below and the halves of the key do when they are called, the
results of all calls, the exceptions, and the world are those of the ideal: `last()`, `value()`, `size()`, `next()`
and `iter()` make the same call below, once, and no other; `value()` then asks for the halves of the key that have not
been answered yet; the result is the block below encrypted as the standard says for the number of the block. -/
theorem C109_ctr_streams (m : Machine) (hm : m.unalignedLoad = true) (it : KuzLive.IterImpl W ι)
    (high low : Io W (BitVec 64 × BitVec 64)) (base : Nat) (steps : List (StreamStep W ι)) (w : W) :
    let library := runCalls (streamStep (libraryOps m it (Key.ofBlocks (.user high) (.user low) base))) steps
      ([], (noneLoaded, w))
    let memory := runCalls (streamStep (idealOps it high low)) steps ([], (none, none, w))
    library.1 = memory.1 ∧ library.2.2.2 = memory.2.2.2.2 := by
  obtain ⟨h1, h2⟩ := KuzToken.streams_history (hi := high) (lo := low) (H := .user high) (L := .user low) (base := base)
    hm it steps [] (noneLoaded, w) Inv_none
  exact ⟨h1, congrArg (·.2.2) h2⟩

/-- C109, the same for a key given by a text of at least 32 characters of any kind. -/
theorem C109_ctr_streams_text_key (m : Machine) (hm : m.unalignedLoad = true) (it : KuzLive.IterImpl W ι)
    (s : List Char) (hl : 32 ≤ s.length) (base : Nat) (steps : List (StreamStep W ι)) (w : W) :
    ∃ key, Key.ofString s base = .ok key ∧
      let half (t : List Char) : Io W (BitVec 64 × BitVec 64) := Io.lift ((Kuz.Blk.str t).value m)
      let library := runCalls (streamStep (libraryOps m it key)) steps ([], (noneLoaded, w))
      let memory := runCalls (streamStep (idealOps it (half (s.take 32)) (half ((s.drop 32).take 32)))) steps
        ([], (none, none, w))
      library.1 = memory.1 ∧ library.2.2.2 = memory.2.2.2.2 := by
  refine ⟨Key.ofBlocks (.str (s.take 32)) (.str ((s.drop 32).take 32)) base, by
    simp [KuzToken.Key.ofString, substr, hl], ?_⟩
  intro half library memory
  obtain ⟨h1, h2⟩ := KuzToken.streams_history (hi := half (s.take 32)) (lo := half ((s.drop 32).take 32))
    (H := .str (s.take 32)) (L := .str ((s.drop 32).take 32)) (base := base) hm it steps [] (noneLoaded, w) Inv_none
  exact ⟨h1, congrArg (·.2.2) h2⟩

/-- A pipe of blocks; the number in the world is how often the key was asked. -/
def pipeBesides : KuzLive.IterImpl (List (BitVec 64 × BitVec 64) × Nat) Unit where
  value _ := fun w => (match w.1 with | v :: _ => .ok v | [] => .throw (.user 1), w)
  last _ := fun w => (.ok (w.1.length ≤ 1), w)
  size _ := fun w => (.ok 16, w)
  next _ := fun w => (.ok (some ()), (w.1.tail, w.2))

/-- A half of a key that refuses when it is asked for the first time. -/
def refusesOnce : Io (List (BitVec 64 × BitVec 64) × Nat) (BitVec 64 × BitVec 64) := fun w =>
  (if w.2 = 0 then .throw (.user 7) else .ok (5, 6), (w.1, w.2 + 1))

/-- A program that reads two blocks, the first once more after an exception, asks an iterator that it has left for
`last()`, and asks for an iterator that it has not got. -/
def readsTwo : List (StreamStep (List (BitVec 64 × BitVec 64) × Nat) Unit) :=
  [.iter (pure (some ())) 9, .value 0, .value 0, .next 0, .value 1, .last 0, .size 4]

attribute [local irreducible] Spec.Kuz.enc in
/-- Such a case: what it gets, and the world afterwards. -/
example (m : Machine) (hm : m.unalignedLoad = true) :
    (runCalls (streamStep (libraryOps m pipeBesides (Key.ofBlocks (.user refusesOnce) (.user refusesOnce)))) readsTwo
      ([], (noneLoaded, ([(1, 2), (3, 4)], 0)))).1 = [.ok .iterator, .throw (.user 7),
      .ok (.block (pair64 (join64 (1, 2) ^^^ Spec.Kuz.enc (join64 (5, 6) ++ join64 (5, 6)) (counter (9 : BitVec 64) 0)))),
      .ok .iterator,
      .ok (.block (pair64 (join64 (3, 4) ^^^ Spec.Kuz.enc (join64 (5, 6) ++ join64 (5, 6)) (counter (9 : BitVec 64) 1)))),
      .ok (.flag true), .ok .nothing] ∧
    (runCalls (streamStep (libraryOps m pipeBesides (Key.ofBlocks (.user refusesOnce) (.user refusesOnce)))) readsTwo
      ([], (noneLoaded, ([(1, 2), (3, 4)], 0)))).2.2.2 = ([(3, 4)], 3) := by
  have h := C109_ctr_streams m hm pipeBesides refusesOnce refusesOnce 0 readsTwo ([(1, 2), (3, 4)], 0)
  exact ⟨h.1.trans rfl, h.2.trans rfl⟩

end Goost.Props
