import Verif.Lemmas.ScarceKuz
import Verif.Props.KuzToken
import Verif.Props.Kuznyechik
/-
Property C110: a key of the 128-bit cipher and running out of memory. `UnlessOut` is in Spec/Scarce, `mayResult`,
`cutShort`, `kuzResult` and `attempt` are in Spec/ScarceKuz.
-/
namespace Goost.Props
open Goost.KuzToken (Key Blk view Inv Inv_none)
open Goost.Kuz (Caches)
open Spec Spec.Modes
variable {W ι : Type}

/-- C110. Any sequence of encryptions, counter-mode blocks and authentication codes, each with whatever memory
there is: each attempt does what it should, or throws `bad_alloc`. What a failed attempt has learnt about the
key is kept, and is right. -/
theorem C110_history (m : Machine) (hm : m.unalignedLoad = true) (high low : Io W (BitVec 64 × BitVec 64))
    (base : Nat) (tries : List (Nat × KeyUse W)) (w : W) :
    let library := runCalls (attempt m (Key.ofBlocks (.user high) (.user low) base)) tries (noneLoaded, w)
    ∃ h l, mayResult high low (tries.map (·.2)) (none, none, w) library.1 (h, l, library.2.2) :=
  ⟨_, _, (ScarceKuz.attempts (hi := high) (lo := low) (H := .user high) (L := .user low) (base := base) hm tries
    (noneLoaded, w) Inv_none).1⟩

/-- C110: after any such history there is an amount of memory with which the next use does what it should; with
less, it throws `bad_alloc`, and has done a beginning of what it should do. -/
theorem C110_enough (m : Machine) (hm : m.unalignedLoad = true) (high low : Io W (BitVec 64 × BitVec 64))
    (base : Nat) (tries : List (Nat × KeyUse W)) (w : W) :
    let key := Key.ofBlocks (.user high) (.user low) base
    let library := runCalls (attempt m key) tries (noneLoaded, w)
    ∃ memory : KeyMemory W, memory.2.2 = library.2.2 ∧
      mayResult high low (tries.map (·.2)) (none, none, w) library.1 memory ∧
      ∀ u : KeyUse W, ∃ N, ∀ n,
        let next := attempt m key (n, u) library.2
        (N ≤ n → next.1 = (ideal high low u memory).1 ∧ next.2.2 = (ideal high low u memory).2.2.2) ∧
        (n < N → next.1 = .throw .badAlloc ∧ ∃ h l, cutShort high low u memory (h, l, next.2.2)) := by
  obtain ⟨h1, h2⟩ := ScarceKuz.attempts (hi := high) (lo := low) (H := .user high) (L := .user low) (base := base)
    hm tries (noneLoaded, w) Inv_none
  refine ⟨_, rfl, h1, fun u => ?_⟩
  obtain ⟨N, h⟩ := ScarceKuz.attempt_result (hi := high) (lo := low) (H := .user high) (L := .user low)
    (base := base) hm u _ h2
  refine ⟨N, fun n => ?_⟩
  obtain ⟨-, k1, k2⟩ := h n
  exact ⟨fun hn => ⟨(k1 hn).1, congrArg (·.2.2) (k1 hn).2⟩, fun hn => ⟨(k2 hn).1, _, _, (k2 hn).2⟩⟩

/-- C110 for a key given by 64 hexadecimal digits, after any number of attempts, with any memory for each of
them: the result is that of the standard, or `bad_alloc`, and never anything else; with enough memory it is the
former. A failed attempt has at most read the block that it was to encrypt. -/
theorem C110_text_key (m : Machine) (hm : m.unalignedLoad = true) (s : List Char) (hs : IsHex s)
    (hl : s.length = 64) (base : Nat) (tries : List (Nat × KeyUse W)) (w : W) :
    ∃ key, Key.ofString s base = .ok key ∧
      let library := (runCalls (attempt m key) tries (noneLoaded, w)).2
      ∀ u : KeyUse W, ∃ N, ∀ n,
        let next := attempt m key (n, u) library
        let standard := kuzResult (BitVec.ofNat 256 (hexNat s)) u library.2
        (N ≤ n → next.1 = standard.1 ∧ next.2.2 = standard.2) ∧
        (n < N → next.1 = .throw .badAlloc ∧ atMostRead u library.2 next.2.2) := by
  obtain ⟨h, l, e1, e2, e3, e4⟩ := ScarceKuz.ofString_halves (W := W) m hs hl base
  have := ScarceKuz.acts_text (W := W) e2
  have := ScarceKuz.acts_text (W := W) e3
  refine ⟨_, e1, ?_⟩
  obtain ⟨h1, h2⟩ := ScarceKuz.attempts (hi := pure h) (lo := pure l) (H := .str (s.take 32))
    (L := .str ((s.drop 32).take 32)) (base := base) hm tries (noneLoaded, w) Inv_none
  have h3 := ScarceKuz.mayResult_agrees (h := h) (l := l) _ ⟨.inl rfl, .inl rfl⟩ h1
  intro library u
  obtain ⟨N, hN⟩ := ScarceKuz.attempt_result (hi := pure h) (lo := pure l) (H := .str (s.take 32))
    (L := .str ((s.drop 32).take 32)) (base := base) hm u _ h2
  refine ⟨N, fun n => ?_⟩
  obtain ⟨-, k1, k2⟩ := hN n
  obtain ⟨j1, j2, -⟩ := ScarceKuz.ideal_agrees u h3
  rw [e4] at j1 j2
  refine ⟨fun hn => ?_, fun hn => ?_⟩
  · obtain ⟨i1, i2⟩ := k1 hn
    exact ⟨i1.trans j1, (congrArg (·.2.2) i2).trans j2⟩
  · obtain ⟨i1, i2⟩ := k2 hn
    exact ⟨i1, (ScarceKuz.cutShort_agrees h3 i2).1⟩

example (m : Machine) (hm : m.unalignedLoad = true) := C110_text_key (W := List Nat) m hm kuzKeyText (by decide) (by decide) 0
  [(5, .mac [(1, 2)] (3, 4) 16), (700, .ctr 9 [] (3, 4) [])] []

/-- C110 for `Key(shared_ptr<const Data>)`: the key, or `bad_alloc`; then `high()` may have been called, and after
it `low()`. -/
theorem C110_key_data (highOf lowOf : Io W (Blk W)) (base : Nat) :
    UnlessOut (fun s s' => s'.1 = s.1 ∧ (s'.2 = s.2 ∨ ∃ h w1, highOf s.2 = (.ok h, w1) ∧
        (s'.2 = w1 ∨ ∃ l, lowOf w1 = (.ok l, s'.2))))
      (ScarceKuz.Key.ofData highOf lowOf base) (Key.ofData highOf lowOf base) := by
  unfold ScarceKuz.Key.ofData Key.ofData
  refine Scarce.UO.alloc (fun _ => ⟨rfl, .inl rfl⟩) ?_
  refine Scarce.UO.below_bind (R' := fun _ s s' => s'.1 = s.1 ∧ (s'.2 = s.2 ∨ ∃ l, lowOf s.2 = (.ok l, s'.2)))
    (fun h => ?_) ?_
  · refine Scarce.UO.alloc (fun _ => ⟨rfl, .inl rfl⟩) ?_
    refine Scarce.UO.below_bind (R' := fun _ s s' => s' = s) (fun l => ?_) ?_
    · exact Scarce.UO.alloc (R := fun s s' : Caches × W => s' = s) (fun _ => rfl) (Scarce.UO.pure _ _)
    · rintro s a s1 s2 e rfl
      rcases e1 : lowOf s.2 with ⟨r, w⟩
      simp only [KuzToken.outside, e1] at e
      cases e
      exact ⟨rfl, .inr ⟨a, rfl⟩⟩
  · intro s a s1 s2 e h
    rcases e1 : highOf s.2 with ⟨r, w⟩
    simp only [KuzToken.outside, e1] at e
    cases e
    exact ⟨h.1, .inr ⟨a, w, rfl, h.2⟩⟩

/-- C110 for any block whatever, with any key: the value of unlimited memory, or `bad_alloc`; never another
value. -/
theorem C110_block (m : Machine) (b : Blk W) :
    UnlessOut (fun _ _ => True) (ScarceKuz.Blk.value m b) (b.value m) :=
  ScarceKuz.UO.mono (ScarceKuz.Blk_value_unless m b) fun _ _ _ => trivial

/-- C110 for counter mode over any stream, with any key: `n` calls of `next()` and then `value()`. -/
theorem C110_ctr (m : Machine) (it : KuzLive.IterImpl W ι) (start : Io W (Option ι)) (key : Key W)
    (iv : BitVec 64) (n : Nat) :
    UnlessOut (fun _ _ => True)
      (ScarceKuz.StCTREncrypted.iter start key iv >>= fun i => skipScarce it n i >>= ScarceKuz.ItCTR.value m it)
      (KuzToken.StCTREncrypted.iter start key iv >>= fun i => skip it n i >>= KuzToken.ItCTR.value m it) :=
  ScarceKuz.any_bind (ScarceKuz.iter_any start key iv) fun i =>
    ScarceKuz.any_bind (ScarceKuz.skip_any it n i) fun i => ScarceKuz.ItCTR_value_any m it i

/-- C110 for the authentication code of any stream, with any key. -/
theorem C110_mac (m : Machine) (it : KuzLive.IterImpl W ι) (start : Io W (Option ι)) (fuel : Nat) (key : Key W) :
    UnlessOut (fun _ _ => True) (ScarceKuz.Imit.value m it start fuel key)
      (KuzToken.Imit.value m it start fuel key) :=
  ScarceKuz.Imit_value_any m it start fuel key

/-- A token that gives each half once. Memory runs out during the first attempts; whatever they have learnt is
kept: with enough memory the next attempt succeeds, although the token gives nothing twice. -/
example (m : Machine) (hm : m.unalignedLoad = true) (n : Nat) :
    ∃ N, (attempt m (Key.ofBlocks (.user (token 1 (5, 6))) (.user (token 2 (7, 8))))
      (N, .mac [(1, 2)] (3, 4) 16)
      (attempt m (Key.ofBlocks (.user (token 1 (5, 6))) (.user (token 2 (7, 8)))) (n, .ctr 9 [] (3, 4) [])
        (noneLoaded, [])).2).1 = .ok (pair64 (kuzMac (join64 (5, 6) ++ join64 (7, 8)) [(1, 2)] (3, 4) 16)) := by
  obtain ⟨memory, h1, h2, h3⟩ := C110_enough m hm (token 1 (5, 6)) (token 2 (7, 8)) 0 [(n, .ctr 9 [] (3, 4) [])] []
  obtain ⟨N, hN⟩ := h3 (.mac [(1, 2)] (3, 4) 16)
  have hr := (hN N).1 (Nat.le_refl _)
  refine ⟨N, hr.1.trans ?_⟩
  obtain ⟨r, z, rs', -, h4, -, h5⟩ := h2
  subst h5
  rcases h4 with e | ⟨-, rfl | ⟨h, x1, e1, rfl | ⟨l, e2⟩⟩⟩
  · cases e; rfl
  · rfl
  · cases e1; rfl
  · cases e1; cases e2; rfl

/-- With no memory at all the first attempt fails; nothing was asked. -/
example (m : Machine) (key : Key (List Nat)) (w : List Nat) (v : BitVec 64 × BitVec 64) :
    attempt m key (0, .encrypt (fun w => (.ok v, w ++ [3]))) (noneLoaded, w) =
      (.throw .badAlloc, (noneLoaded, w)) := rfl

/-- The key text of the standard's example is as required. -/
example : IsHex kuzKeyText ∧ kuzKeyText.length = 64 := by decide

end Goost.Props
