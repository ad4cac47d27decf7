import Verif.Lemmas.KuzToken
import Verif.Props.KuzLive
/-
Property C109: keys of the 128-bit cipher that come from a token, a prompt or a key server.
-/
namespace Goost.Props
open Goost.KuzToken (Key Blk view Inv Inv_none)
open Goost.Kuz (Caches)
open Spec Spec.Modes
variable {W ι : Type}

/-- C109. Over every history of encryptions, counter-mode blocks and authentication codes, and whatever the two
halves of the key data do when they are evaluated (answer, answer differently, act on the world, throw), the
results and the world are those of a program that remembers: each half is asked until it answers once, the
first before the second, after the block to be encrypted has been read, and never again; the results are
those of the standard for the answers given. -/
theorem C109_history (m : Machine) (hm : m.unalignedLoad = true) (high low : Io W (BitVec 64 × BitVec 64))
    (base : Nat) (uses : List (KeyUse W)) (w : W) :
    let library := runCalls (perform m (Key.ofBlocks (.user high) (.user low) base)) uses (noneLoaded, w)
    let memory := runCalls (ideal high low) uses (none, none, w)
    library.1 = memory.1 ∧ library.2.2 = memory.2.2.2 := by
  obtain ⟨h1, h2, -⟩ := KuzToken.history (hi := high) (lo := low) (H := .user high) (L := .user low) (base := base) hm
    uses (noneLoaded, w) Inv_none
  exact ⟨h1, congrArg (·.2.2) h2⟩

/-- C109, `Key(shared_ptr<const Data>)`: `high()` and then `low()` are called, once; the blocks that they return
are not evaluated; the history of the key is as above. -/
theorem C109_key_data (m : Machine) (hm : m.unalignedLoad = true) (highOf lowOf : Io W (Blk W))
    (high low : Io W (BitVec 64 × BitVec 64)) (w0 w1 w : W) (h1 : highOf w0 = (.ok (.user high), w1))
    (h2 : lowOf w1 = (.ok (.user low), w)) (base : Nat) (uses : List (KeyUse W)) :
    ∃ key, Key.ofData highOf lowOf base (noneLoaded, w0) = (.ok key, (noneLoaded, w)) ∧
      (runCalls (perform m key) uses (noneLoaded, w)).1 = (runCalls (ideal high low) uses (none, none, w)).1 ∧
      (runCalls (perform m key) uses (noneLoaded, w)).2.2 =
        (runCalls (ideal high low) uses (none, none, w)).2.2.2 := by
  refine ⟨_, ?_, C109_history m hm high low base uses w⟩
  unfold Key.ofData
  rw [KuzToken.bind_ok (KuzToken.outside_ok h1), KuzToken.bind_ok (KuzToken.outside_ok h2)]
  rfl

/-- C109: an exception of `high()` or of `low()` gets to the caller of the constructor; after one of `high()`,
`low()` is not called. -/
theorem C109_key_data_fails (highOf lowOf : Io W (Blk W)) (e : Exn) (w0 w : W)
    (h : highOf w0 = (.throw e, w) ∨ ∃ b w1, highOf w0 = (.ok b, w1) ∧ lowOf w1 = (.throw e, w))
    (base : Nat) (c : Caches) : Key.ofData highOf lowOf base (c, w0) = (.throw e, (c, w)) := by
  unfold Key.ofData
  rcases h with h | ⟨b, w1, h1, h2⟩
  · exact bind_run_throw (by simp only [KuzToken.outside, h])
  · rw [KuzToken.bind_ok (KuzToken.outside_ok h1)]
    exact bind_run_throw (by simp only [KuzToken.outside, h2])

/-- C109 for a key given by a text of at least 32 characters of any kind. The digits are read when the key is
used for the first time; if they cannot be read, every use that needs them throws what reading them throws. -/
theorem C109_text_key (m : Machine) (hm : m.unalignedLoad = true) (s : List Char) (hl : 32 ≤ s.length)
    (base : Nat) (uses : List (KeyUse W)) (w : W) :
    ∃ key, Key.ofString s base = .ok key ∧
      let half (t : List Char) : Io W (BitVec 64 × BitVec 64) := Io.lift ((Kuz.Blk.str t).value m)
      let library := runCalls (perform m key) uses (noneLoaded, w)
      let memory := runCalls (ideal (half (s.take 32)) (half ((s.drop 32).take 32))) uses (none, none, w)
      library.1 = memory.1 ∧ library.2.2 = memory.2.2.2 := by
  refine ⟨Key.ofBlocks (.str (s.take 32)) (.str ((s.drop 32).take 32)) base, by
    simp [KuzToken.Key.ofString, substr, hl], ?_⟩
  intro half library memory
  obtain ⟨h1, h2, -⟩ := KuzToken.history (hi := half (s.take 32)) (lo := half ((s.drop 32).take 32))
    (H := .str (s.take 32)) (L := .str ((s.drop 32).take 32)) (base := base) hm uses (noneLoaded, w) Inv_none
  exact ⟨h1, congrArg (·.2.2) h2⟩

/-- Such a text. -/
example : 32 ≤ "00112233445566778899aabbccddeeffthis is not a number".toList.length := by decide

/-- C109 for `Imit` over a message that can be read only once, after any history: the message is read to its end,
then the key is asked for, as far as it is not known, and the code is that of the standard. -/
theorem C109_mac_order (m : Machine) (hm : m.unalignedLoad = true) (high low : Io W (BitVec 64 × BitVec 64))
    (base : Nat) (uses : List (KeyUse W)) (w : W) (it : KuzLive.IterImpl W ι) (size : Nat)
    (start : Io W (Option ι)) (i : ι) (blocks : List (BitVec 64 × BitVec 64)) (last : BitVec 64 × BitVec 64)
    (fuel : Nat) (hf : blocks.length < fuel) (c : Caches) (w1 w2 w3 : W)
    (knownHigh knownLow : Option (BitVec 64 × BitVec 64))
    (hc : (runCalls (perform m (Key.ofBlocks (.user high) (.user low) base)) uses (noneLoaded, w)).2 = (c, w1))
    (hk : (runCalls (ideal high low) uses (none, none, w)).2 = (knownHigh, knownLow, w1))
    (hs : start w1 = (.ok (some i), w2)) (h : Plays it size i w2 (blocks ++ [last]) w3) :
    let library := KuzToken.Imit.value m it start fuel (Key.ofBlocks (.user high) (.user low) base) (c, w1)
    let memory := ideal high low (.mac blocks last size) (knownHigh, knownLow, w3)
    library.1 = memory.1 ∧ library.2.2 = memory.2.2.2 := by
  obtain ⟨-, h2, h3⟩ := KuzToken.history (hi := high) (lo := low) (H := .user high) (L := .user low) (base := base) hm
    uses (noneLoaded, w) Inv_none
  rw [hc] at h2 h3
  have h2' := h2.trans hk
  obtain ⟨k1, k2, -⟩ := KuzToken.mac_plays (hi := high) (lo := low) (H := .user high) (L := .user low) hm
    blocks last h fuel hf c start w1 hs h3
  have e : view base (c, w3) = (knownHigh, knownLow, w3) := by
    have e1 : c (base + 1) = knownHigh := congrArg (·.1) h2'
    have e2 : c (base + 2) = knownLow := congrArg (·.2.1) h2'
    simp only [view, e1, e2]
  rw [e] at k1 k2
  exact ⟨k1, congrArg (·.2.2) k2⟩

/-- C109: once any use has succeeded, the key is that of two fixed halves: what the key data would answer later,
or that it would refuse, does not matter, and it is not evaluated again. -/
theorem C109_after_success (m : Machine) (hm : m.unalignedLoad = true)
    (high low : Io W (BitVec 64 × BitVec 64)) (base : Nat) (before : List (KeyUse W)) (first : KeyUse W) (w : W)
    (r : BitVec 64 × BitVec 64) (c c' : Caches) (w1 w2 : W)
    (hb : (runCalls (perform m (Key.ofBlocks (.user high) (.user low) base)) before (noneLoaded, w)).2 = (c, w1))
    (h : perform m (Key.ofBlocks (.user high) (.user low) base) first (c, w1) = (.ok r, (c', w2))) :
    ∃ h l, ∀ uses : List (KeyUse W),
      let library := runCalls (perform m (Key.ofBlocks (.user high) (.user low) base)) uses (c', w2)
      let memory := runCalls (ideal (pure h) (pure l)) uses (none, none, w2)
      library.1 = memory.1 ∧ library.2.2 = memory.2.2.2 := by
  obtain ⟨-, -, h3⟩ := KuzToken.history (hi := high) (lo := low) (H := .user high) (L := .user low) (base := base) hm
    before (noneLoaded, w) Inv_none
  rw [hb] at h3
  obtain ⟨k1, k2, k3⟩ := KuzToken.Meets.use (hi := high) (lo := low) (H := .user high) (L := .user low) hm
    first (c, w1) h3
  rw [h] at k1 k2 k3
  have e0 : ideal high low first (view base (c, w1)) = (.ok r, view base (c', w2)) := Prod.ext k1.symm k2.symm
  obtain ⟨a, b, e⟩ := KuzToken.ideal_loads e0
  refine ⟨a, b, fun uses => ?_⟩
  obtain ⟨j1, j2, -⟩ := KuzToken.history (hi := high) (lo := low) (H := .user high) (L := .user low) (base := base) hm
    uses (c', w2) k3
  have e' : view base (c', w2) = (some a, some b, w2) := Prod.ext e.1 (Prod.ext e.2 rfl)
  rw [e'] at j1 j2
  obtain ⟨i1, i2⟩ := KuzToken.runCalls_fixed (hi := high) (lo := low) uses (some a, some b, w2) (none, none, w2)
    ⟨rfl, rfl, .inl rfl, .inl rfl, rfl⟩
  exact ⟨j1.trans i1, (congrArg (·.2.2) j2).trans i2⟩

/-- C109: if the first half throws when it is asked, the encryption throws the same, and everything is as before,
except for what the block and the half have done: the key will be asked for again. -/
theorem C109_high_refuses (m : Machine) (hm : m.unalignedLoad = true) (high low : Io W (BitVec 64 × BitVec 64))
    (base : Nat) (block : Io W (BitVec 64 × BitVec 64)) (v : BitVec 64 × BitVec 64) (e : Exn) (w w1 w2 : W)
    (h1 : block w = (.ok v, w1)) (h2 : high w1 = (.throw e, w2)) (uses : List (KeyUse W)) :
    let library := runCalls (perform m (Key.ofBlocks (.user high) (.user low) base)) (.encrypt block :: uses)
      (noneLoaded, w)
    let memory := runCalls (ideal high low) uses (none, none, w2)
    library.1 = .throw e :: memory.1 ∧ library.2.2 = memory.2.2.2 := by
  obtain ⟨k1, k2⟩ := C109_history m hm high low base (.encrypt block :: uses) w
  have e1 : ideal high low (.encrypt block) (none, none, w) = (.throw e, (none, none, w2)) := by
    have a : besides block (none, none, w) = (.ok v, (none, none, w1)) := by simp only [besides, h1]
    have b : askHigh high (none, none, w1) = (.throw e, (none, none, w2)) := by simp only [askHigh, memo, h2]
    simp only [ideal]
    rw [KuzToken.bind_ok a]
    unfold askKey
    rw [bind_assoc]
    exact bind_run_throw b
  have r : runCalls (ideal high low) (.encrypt block :: uses) (none, none, w) =
      (.throw e :: (runCalls (ideal high low) uses (none, none, w2)).1,
        (runCalls (ideal high low) uses (none, none, w2)).2) := by
    simp only [runCalls, e1]
  rw [r] at k1 k2
  exact ⟨k1, k2⟩

/-- C109: if the first half answers and the second throws, the encryption throws the same; the second half will
be asked again, the first will not. -/
theorem C109_low_refuses (m : Machine) (hm : m.unalignedLoad = true) (high low : Io W (BitVec 64 × BitVec 64))
    (base : Nat) (block : Io W (BitVec 64 × BitVec 64)) (v h : BitVec 64 × BitVec 64) (e : Exn) (w w1 w2 w3 : W)
    (h1 : block w = (.ok v, w1)) (h2 : high w1 = (.ok h, w2)) (h3 : low w2 = (.throw e, w3))
    (uses : List (KeyUse W)) :
    let library := runCalls (perform m (Key.ofBlocks (.user high) (.user low) base)) (.encrypt block :: uses)
      (noneLoaded, w)
    let memory := runCalls (ideal high low) uses (some h, none, w3)
    library.1 = .throw e :: memory.1 ∧ library.2.2 = memory.2.2.2 := by
  obtain ⟨k1, k2⟩ := C109_history m hm high low base (.encrypt block :: uses) w
  have e1 : ideal high low (.encrypt block) (none, none, w) = (.throw e, (some h, none, w3)) := by
    have a : besides block (none, none, w) = (.ok v, (none, none, w1)) := by simp only [besides, h1]
    have b : askHigh high (none, none, w1) = (.ok h, (some h, none, w2)) := by simp only [askHigh, memo, h2]
    have c : askLow low (some h, none, w2) = (.throw e, (some h, none, w3)) := by simp only [askLow, memo, h3]
    simp only [ideal]
    rw [KuzToken.bind_ok a]
    unfold askKey
    rw [bind_assoc, KuzToken.bind_ok b, bind_assoc]
    exact bind_run_throw c
  have r : runCalls (ideal high low) (.encrypt block :: uses) (none, none, w) =
      (.throw e :: (runCalls (ideal high low) uses (some h, none, w3)).1,
        (runCalls (ideal high low) uses (some h, none, w3)).2) := by
    simp only [runCalls, e1]
  rw [r] at k1 k2
  exact ⟨k1, k2⟩

/-- C109: a stream whose `iter()` is a null pointer makes the code undefined; the key is not asked for. -/
theorem C109_null (m : Machine) (key : Key W) (it : KuzLive.IterImpl W ι) (start : Io W (Option ι)) (w0 w : W)
    (h : start w0 = (.ok none, w)) (fuel : Nat) (hf : 0 < fuel) (c : Caches) :
    KuzToken.Imit.value m it start fuel key (c, w0) = (.ub .nullDeref, (c, w)) := by
  unfold KuzToken.Imit.value
  rw [KuzToken.bind_ok (KuzToken.outside_ok h)]
  obtain ⟨fuel, rfl⟩ : ∃ k, fuel = k + 1 := ⟨fuel - 1, by omega⟩
  rfl

example (m : Machine) (key : Key (List (BitVec 64 × BitVec 64))) (c : Caches) :=
  C109_null m key pipe (pure none) [] _ rfl 3 (by decide) c

/-- C109: blocks and key data that do not act on the world are those of the other theorems about this cipher: the
encryption has the same result and the same effect on the caches, and the world does not change. -/
theorem C109_without_effects (m : Machine) (b high low : Kuz.Blk) (base : Nat) (c : Caches) (w : W) :
    (still W b).value m (c, w) = ((b.valueS m c).1, ((b.valueS m c).2, w)) ∧
    (KuzToken.BlkEncrypted (still W b) (Key.ofBlocks (still W high) (still W low) base)).value m (c, w) =
      (((Kuz.BlkEncrypted b (Kuz.Key.ofBlocks high low base)).valueS m c).1,
        (((Kuz.BlkEncrypted b (Kuz.Key.ofBlocks high low base)).valueS m c).2, w)) := by
  refine ⟨KuzToken.still_value b c w, ?_⟩
  rw [← KuzToken.still_ofBlocks, ← KuzToken.still_encrypt]
  exact KuzToken.still_value _ c w

/-- A token that gives each half once, and refuses from then on. The world is the list of what has been asked. -/
def token (name : Nat) (half : BitVec 64 × BitVec 64) : Io (List Nat) (BitVec 64 × BitVec 64) := fun w =>
  (if name ∈ w then .throw (.user 7) else .ok half, w ++ [name])

/-- Three uses of a key on this token: all three succeed, and each half was asked once. -/
example (m : Machine) (hm : m.unalignedLoad = true) : ∃ r1 r2 r3,
    (runCalls (perform m (Key.ofBlocks (.user (token 1 (5, 6))) (.user (token 2 (7, 8)))))
      [.mac [(1, 2)] (3, 4) 16, .ctr 9 [(1, 2)] (3, 4) [], .encrypt (fun w => (.ok (1, 2), w ++ [3]))]
      (noneLoaded, [])).1 = [.ok r1, .ok r2, .ok r3] ∧
    (runCalls (perform m (Key.ofBlocks (.user (token 1 (5, 6))) (.user (token 2 (7, 8)))))
      [.mac [(1, 2)] (3, 4) 16, .ctr 9 [(1, 2)] (3, 4) [], .encrypt (fun w => (.ok (1, 2), w ++ [3]))]
      (noneLoaded, [])).2.2 = [1, 2, 3] := by
  obtain ⟨h1, h2⟩ := C109_history m hm (token 1 (5, 6)) (token 2 (7, 8)) 0
    [.mac [(1, 2)] (3, 4) 16, .ctr 9 [(1, 2)] (3, 4) [], .encrypt (fun w => (.ok (1, 2), w ++ [3]))] []
  exact ⟨_, _, _, h1.trans rfl, h2.trans rfl⟩

/-- The hypotheses of the other theorems are met by the same token. -/
example : token 1 (5, 6) [] = (.ok (5, 6), [1]) ∧ token 1 (5, 6) [1] = (.throw (.user 7), [1, 1]) ∧
    token 2 (7, 8) [1] = (.ok (7, 8), [1, 2]) := by decide

example (m : Machine) (hm : m.unalignedLoad = true) (uses : List (KeyUse (List Nat))) := C109_key_data m hm
  (pure (.user (token 1 (5, 6)))) (pure (.user (token 2 (7, 8)))) (token 1 (5, 6)) (token 2 (7, 8)) [] [] [] rfl rfl 0 uses

example (c : Caches) := C109_key_data_fails (W := List Nat) (pure (.user (token 1 (5, 6)))) (fun w => (.throw (.user 7), w))
  (.user 7) [] [] (.inr ⟨_, _, rfl, rfl⟩) 0 c

example (m : Machine) (hm : m.unalignedLoad = true) (uses : List (KeyUse (List Nat))) := C109_high_refuses m hm
  (token 1 (5, 6)) (token 2 (7, 8)) 0 (fun w => (.ok (1, 2), w)) (1, 2) (.user 7) [1] [1] [1, 1] rfl (by decide) uses

example (m : Machine) (hm : m.unalignedLoad = true) (uses : List (KeyUse (List Nat))) := C109_low_refuses m hm
  (token 1 (5, 6)) (token 2 (7, 8)) 0 (fun w => (.ok (1, 2), w)) (1, 2) (5, 6) (.user 7) [2] [2] [2, 1] [2, 1, 2] rfl
  (by decide) (by decide) uses

/-- A pipe of three blocks and a key that has not been used. -/
example (m : Machine) (hm : m.unalignedLoad = true) := C109_mac_order m hm (pure (5, 6)) (pure (7, 8)) 0 []
  [(1, 2), (3, 4), (5, 6)] pipe 16 (pure (some ())) () [(1, 2), (3, 4)] (5, 6) 4 (by decide) noneLoaded _ _ [(5, 6)] none none
  rfl rfl rfl (C107_pipe [(1, 2), (3, 4)] (5, 6))

/-- Two tokens that give their halves once each: the first use succeeds, so the later ones do not need them. -/
example (m : Machine) (hm : m.unalignedLoad = true) : ∃ r c w,
    perform m (Key.ofBlocks (.user (token 1 (5, 6))) (.user (token 2 (7, 8))) 0) (.encrypt (pure (1, 2))) (noneLoaded, []) = (.ok r, (c, w)) := by
  have h := (C109_history m hm (token 1 (5, 6)) (token 2 (7, 8)) 0 [.encrypt (pure (1, 2))] []).1
  rcases e : perform m (Key.ofBlocks (.user (token 1 (5, 6))) (.user (token 2 (7, 8))) 0) (.encrypt (pure (1, 2))) (noneLoaded, []) with ⟨r, c, w⟩
  simp only [runCalls, e] at h
  cases (List.cons.inj h).1
  exact ⟨_, c, w, rfl⟩

end Goost.Props
