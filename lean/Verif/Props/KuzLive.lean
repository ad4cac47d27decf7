import Verif.Lemmas.KuzLive
import Verif.Props.KuzStream
import Verif.Props.Kuznyechik
/-
Property C107: kuznyechik streams over files, pipes and devices.
-/
namespace Goost.Props
open Goost.Kuz Spec Spec.Modes
variable {W ι V : Type}

/-- C107 for `StCTREncrypted`: over a stream that can be read once, the encrypted stream can be read once in
the same manner: it asks the stream below the same questions in the same order, and gives the ciphertext of
the standard. -/
theorem C107_ctr (m : Machine) (key : Key) (K : BitVec 256) (hk : Encrypts m key K)
    (it : KuzLive.IterImpl W ι) (size : Nat) (start : Io W (Option ι)) (i : ι) (w0 w w' : W)
    (hs : start w0 = (.ok (some i), w)) (p : List (BitVec 64 × BitVec 64)) (h : Plays it size i w p w')
    (iv : BitVec 64) :
    ∃ j cs, KuzLive.StCTREncrypted.iter start key iv w0 = (.ok (some j), w) ∧
      Plays (KuzLive.ItCTR.impl m it) size j w cs w' ∧
      cs.map join64 = ctr (k := 64) (Spec.Kuz.enc K) iv (p.map join64) := by
  obtain ⟨cs, h1, h2⟩ := KuzLive.Plays_ctr_from hk iv p h 0 (KuzLive.raw_iv m iv)
  refine ⟨_, cs, ?_, h1, by rw [ctr_eq_from]; exact h2⟩
  unfold KuzLive.StCTREncrypted.iter
  rw [KuzLive.bind_ok hs]
  rfl

/-- C107 for `Imit`: the code of a stream that can be read only once is that of the standard, and the stream
is left as one pass leaves it. -/
theorem C107_mac (m : Machine) (key : Key) (K : BitVec 256) (hk : Encrypts m key K)
    (it : KuzLive.IterImpl W ι) (size : Nat) (start : Io W (Option ι)) (i : ι) (w0 w w' : W)
    (hs : start w0 = (.ok (some i), w)) (p : List (BitVec 64 × BitVec 64)) (last : BitVec 64 × BitVec 64)
    (h : Plays it size i w (p ++ [last]) w') (fuel : Nat) (hf : p.length < fuel) :
    ∃ r, KuzLive.Imit.value m it start fuel key w0 = (.ok r, w') ∧
      join64 r = omac (Spec.Kuz.enc K)
        (if size = 16 then macK1 (Spec.Kuz.enc K) 0x87 else macK2 (Spec.Kuz.enc K) 0x87)
        (p.map join64) (join64 last) := by
  obtain ⟨r, h1, h2⟩ := C50_mac_any_stream m key K hk (KuzLive.listIter size) size (p ++ [last]) p last
    (KuzLive.listIter_shows size _ (by simp)) fuel hf
  refine ⟨r, ?_, h2⟩
  rw [KuzLive.value_plays m key p last h fuel hf start w0 hs, h1]

/-- C107: exactly these calls are made, in this order: for every block but the last `last`, `value`, `next`;
for the last `last`, `value`, `size`. No block is asked for twice, and `next` is not called at the end. -/
theorem C107_calls (m : Machine) (key : Key) (K : BitVec 256) (hk : Encrypts m key K)
    (it : IterImpl ι) (size : Nat) (i : ι) (p : List (BitVec 64 × BitVec 64)) (h : Shows it size i p)
    (fuel : Nat) (hf : p.length ≤ fuel) (l : List IterCall) (w : V) :
    ∃ r, KuzLive.Imit.value m (recordedIter it) (pure (some i)) fuel key (l, w) =
      (.ok r, (l ++ ((List.replicate (p.length - 1) [.last, .value, .next]).flatten ++
        [.last, .value, .size]), w)) := by
  have hp : p ≠ [] := by rintro rfl; exact h.elim
  obtain ⟨q, v, rfl⟩ : ∃ q v, p = q ++ [v] := ⟨p.dropLast, p.getLast hp, (List.dropLast_append_getLast hp).symm⟩
  obtain ⟨r, h1, -⟩ := C107_mac m key K hk (recordedIter it) size (pure (some i)) i (l, w) (l, w) _ rfl q v
    (KuzLive.recorded_plays _ h l w) fuel (by rw [List.length_append, List.length_singleton] at hf; omega)
  exact ⟨r, h1⟩

/-- Two blocks in memory: six calls. -/
example (m : Machine) (hm : m.unalignedLoad = true) : ∃ key r i,
    Key.ofString kuzKeyText = .ok key ∧ StMemory.iter [1, 2, 3, 4] = .ok (some i) ∧
    KuzLive.Imit.value m (recordedIter (ItMemory.impl [1, 2, 3, 4])) (pure (some i)) 2 key ([], ()) =
      (.ok r, ([.last, .value, .next, .last, .value, .size], ())) := by
  obtain ⟨key, h1, h2⟩ := C44_key_from_text m hm kuzKeyText (by decide) (by decide)
  obtain ⟨i, h3, h4⟩ := Shows_memory [1, 2, 3, 4] rfl (by simp)
  obtain ⟨r, h5⟩ := C107_calls m key _ h2 _ _ i _ h4 2 (by decide) [] ()
  exact ⟨key, r, i, h1, h3, h5⟩

/-- C107: the same calls are made through an `StCTREncrypted`. -/
theorem C107_calls_through_ctr (m : Machine) (key key' : Key) (K K' : BitVec 256) (hk : Encrypts m key K)
    (hk' : Encrypts m key' K') (it : IterImpl ι) (size : Nat) (i : ι) (p : List (BitVec 64 × BitVec 64))
    (h : Shows it size i p) (iv : BitVec 64) (fuel : Nat) (hf : p.length ≤ fuel) (l : List IterCall) (w : V) :
    ∃ r, KuzLive.Imit.value m (KuzLive.ItCTR.impl m (recordedIter it))
        (KuzLive.StCTREncrypted.iter (pure (some i)) key iv) fuel key' (l, w) =
      (.ok r, (l ++ ((List.replicate (p.length - 1) [.last, .value, .next]).flatten ++
        [.last, .value, .size]), w)) := by
  obtain ⟨j, cs, h1, h2, h3⟩ := C107_ctr m key K hk (recordedIter it) size (pure (some i)) i (l, w) (l, w) _
    rfl p (KuzLive.recorded_plays _ h l w) iv
  have hl : cs.length = p.length := by
    have := congrArg List.length h3
    simpa [ctr] using this
  have hp : cs ≠ [] := by rintro rfl; exact h2.elim
  obtain ⟨q, v, rfl⟩ : ∃ q v, cs = q ++ [v] := ⟨cs.dropLast, cs.getLast hp, (List.dropLast_append_getLast hp).symm⟩
  obtain ⟨r, h4, -⟩ := C107_mac m key' K' hk' (KuzLive.ItCTR.impl m (recordedIter it)) size _ j (l, w) (l, w) _ h1
    q v h2 fuel (by rw [List.length_append, List.length_singleton] at hl; omega)
  exact ⟨r, h4⟩

example (l : List IterCall) (w : V) := C107_calls_through_ctr .x86 twoHalves twoHalves _ _ twoHalves_encrypts twoHalves_encrypts
  _ 16 _ _ fourWords_shows 7 2 (by decide) l w

/-- C107: if any call to the stream below throws, at any block, the call to the code throws the same, the
encrypted stream throws the same at the same place, and the world is left as it was then. -/
theorem C107_failure (m : Machine) (key : Key) (K : BitVec 256) (hk : Encrypts m key K)
    (it : KuzLive.IterImpl W ι) (e : Exn) (start : Io W (Option ι)) (i : ι) (w0 w w' : W)
    (hs : start w0 = (.ok (some i), w)) (p : List (BitVec 64 × BitVec 64)) (h : PlaysThenFails it e i w p w')
    (iv : BitVec 64) (fuel : Nat) (hf : p.length < fuel) :
    KuzLive.Imit.value m it start fuel key w0 = (.throw e, w') ∧
    ∃ j cs, KuzLive.StCTREncrypted.iter start key iv w0 = (.ok (some j), w) ∧
      PlaysThenFails (KuzLive.ItCTR.impl m it) e j w cs w' ∧
      cs.map join64 = ctr (k := 64) (Spec.Kuz.enc K) iv (p.map join64) := by
  constructor
  · unfold KuzLive.Imit.value
    rw [KuzLive.bind_ok hs]
    rcases KuzLive.loop_fails key p h fuel hf BlkRaw.zero with h1 | ⟨b, j, w1, h1, h2 | ⟨v, w2, h2, h3⟩⟩
    · exact bind_run_throw h1
    · rw [KuzLive.bind_ok h1]
      exact bind_run_throw h2
    · rw [KuzLive.bind_ok h1]
      simp only [KuzLive.deref]
      rw [KuzLive.bind_ok h2]
      exact bind_run_throw h3
  · obtain ⟨cs, h1, h2⟩ := KuzLive.PlaysThenFails_ctr_from hk iv p h 0 (KuzLive.raw_iv m iv)
    refine ⟨_, cs, ?_, h1, by rw [ctr_eq_from]; exact h2⟩
    unfold KuzLive.StCTREncrypted.iter
    rw [KuzLive.bind_ok hs]
    rfl

example := C107_failure .x86 twoHalves _ twoHalves_encrypts { pipe with last := fun _ w => (.ok false, w) } (.user 1)
  (pure (some ())) () _ [(1, 2), (3, 4)] _ rfl [(1, 2), (3, 4)]
  ⟨_, _, _, (), rfl, rfl, rfl, _, _, _, (), rfl, rfl, rfl, .inr (.inl ⟨_, _, rfl, rfl⟩)⟩ 7 3 (by decide)

/-- C107: a stream whose `iter()` is a null pointer, or whose `next()` returns one before any block was the last,
makes the code undefined: the null pointer is dereferenced. -/
theorem C107_null (m : Machine) (key : Key) (it : KuzLive.IterImpl W ι) (start : Io W (Option ι)) (w0 w' : W)
    (p : List (BitVec 64 × BitVec 64)) (fuel : Nat) (hf : p.length < fuel)
    (h : start w0 = (.ok none, w') ∨ ∃ i w, start w0 = (.ok (some i), w) ∧ PlaysThenNull it i w p w') :
    KuzLive.Imit.value m it start fuel key w0 = (.ub .nullDeref, w') := by
  unfold KuzLive.Imit.value
  rcases h with h | ⟨i, w, h, h'⟩
  · rw [KuzLive.bind_ok h]
    obtain ⟨fuel, rfl⟩ : ∃ k, fuel = k + 1 := ⟨fuel - 1, by omega⟩
    rfl
  · rw [KuzLive.bind_ok h]
    exact bind_run_ub (KuzLive.loop_null key p h' fuel hf _)

/-- A stream of two blocks that forgets to say which is the last. -/
example : PlaysThenNull
    { pipe with last := fun _ w => (.ok false, w), next := fun _ w => (.ok (if w.length ≤ 1 then none else some ()), w.tail) }
    () [(1, 2), (3, 4)] [(1, 2), (3, 4)] [] :=
  ⟨_, _, _, (), rfl, rfl, rfl, _, _, rfl, rfl, rfl⟩

/-- C107: the iterator that `StCTREncrypted` makes always says that there is a next one, even if the stream has returned
a null pointer; that one is undefined to use. -/
theorem C107_ctr_null (m : Machine) (it : KuzLive.IterImpl W ι) (i : ι) (key : Key) (ctr : Blk) (w w1 : W)
    (hn : it.next i w = (.ok none, w1)) :
    ∃ k, (KuzLive.ItCTR.impl m it).next ⟨some i, key, ctr⟩ w = (.ok (some k), w1) ∧ ∀ w2,
      (KuzLive.ItCTR.impl m it).value k w2 = (.ub .nullDeref, w2) ∧
      (KuzLive.ItCTR.impl m it).last k w2 = (.ub .nullDeref, w2) ∧
      (KuzLive.ItCTR.impl m it).size k w2 = (.ub .nullDeref, w2) ∧
      (KuzLive.ItCTR.impl m it).next k w2 = (.ub .nullDeref, w2) := by
  refine ⟨⟨none, key, .incremented ctr⟩, ?_, fun w2 => ⟨rfl, rfl, rfl, rfl⟩⟩
  simp only [KuzLive.ItCTR.impl, KuzLive.deref]
  rw [KuzLive.bind_ok hn]
  rfl

example := C107_ctr_null .x86 { pipe with next := fun _ w => (.ok none, w.tail) } () twoHalves (.raw 0 7) [(1, 2)] [] rfl

/-- A pipe gives its blocks in one pass; afterwards only the last one is left. It does not meet the contract
`Shows`, since it is the world that changes. -/
theorem C107_pipe (p : List (BitVec 64 × BitVec 64)) (last : BitVec 64 × BitVec 64) :
    Plays pipe 16 () (p ++ [last]) (p ++ [last]) [last] := by
  induction p with
  | nil => exact ⟨_, _, rfl, rfl, rfl⟩
  | cons x p ih =>
    obtain ⟨y, r, hy⟩ : ∃ y r, p ++ [last] = y :: r := by
      cases p with
      | nil => exact ⟨last, [], rfl⟩
      | cons y r => exact ⟨y, r ++ [last], rfl⟩
    rw [hy] at ih
    rw [List.cons_append, hy]
    refine ⟨x :: y :: r, x :: y :: r, y :: r, (), ?_, rfl, rfl, ih⟩
    simp [pipe]

/-- The code of what comes out of a pipe, with the key of the standard's example. -/
example (m : Machine) (hm : m.unalignedLoad = true) : ∃ key r,
    Key.ofString kuzKeyText = .ok key ∧
    KuzLive.Imit.value m pipe (pure (some ())) 4 key [(1, 2), (3, 4), (5, 6)] = (.ok r, [(5, 6)]) := by
  obtain ⟨key, h1, h2⟩ := C44_key_from_text m hm kuzKeyText (by decide) (by decide)
  obtain ⟨r, h3, -⟩ := C107_mac m key _ h2 pipe 16 (pure (some ())) () _ _ _ rfl [(1, 2), (3, 4)] (5, 6)
    (C107_pipe [(1, 2), (3, 4)] (5, 6)) 4 (by decide)
  exact ⟨key, r, h1, h3⟩

/-- A pipe that is closed after two blocks: the exception gets to the caller. -/
example : PlaysThenFails
    { pipe with last := fun _ w => (.ok false, w) } (.user 1) () [(1, 2), (3, 4)] [(1, 2), (3, 4)] [] :=
  ⟨_, _, _, (), rfl, rfl, rfl, _, _, _, (), rfl, rfl, rfl, .inr (.inl ⟨_, _, rfl, rfl⟩)⟩

end Goost.Props
