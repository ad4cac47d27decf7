import Verif.Spec.Pieces
import Verif.Spec.Failures
import Verif.Lemmas.Reads
import Verif.Props.KuzStream
import Verif.Props.Kuznyechik
import Verif.Props.Mac
/-
Properties C86, C87: failures of Kuznyechik streams and keys; the MAC over sources that return pieces of
any size.
-/
namespace Goost.Props
open Spec Spec.Modes
variable {W σ ι : Type}

/-! ### C86 -/

section
open Kuz

/-- C86 for the authentication code: wherever in the data the stream throws, `value()` throws the same
exception, whatever the key; there is never a code for the first part of the data. -/
theorem C86_mac_failure (m : Machine) (it : IterImpl ι) (e : Exn) (i : ι) (p : List (W64 × W64))
    (h : FailsAfter it e i p) (key : Key) (fuel : Nat) (hf : p.length < fuel) :
    Imit.value m it (.ok (some i)) fuel key = .throw e := by
  have loop : ∀ (p : List (W64 × W64)) (fuel : Nat), p.length < fuel → ∀ (i : ι) (block : Blk),
      FailsAfter it e i p →
      Imit.loop it key fuel (some i) block = .throw e ∨
      ∃ b j, Imit.loop it key fuel (some i) block = .ok (b, some j) ∧
        (it.value j = .throw e ∨ ∃ v, it.value j = .ok v ∧ it.size j = .throw e) := by
    intro p
    induction p with
    | nil =>
      intro fuel hf i block h
      obtain ⟨fuel, rfl⟩ : ∃ k, fuel = k + 1 := ⟨fuel - 1, by simp at hf; omega⟩
      rcases h with h | ⟨l, h1, h2⟩ | ⟨v, h1, h2, h3⟩ | ⟨v, h1, h2, h3⟩
      · left; simp [Imit.loop, deref, h]
      · cases l with
        | false => left; simp [Imit.loop, deref, h1, h2]
        | true => right; exact ⟨block, i, by simp [Imit.loop, deref, h1], Or.inl h2⟩
      · left; simp [Imit.loop, deref, h1, h2, h3]
      · right; exact ⟨block, i, by simp [Imit.loop, deref, h1], Or.inr ⟨v, h2, h3⟩⟩
    | cons x p ih =>
      intro fuel hf i block h
      obtain ⟨fuel, rfl⟩ : ∃ k, fuel = k + 1 := ⟨fuel - 1, by simp at hf; omega⟩
      obtain ⟨h1, h2, -, j, h4, h5⟩ := h
      have e : Imit.loop it key (fuel + 1) (some i) block =
          Imit.loop it key fuel (some j) (BlkEncrypted (.xored block (BlkRaw.ofPair x)) key) := by
        simp only [Imit.loop, deref, h2, h1, h4, Exec.ok_bind, Bool.not_false, if_true]
      rw [e]
      exact ih fuel (by simp at hf; omega) j _ h5
  unfold Imit.value Imit.build
  rw [Exec.ok_bind]
  rcases loop p fuel hf i BlkRaw.zero h with h | ⟨b, j, h1, h2 | ⟨v, h2, h3⟩⟩
  · rw [h]; rfl
  · rw [h1]; simp only [Exec.ok_bind, deref, h2, Exec.throw_bind]
  · rw [h1]; simp only [Exec.ok_bind, deref, h2, h3, Exec.throw_bind]

/-- C86 for CTR: the blocks before the failure are encrypted as usual, and the encrypted stream fails
after them with the same exception. -/
theorem C86_ctr_failure (m : Machine) (key : Key) (K : BitVec 256) (hk : Encrypts m key K)
    (it : IterImpl ι) (e : Exn) (i : ι) (p : List (W64 × W64)) (h : FailsAfter it e i p) (iv : BitVec 64) :
    ∃ j c, StCTREncrypted.iter (.ok (some i)) key iv = .ok (some j) ∧
      FailsAfter (ItCTR.impl m it) e j c ∧
      c.map join64 = ctr (k := 64) (Spec.Kuz.enc K) iv (p.map join64) := by
  have go : ∀ (p : List (W64 × W64)) (i : ι) (n : Nat) (b : Blk), FailsAfter it e i p →
      HasValue m b (counter iv n) →
      ∃ cs, FailsAfter (ItCTR.impl m it) e ⟨some i, key, b⟩ cs ∧
        cs.map join64 = ctrFrom (Spec.Kuz.enc K) iv n (p.map join64) := by
    intro p
    induction p with
    | nil =>
      intro i n b h hb
      refine ⟨[], ?_, rfl⟩
      rcases h with h | ⟨l, h1, h2⟩ | ⟨v, h1, h2, h3⟩ | ⟨v, h1, h2, h3⟩
      · exact Or.inl h
      · exact Or.inr (Or.inl ⟨l, h1, by simp [ItCTR.impl, deref, h2]⟩)
      · obtain ⟨x, hx, -⟩ := ctr_value hk h2 hb
        exact Or.inr (Or.inr (Or.inl ⟨x, h1, hx, by simp [ItCTR.impl, deref, h3]⟩))
      · obtain ⟨x, hx, -⟩ := ctr_value hk h2 hb
        exact Or.inr (Or.inr (Or.inr ⟨x, h1, hx, h3⟩))
    | cons v r ih =>
      intro i n b h hb
      obtain ⟨h1, h2, h3, i', h4, h5⟩ := h
      obtain ⟨x, hx, hj⟩ := ctr_value hk h1 hb
      obtain ⟨cs, hcs, hm⟩ := ih i' (n + 1) (.incremented b) h5
        (by rw [counter_succ]; exact hb.incremented)
      refine ⟨x :: cs, ⟨hx, h2, h3, ⟨some i', key, .incremented b⟩, ?_, hcs⟩, ?_⟩
      · simp only [ItCTR.impl, deref, h4, Exec.ok_bind]; rfl
      · rw [List.map_cons, hm, hj]; rfl
  obtain ⟨cs, h1, h2⟩ := go p i 0 (.raw 0 iv) h (by
    have : counter iv 0 = iv ++ (0 : BitVec 64) := by simp [counter]
    rw [this]; exact HasValue.raw m 0 iv)
  exact ⟨_, cs, rfl, h1, by rw [ctr_eq_from]; exact h2⟩

/-- C86: if `iter()` of the stream throws, so do `iter()` of the encrypted stream and the code. -/
theorem C86_iter_failure (m : Machine) (key : Key) (it : IterImpl ι) (e : Exn) (iv : BitVec 64)
    (fuel : Nat) :
    StCTREncrypted.iter (ι := ι) (.throw e) key iv = .throw e ∧
    Imit.value m it (.throw e) fuel key = .throw e := ⟨rfl, rfl⟩

theorem high_bad {m : Machine} {a b : Blk} {e : Exn} (h : a.value m = .throw e) :
    (Blk.xoredIfHighBit a b).value m = .throw e := by
  rw [Blk.value, h]; rfl

/-- C86 for keys: if every use of the key throws, then `value()` of the encrypted stream throws at every
block and the code throws too; the iterators themselves work. -/
theorem C86_key_failure (m : Machine) (key : Key) (e : Exn)
    (hk : ∀ b v, b.value m = .ok v → (BlkEncrypted b key).value m = .throw e)
    (it : IterImpl ι) (size : Nat) (i : ι) (p : List (W64 × W64)) (h : Shows it size i p) (iv : BitVec 64)
    (n : Nat) (hn : n < p.length) (fuel : Nat) (hf : p.length ≤ fuel) :
    blockAt (ItCTR.impl m it) (StCTREncrypted.iter (.ok (some i)) key iv) n = .throw e ∧
    Imit.value m it (.ok (some i)) fuel key = .throw e := by
  constructor
  · have go : ∀ (p : List (W64 × W64)) (i : ι) (n : Nat) (b : Blk), n < p.length → Shows it size i p →
        (∃ v, b.value m = .ok v) →
        (advance (ItCTR.impl m it) n ⟨some i, key, b⟩ >>= fun j => deref j (ItCTR.impl m it).value) =
          .throw e := by
      intro p
      induction p with
      | nil => intro i n b hn; simp at hn
      | cons v r ih =>
        intro i n b hn h hb
        obtain ⟨w, hb⟩ := hb
        cases n with
        | zero =>
          have hv : it.value i = .ok v := by
            cases r with
            | nil => exact h.1
            | cons _ _ => exact h.1
          show (ItCTR.impl m it).value ⟨some i, key, b⟩ = _
          simp only [ItCTR.impl, deref, hv, Exec.ok_bind]
          rw [hk b w hb]; rfl
        | succ n =>
          cases r with
          | nil => simp at hn
          | cons u r =>
            obtain ⟨-, -, -, i', h4, h5⟩ := h
            have e1 : (ItCTR.impl m it).next ⟨some i, key, b⟩ = .ok (some ⟨some i', key, .incremented b⟩) := by
              simp only [ItCTR.impl, deref, h4, Exec.ok_bind]; rfl
            rw [advance, e1, Exec.ok_bind]
            exact ih i' n _ (by simp at hn ⊢; omega) h5 ⟨incValue w, by simp [Blk.value, hb]⟩
    exact go p i n (.raw 0 iv) hn h ⟨_, rfl⟩
  · have bad : ∀ b : Blk, b.value m = .throw e → (BlkEncrypted b key).value m = .throw e := fun b hb =>
      encrypt_bad (step_bad (xored_bad_left hb (by simp)) (by simp)) (by simp)
    have loop : ∀ (p : List (W64 × W64)) (fuel : Nat), p.length ≤ fuel → ∀ (i : ι) (block : Blk),
        Shows it size i p → (block.value m = .throw e ∨ ∃ v, block.value m = .ok v) →
        ∃ b j v, Imit.loop it key fuel (some i) block = .ok (b, some j) ∧
          (b.value m = .throw e ∨ ∃ v, b.value m = .ok v) ∧ it.value j = .ok v ∧ it.size j = .ok size := by
      intro p
      induction p with
      | nil => intro _ _ i _ h; exact h.elim
      | cons x p ih =>
        intro fuel hf i block h hb
        obtain ⟨fuel, rfl⟩ : ∃ k, fuel = k + 1 := ⟨fuel - 1, by simp at hf; omega⟩
        cases p with
        | nil =>
          obtain ⟨h1, h2, h3⟩ := h
          exact ⟨block, i, x, by simp [Imit.loop, deref, h2], hb, h1, h3⟩
        | cons y p =>
          obtain ⟨h1, h2, h3, j, h4, h5⟩ := h
          have e1 : Imit.loop it key (fuel + 1) (some i) block =
              Imit.loop it key fuel (some j) (BlkEncrypted (.xored block (BlkRaw.ofPair x)) key) := by
            simp only [Imit.loop, deref, h2, h1, h4, Exec.ok_bind, Bool.not_false, if_true]
          rw [e1]
          refine ih fuel (by simp at hf ⊢; omega) j _ h5 (Or.inl ?_)
          rcases hb with hb | ⟨v, hb⟩
          · exact bad _ (xored_bad_left hb (by simp))
          · exact hk _ _ (show (Blk.xored block (BlkRaw.ofPair x)).value m = .ok (v.1 ^^^ x.1, v.2 ^^^ x.2) by
              simp [Blk.value, hb, BlkRaw.ofPair])
    obtain ⟨b, j, v, e1, e2, e3, e4⟩ := loop p fuel hf i BlkRaw.zero h (Or.inr ⟨_, rfl⟩)
    have k1 : (Blk.xoredIfHighBit (BlkEncrypted BlkRaw.zero key) (BlkRaw.ofU64 0x87)).value m = .throw e := by
      exact high_bad (hk BlkRaw.zero _ rfl)
    have k2 : (Blk.xoredIfHighBit (Blk.xoredIfHighBit (BlkEncrypted BlkRaw.zero key) (BlkRaw.ofU64 0x87))
        (BlkRaw.ofU64 0x87)).value m = .throw e := by
      exact high_bad k1
    have x : ∀ k : Blk, k.value m = .throw e →
        (Blk.xored (.xored b (BlkRaw.ofPair v)) k).value m = .throw e := by
      intro k hk
      rcases e2 with e2 | ⟨u, e2⟩
      · exact xored_bad_left (xored_bad_left e2 (by simp)) (by simp)
      · exact xored_bad (v := (u.1 ^^^ v.1, u.2 ^^^ v.2)) (by simp [Blk.value, e2, BlkRaw.ofPair]) hk (by simp)
    unfold Imit.value Imit.build
    rw [Exec.ok_bind, e1]
    simp only [Exec.ok_bind, deref, e3, e4]
    by_cases hs : size = 16
    · rw [if_pos hs, Exec.pure_eq, Exec.ok_bind, bad _ (x _ k1)]
    · rw [if_neg hs, Exec.pure_eq, Exec.ok_bind, bad _ (x _ k2)]

/-- A stream of three blocks that fails at the third. -/
def failingStream : IterImpl Nat where
  value i := if i = 2 then .throw (.user 7) else .ok (i, 5)
  last i := .ok (i == 2)
  size _ := .ok 16
  next i := .ok (if i = 2 then none else some (i + 1))

example : FailsAfter failingStream (.user 7) 0 [(0, 5), (1, 5)] :=
  ⟨rfl, rfl, rfl, 1, rfl, rfl, rfl, rfl, 2, rfl, Or.inr (Or.inl ⟨true, rfl, rfl⟩)⟩

example (m : Machine) (key : Key) := C86_mac_failure m failingStream (.user 7) 0 [(0, 5), (1, 5)]
  ⟨rfl, rfl, rfl, 1, rfl, rfl, rfl, rfl, 2, rfl, Or.inr (Or.inl ⟨true, rfl, rfl⟩)⟩ key 3 (by decide)

example (iv : BitVec 64) := C86_ctr_failure .x86 twoHalves _ twoHalves_encrypts failingStream (.user 7) 0 [(0, 5), (1, 5)]
  ⟨rfl, rfl, rfl, 1, rfl, rfl, rfl, rfl, 2, rfl, Or.inr (Or.inl ⟨true, rfl, rfl⟩)⟩ iv

/-- A key made of an unreadable text. -/
example (m : Machine) (low b : Blk) (v : W64 × W64) (hb : b.value m = .ok v) :
    (BlkEncrypted b (Key.ofBlocks (.str (List.replicate 32 'x')) low)).value m = .throw .invalidArgument :=
  C37_exceptions_pass m b _ _ _ (Or.inr ⟨⟨v, hb⟩, rfl⟩)

end

/-! ### C87 -/

section
open Magma

theorem Imit_value_run {m : Machine} {rd : σ → Nat → Io W (List Byte × σ)} {s s' : σ} {w w' w'' : W}
    {key : Option Key} {fuel : Nat} {b : List Byte} {r : Blk × Blk}
    (h1 : rd s 8 w = (.ok (b, s'), w')) (h2 : Imit.loop rd key fuel s' b BlkRaw.zero w' = (.ok r, w'')) :
    Imit.value m rd fuel s key w = ((BlkEncrypted (.xored r.1 r.2) key).value m, w'') := by
  unfold Imit.value Imit.build
  rw [bind_assoc, Io.bind_run_ok h1]
  simp only
  rw [bind_assoc, Io.bind_run_ok h2]
  rfl

/-- C87 is false of the code: a read that returns less than a block, though not nothing, ends the message
even if the source has more data. The result is the code of the data up to there, and the rest of the
source is not even read. -/
theorem C87_short_piece_ends (m : Machine) (rd : σ → Nat → Io W (List Byte × σ)) (s s1 s2 : σ)
    (w w1 w2 : W) (key : Option Key) (c : List (BitVec 64)) (x : List Byte) (hx : 0 < x.length)
    (hx8 : x.length < 8) (h1 : ReadsBlocks rd s w c s1 w1) (h2 : rd s1 8 w1 = (.ok (x, s2), w2))
    (fuel : Nat) (hf : c.length < fuel) :
    ∃ r, Imit.value m rd fuel s key w = (r, w2) ∧
      Imit.value m memRead fuel (unblocks64 c ++ x) key () = (r, ()) := by
  have hne : x ≠ [] := List.length_pos_iff.mp hx
  have t8 : x.take 8 = x := List.take_of_length_le (by omega)
  have loopx : ∀ (fuel : Nat), 0 < fuel → ∀ (block : Blk),
      ∃ r, Imit.loop rd key fuel s2 x block w2 = (.ok r, w2) ∧
        Imit.loop (memRead (W := Unit)) key fuel (x.drop 8) x block () = (.ok r, ()) := by
    intro fuel hf block
    obtain ⟨fuel, rfl⟩ : ∃ k, fuel = k + 1 := ⟨fuel - 1, by omega⟩
    unfold Imit.loop
    simp only
    rw [loadPartial_eq hne (by omega), Io.lift_ok_bind, if_pos hx8, Io.lift_ok_bind, if_pos hx8]
    exact ⟨_, rfl, rfl⟩
  have loop : ∀ (c : List W64) (fuel : Nat), c.length + 1 < fuel → ∀ (s : σ) (w : W) (y : W64) (block : Blk),
      ReadsBlocks rd s w c s1 w1 →
      ∃ r, Imit.loop rd key fuel s (bytesOf64 y) block w = (.ok r, w2) ∧
        Imit.loop (memRead (W := Unit)) key fuel (unblocks64 c ++ x) (bytesOf64 y) block () = (.ok r, ()) := by
    intro c
    induction c with
    | nil =>
      intro fuel hf s w y block h
      obtain ⟨fuel, rfl⟩ : ∃ k, fuel = k + 1 := ⟨fuel - 1, by simp at hf; omega⟩
      obtain ⟨rfl, rfl⟩ := h
      have em : memRead (W := Unit) (unblocks64 [] ++ x) 8 () = (.ok (x, x.drop 8), ()) := by
        rw [unblocks64_nil, List.nil_append]
        show (Exec.ok (x.take 8, x.drop 8), ()) = _
        rw [t8]
      obtain ⟨r, r1, r2⟩ := loopx fuel (by simp at hf; omega)
        (BlkEncrypted (.xored block (BlkRaw.ofU64 (block64 (bytesOf64 y)))) key)
      refine ⟨r, ?_, ?_⟩
      · unfold Imit.loop
        simp only
        rw [loadPartial_eq (bytesOf64_ne y) (by simp), Io.lift_ok_bind, if_neg (by simp), Io.bind_run_ok h2]
        simp only
        rw [if_neg hne]
        exact r1
      · unfold Imit.loop
        simp only
        rw [loadPartial_eq (bytesOf64_ne y) (by simp), Io.lift_ok_bind, if_neg (by simp), Io.bind_run_ok em]
        simp only
        rw [if_neg hne]
        exact r2
    | cons z c ih =>
      intro fuel hf s w y block h
      obtain ⟨fuel, rfl⟩ : ∃ k, fuel = k + 1 := ⟨fuel - 1, by simp at hf; omega⟩
      obtain ⟨s0, w0, e0, h⟩ := h
      have em : memRead (W := Unit) (unblocks64 (z :: c) ++ x) 8 () =
          (.ok (bytesOf64 z, unblocks64 c ++ x), ()) := by
        show (Exec.ok ((unblocks64 (z :: c) ++ x).take 8, (unblocks64 (z :: c) ++ x).drop 8), ()) = _
        rw [unblocks64_cons, List.append_assoc, List.take_left' (by simp), List.drop_left' (by simp)]
      obtain ⟨r, r1, r2⟩ := ih fuel (by simp at hf ⊢; omega) s0 w0 z
        (BlkEncrypted (.xored block (BlkRaw.ofU64 (block64 (bytesOf64 y)))) key) h
      refine ⟨r, ?_, ?_⟩
      · unfold Imit.loop
        simp only
        rw [loadPartial_eq (bytesOf64_ne y) (by simp), Io.lift_ok_bind, if_neg (by simp), Io.bind_run_ok e0]
        simp only
        rw [if_neg (bytesOf64_ne z)]
        exact r1
      · unfold Imit.loop
        simp only
        rw [loadPartial_eq (bytesOf64_ne y) (by simp), Io.lift_ok_bind, if_neg (by simp), Io.bind_run_ok em]
        simp only
        rw [if_neg (bytesOf64_ne z)]
        exact r2
  cases c with
  | nil =>
    obtain ⟨rfl, rfl⟩ := h1
    have em : memRead (W := Unit) (unblocks64 [] ++ x) 8 () = (.ok (x, x.drop 8), ()) := by
      rw [unblocks64_nil, List.nil_append]
      show (Exec.ok (x.take 8, x.drop 8), ()) = _
      rw [t8]
    obtain ⟨r, r1, r2⟩ := loopx fuel (by simp at hf; omega) BlkRaw.zero
    exact ⟨_, Imit_value_run h2 r1, Imit_value_run em r2⟩
  | cons y c =>
    obtain ⟨s0, w0, e0, h⟩ := h1
    have em : memRead (W := Unit) (unblocks64 (y :: c) ++ x) 8 () =
        (.ok (bytesOf64 y, unblocks64 c ++ x), ()) := by
      show (Exec.ok ((unblocks64 (y :: c) ++ x).take 8, (unblocks64 (y :: c) ++ x).drop 8), ()) = _
      rw [unblocks64_cons, List.append_assoc, List.take_left' (by simp), List.drop_left' (by simp)]
    obtain ⟨r, r1, r2⟩ := loop c fuel (by simp at hf; omega) s0 w0 y BlkRaw.zero h
    exact ⟨_, Imit_value_run e0 r1, Imit_value_run em r2⟩

example (m : Machine) (key : Option Key) := C87_short_piece_ends m (piecesRead (W := Unit)) [bytesOf64 5, [1, 2, 3], [4]] _ _
  () () () key [5] [1, 2, 3] (by decide) (by decide) ⟨_, (), rfl, rfl, rfl⟩ rfl 2 (by decide)

/-- C87, sources that return more than they are asked for: this is undefined. -/
theorem C87_long_piece_undefined (m : Machine) (rd : σ → Nat → Io W (List Byte × σ)) (s s1 s2 : σ)
    (w w1 w2 : W) (key : Option Key) (c : List (BitVec 64)) (x : List Byte) (hx : 8 < x.length)
    (h1 : ReadsBlocks rd s w c s1 w1) (h2 : rd s1 8 w1 = (.ok (x, s2), w2))
    (fuel : Nat) (hf : c.length < fuel) :
    Imit.value m rd fuel s key w = (.ub .oobWrite, w2) := by
  have hne : x ≠ [] := List.length_pos_iff.mp (by omega)
  have bad : Imit.loadPartial x = .ub .oobWrite := by
    simp only [Imit.loadPartial, copyInto, if_neg hne, if_neg (show ¬ x.length ≤ 8 by omega)]
    rfl
  have loopx : ∀ (fuel : Nat), 0 < fuel → ∀ (block : Blk),
      Imit.loop rd key fuel s2 x block w2 = (.ub .oobWrite, w2) := by
    intro fuel hf block
    obtain ⟨fuel, rfl⟩ : ∃ k, fuel = k + 1 := ⟨fuel - 1, by omega⟩
    unfold Imit.loop
    simp only
    rw [bad]
    rfl
  have loop : ∀ (c : List W64) (fuel : Nat), c.length + 1 < fuel → ∀ (s : σ) (w : W) (y : W64) (block : Blk),
      ReadsBlocks rd s w c s1 w1 →
      Imit.loop rd key fuel s (bytesOf64 y) block w = (.ub .oobWrite, w2) := by
    intro c
    induction c with
    | nil =>
      intro fuel hf s w y block h
      obtain ⟨fuel, rfl⟩ : ∃ k, fuel = k + 1 := ⟨fuel - 1, by simp at hf; omega⟩
      obtain ⟨rfl, rfl⟩ := h
      unfold Imit.loop
      simp only
      rw [loadPartial_eq (bytesOf64_ne y) (by simp), Io.lift_ok_bind, if_neg (by simp), Io.bind_run_ok h2]
      simp only
      rw [if_neg hne]
      exact loopx fuel (by simp at hf; omega) _
    | cons z c ih =>
      intro fuel hf s w y block h
      obtain ⟨fuel, rfl⟩ : ∃ k, fuel = k + 1 := ⟨fuel - 1, by simp at hf; omega⟩
      obtain ⟨s0, w0, e0, h⟩ := h
      unfold Imit.loop
      simp only
      rw [loadPartial_eq (bytesOf64_ne y) (by simp), Io.lift_ok_bind, if_neg (by simp), Io.bind_run_ok e0]
      simp only
      rw [if_neg (bytesOf64_ne z)]
      exact ih fuel (by simp at hf ⊢; omega) s0 w0 z _ h
  unfold Imit.value Imit.build
  cases c with
  | nil =>
    obtain ⟨rfl, rfl⟩ := h1
    rw [bind_assoc, Io.bind_run_ok h2]
    simp only
    rw [bind_assoc, bind_run_ub (loopx fuel (by simp at hf; omega) _)]
  | cons y c =>
    obtain ⟨s0, w0, e0, h⟩ := h1
    rw [bind_assoc, Io.bind_run_ok e0]
    simp only
    rw [bind_assoc, bind_run_ub (loop c fuel (by simp at hf; omega) s0 w0 y _ h)]

example (m : Machine) (key : Option Key) := C87_long_piece_undefined m
  (fun (n : Nat) _ => (fun w => (.ok (if n = 0 then bytesOf64 5 else List.replicate 9 1, n + 1), w) : Io Unit (List Byte × Nat)))
  0 1 2 () () () key [5] (List.replicate 9 1) (by decide) ⟨_, (), rfl, rfl, rfl⟩ rfl 2 (by decide)

/-- C87 is false of the code, with data that come in pieces: after pieces of whole blocks a short piece
ends the message, whatever pieces follow. -/
theorem C87_rest_ignored (m : Machine) (key : Option Key) (c : List (BitVec 64)) (x : List Byte)
    (hx : 0 < x.length) (hx8 : x.length < 8) (rest rest' : List (List Byte)) (fuel : Nat)
    (hf : c.length < fuel) :
    (Imit.value m piecesRead fuel (c.map bytesOf64 ++ x :: rest) key ()).1 =
      (Imit.value m piecesRead fuel (c.map bytesOf64 ++ x :: rest') key ()).1 := by
  have reads : ∀ (c : List W64) (r : List (List Byte)),
      ReadsBlocks (piecesRead (W := Unit)) (c.map bytesOf64 ++ x :: r) () c (x :: r) () := by
    intro c r
    induction c with
    | nil => exact ⟨rfl, rfl⟩
    | cons y c ih =>
      refine ⟨c.map bytesOf64 ++ x :: r, (), ?_, ih⟩
      show (Exec.ok ((bytesOf64 y).take 8, if 8 < (bytesOf64 y).length then _ else _), ()) = _
      rw [List.take_of_length_le (by simp), if_neg (by simp)]
      rfl
  have e : ∀ r : List (List Byte), piecesRead (W := Unit) (x :: r) 8 () = (.ok (x, r), ()) := by
    intro r
    show (Exec.ok (x.take 8, if 8 < x.length then _ else _), ()) = _
    rw [List.take_of_length_le (by omega), if_neg (by omega)]
  obtain ⟨r1, a1, b1⟩ := C87_short_piece_ends m _ _ _ _ _ _ _ key c x hx hx8 (reads c rest) (e rest) fuel hf
  obtain ⟨r2, a2, b2⟩ := C87_short_piece_ends m _ _ _ _ _ _ _ key c x hx hx8 (reads c rest') (e rest') fuel hf
  rw [a1, a2, ← (Prod.mk.inj (b1.symm.trans b2)).1]

example (m : Machine) (key : Option Key) := C87_rest_ignored m key [5, 6] [1, 2, 3] (by decide) (by decide) [[4]] [[7], [8]] 3
  (by decide)

/-- What is true of C87: if all pieces consist of whole blocks, the code is that of all the data. Missing:
other pieces, see `C87_rest_ignored`. -/
theorem C87_whole_pieces_partial (key : Key) (f : Fin 8 → BitVec 32 → BitVec 32)
    (h : Computes key f) (pieces : List (List Byte)) (h8 : ∀ x ∈ pieces, x.length % 8 = 0 ∧ x ≠ [])
    (p : List (BitVec 64)) (last : BitVec 64) (hp : pieces.flatten = unblocks64 (p ++ [last]))
    (fuel : Nat) (hf : p.length < fuel) :
    ∃ v, Imit.value .x86 piecesRead fuel pieces (some key) () = (.ok v, ()) ∧
      join32 v = omac (Spec.Magma.encF f) (macK1 (Spec.Magma.encF f) 0x1b) p last := by
  have hs : SuppliesBlocks (piecesRead (W := Unit)) pieces () (unblocks64 (p ++ [last])) := by
    refine ⟨fun ps _ d => ps.flatten = d ∧ ∀ x ∈ ps, x.length % 8 = 0 ∧ x ≠ [], ⟨hp, h8⟩, ?_⟩
    rintro ps w d ⟨rfl, h⟩
    cases ps with
    | nil => exact ⟨[], (), rfl, rfl, by simp⟩
    | cons q ps =>
      obtain ⟨hq, hq0⟩ := h q (by simp)
      have hl : 0 < q.length := List.length_pos_iff.mpr hq0
      have h8 : 8 ≤ q.length := by omega
      rw [List.flatten_cons, List.take_append_of_le_length h8, List.drop_append_of_le_length h8]
      refine ⟨_, (), rfl, ?_⟩
      refine ⟨?_, ?_⟩
      · by_cases hlt : 8 < q.length
        · rw [if_pos hlt, List.flatten_cons]
        · rw [if_neg hlt, List.drop_of_length_le (by omega), List.nil_append]
      · intro x hx
        by_cases hlt : 8 < q.length
        · rw [if_pos hlt] at hx
          rcases List.mem_cons.mp hx with rfl | hx
          · refine ⟨by rw [List.length_drop]; omega, ?_⟩
            exact List.length_pos_iff.mp (by rw [List.length_drop]; omega)
          · exact h x (by simp [hx])
        · rw [if_neg hlt] at hx
          exact h x (by simp [hx])
  obtain ⟨v, w', e, hv⟩ := C32_omac key f h piecesRead pieces () p last hs fuel hf
  exact ⟨v, e, hv⟩

example : let pieces : List (List Byte) := [unblocks64 [1, 2], unblocks64 [3]]
    (∀ x ∈ pieces, x.length % 8 = 0 ∧ x ≠ []) ∧ pieces.flatten = unblocks64 ([1, 2] ++ [3]) := by
  decide +kernel
example : ReadsBlocks (piecesRead (W := Unit)) [bytesOf64 5, [1, 2, 3], [4]] () [5] [[1, 2, 3], [4]] () ∧
    piecesRead (W := Unit) [[1, 2, 3], [4]] 8 () = (.ok ([1, 2, 3], [[4]]), ()) :=
  ⟨⟨_, (), rfl, rfl, rfl⟩, rfl⟩

end

end Goost.Props
