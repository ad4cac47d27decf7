import Verif.Lemmas.KuzStream
/-
Properties C44 – C51 and C62 – C64: Kuznyechik streams, counter mode and MAC.

`Encrypts m key K` says that the key object encrypts by the standard with the key `K`;
`C44_key_from_text` shows that this is so for every key text of 64 hexadecimal digits.
`fuel` bounds the number of iterations of the loop of `Imit::value` in the model; every theorem holds
for every sufficiently large bound.
-/
namespace Goost.Props
open Goost.Kuz Spec Spec.Modes
variable {ι : Type}

/-- A key made from two blocks: a concrete case for the theorems of this file. -/
def twoHalves : Key := Key.ofBlocks (.raw 1 2) (.raw 3 4)

theorem twoHalves_encrypts : Encrypts .x86 twoHalves (join64 (1, 2) ++ join64 (3, 4)) := encrypts_ofBlocks rfl rfl rfl 0

/-- The first iterator of a stream of two blocks: a concrete case for the theorems of this file. -/
theorem fourWords_shows : Shows (ItMemory.impl [1, 2, 3, 4]) 16 ⟨0, (1, 2)⟩ [(1, 2), (3, 4)] :=
  ⟨rfl, rfl, rfl, _, rfl, rfl, rfl, rfl⟩

/-- The hypothesis about keys in this file: met by every key made from 64 hexadecimal digits. -/
theorem C44_key_from_text (m : Machine) (hm : m.unalignedLoad = true) (s : List Char) (hs : IsHex s)
    (hl : s.length = 64) :
    ∃ key, Key.ofString s = .ok key ∧ Encrypts m key (BitVec.ofNat 256 (hexNat s)) := by
  obtain ⟨key, h, _⟩ := ofString_value hm hs (by omega) 0 (b := .raw 0 0) (HasValue.raw m 0 0)
  refine ⟨key, h, ?_⟩
  intro b v hb
  obtain ⟨key', h', r, e2, e3⟩ := ofString_value hm hs (by omega) 0 (b := b) ⟨v, hb, rfl⟩
  rw [h] at h'
  cases h'
  rw [key_of_halves hl] at e3
  exact ⟨r, e2, e3⟩

example := C44_key_from_text .x86 rfl (List.replicate 64 'a') (fun c hc => by rw [List.eq_of_mem_replicate hc]; decide) (by simp)

/-! ### C44 -/

/-- C44. Over any stream that shows the blocks `p`, `StCTREncrypted` shows as many blocks, with the
same `last()` and `size()`; they are the counter mode encryption of `p`. -/
theorem C44_ctr_conforms (m : Machine) (key : Key) (K : BitVec 256) (hk : Encrypts m key K)
    (it : IterImpl ι) (size : Nat) (i : ι) (p : List (W64 × W64)) (hs : Shows it size i p)
    (iv : BitVec 64) :
    ∃ j cs, StCTREncrypted.iter (.ok (some i)) key iv = .ok (some j) ∧
      Shows (ItCTR.impl m it) size j cs ∧
      cs.map join64 = ctr (k := 64) (Spec.Kuz.enc K) iv (p.map join64) :=
  Shows_ctr hk iv p hs

example := C44_ctr_conforms .x86 twoHalves _ twoHalves_encrypts _ 16 _ _ fourWords_shows 7

/-- C44, block by block: the iterator after `n` times `next()` shows block `n` of the stream XOR the
encryption of `iv·2^64 + n` modulo 2^128, and agrees with the stream about `last()` and `size()`. -/
theorem C44_ctr_block (m : Machine) (key : Key) (K : BitVec 256) (hk : Encrypts m key K)
    (it : IterImpl ι) (size : Nat) (i : ι) (p : List (W64 × W64)) (hs : Shows it size i p)
    (iv : BitVec 64) (n : Nat) (v : W64 × W64) (hn : p[n]? = some v) :
    ∃ j j' c, StCTREncrypted.iter (.ok (some i)) key iv = .ok (some j) ∧
      advance (ItCTR.impl m it) n j = .ok (some j') ∧
      (ItCTR.impl m it).value j' = .ok c ∧
      join64 c = join64 v ^^^ Spec.Kuz.enc K (BitVec.ofNat 128 (iv.toNat * 2 ^ 64 + n)) ∧
      (ItCTR.impl m it).last j' = .ok (decide (n + 1 = p.length)) ∧
      (ItCTR.impl m it).size j' = .ok (if n + 1 = p.length then size else 16) := by
  obtain ⟨j, cs, h1, h2, h3⟩ := C44_ctr_conforms m key K hk it size i p hs iv
  obtain ⟨hlt, hv⟩ := List.getElem?_eq_some_iff.1 hn
  have hlen : cs.length = p.length := by
    have := congrArg List.length h3
    simpa [ctr] using this
  obtain ⟨j', h4, h5⟩ := Shows_advance h2 (n := n) (by omega)
  obtain ⟨c, r, e, h6, h7, h8⟩ := Shows_here h5
  have hr : (r = []) ↔ n + 1 = p.length := by
    have := congrArg List.length e
    simp only [List.length_drop, List.length_cons] at this
    rw [← List.length_eq_zero_iff]
    omega
  refine ⟨j, j', c, h1, h4, h6, ?_, ?_, ?_⟩
  · have hc : cs[n]? = some c := by
      have := congrArg (fun l => l[0]?) e
      simpa using this
    have := congrArg (fun l => l[n]?) h3
    simp only [List.getElem?_map, hc, ctr_getElem?, hn, Option.map_some, Option.some.injEq] at this
    rw [this]
    congr 2
    apply BitVec.eq_of_toNat_eq
    rw [counter_toNat, BitVec.toNat_ofNat]
  · rw [h7]; simp only [hr]
  · rw [h8]; simp only [hr]

/-- A stream of two blocks. -/
example : ∃ i, StMemory.iter [1, 2, 3, 4] = .ok (some i) ∧
    Shows (ItMemory.impl [1, 2, 3, 4]) 16 i [(1, 2), (3, 4)] :=
  Shows_memory [1, 2, 3, 4] rfl (by simp)

/-! ### C45 -/

/-- C45. A stream wrapped twice with the same key and iv shows the original blocks. -/
theorem C45_ctr_involution (m : Machine) (key : Key) (K : BitVec 256) (hk : Encrypts m key K)
    (it : IterImpl ι) (size : Nat) (i : ι) (p : List (W64 × W64)) (hs : Shows it size i p)
    (iv : BitVec 64) :
    ∃ j, (StCTREncrypted.iter (StCTREncrypted.iter (.ok (some i)) key iv) key iv) = .ok (some j) ∧
      Shows (ItCTR.impl m (ItCTR.impl m it)) size j p := by
  obtain ⟨j, cs, h1, h2, h3⟩ := C44_ctr_conforms m key K hk it size i p hs iv
  obtain ⟨j', ps, h1', h2', h3'⟩ := C44_ctr_conforms m key K hk (ItCTR.impl m it) size j cs h2 iv
  refine ⟨j', by rw [h1]; exact h1', ?_⟩
  rw [h3, ctr_involution] at h3'
  have : ps = p := by
    have inj : ∀ a b : List (W64 × W64), a.map join64 = b.map join64 → a = b := by
      intro a
      induction a with
      | nil => intro b h; cases b with
        | nil => rfl
        | cons _ _ => simp at h
      | cons x a ih => intro b h; cases b with
        | nil => simp at h
        | cons y b =>
          simp only [List.map_cons, List.cons.injEq] at h
          rw [join64_inj h.1, ih b h.2]
    exact inj _ _ h3'
  exact this ▸ h2'

example := C45_ctr_involution .x86 twoHalves _ twoHalves_encrypts _ 16 _ _ fourWords_shows 7

/-! ### C46 -/

/-- C46. Blocks number `a` and `b` of two encrypted streams under one key, also of the same stream, with
starting values `iv` and `iv'`. If the counters differ, so do the keystream blocks (cipher text XOR
plain text). -/
theorem C46_keystream_blocks_differ {κ : Type} (m : Machine) (key : Key) (K : BitVec 256)
    (hk : Encrypts m key K)
    (it : IterImpl ι) (size : Nat) (i : ι) (p : List (W64 × W64)) (hs : Shows it size i p)
    (it' : IterImpl κ) (size' : Nat) (i' : κ) (p' : List (W64 × W64)) (hs' : Shows it' size' i' p')
    (iv iv' : BitVec 64) (a b : Nat) (pa pb : W64 × W64) (ha : p[a]? = some pa)
    (hb : p'[b]? = some pb)
    (hne : (iv.toNat * 2 ^ 64 + a) % 2 ^ 128 ≠ (iv'.toNat * 2 ^ 64 + b) % 2 ^ 128) :
    ∃ ca cb, blockAt (ItCTR.impl m it) (StCTREncrypted.iter (.ok (some i)) key iv) a = .ok ca ∧
      blockAt (ItCTR.impl m it') (StCTREncrypted.iter (.ok (some i')) key iv') b = .ok cb ∧
      join64 ca ^^^ join64 pa ≠ join64 cb ^^^ join64 pb := by
  obtain ⟨j, jn, ca, h1, h2, h3, h4, -⟩ := C44_ctr_block m key K hk it size i p hs iv a pa ha
  obtain ⟨j', jn', cb, h1', h2', h3', h4', -⟩ :=
    C44_ctr_block m key K hk it' size' i' p' hs' iv' b pb hb
  refine ⟨ca, cb, ?_, ?_, ?_⟩
  · simp only [blockAt, h1, Exec.ok_bind, deref, h2, h3]
  · simp only [blockAt, h1', Exec.ok_bind, deref, h2', h3']
  · rw [h4, h4', BitVec.xor_comm (join64 pa), BitVec.xor_comm (join64 pb), BitVec.xor_assoc,
      BitVec.xor_assoc, BitVec.xor_self, BitVec.xor_self, BitVec.xor_zero, BitVec.xor_zero]
    intro e
    have := congrArg BitVec.toNat (kuz_enc_injective K e)
    simp only [BitVec.toNat_ofNat] at this
    exact hne this

example := C46_keystream_blocks_differ .x86 twoHalves _ twoHalves_encrypts _ 16 _ _ fourWords_shows _ 16 _ _ fourWords_shows
  7 8 1 1 _ _ rfl rfl (by decide)

/-- C46. In one stream the keystream at two positions below 2^128 differs. -/
theorem C46_positions (m : Machine) (key : Key) (K : BitVec 256) (hk : Encrypts m key K)
    (it : IterImpl ι) (size : Nat) (i : ι) (p : List (W64 × W64)) (hs : Shows it size i p)
    (iv : BitVec 64) (a b : Nat) (hab : a ≠ b) (ha : a < 2 ^ 128) (hb : b < 2 ^ 128)
    (pa pb : W64 × W64) (hpa : p[a]? = some pa) (hpb : p[b]? = some pb) :
    ∃ ca cb, blockAt (ItCTR.impl m it) (StCTREncrypted.iter (.ok (some i)) key iv) a = .ok ca ∧
      blockAt (ItCTR.impl m it) (StCTREncrypted.iter (.ok (some i)) key iv) b = .ok cb ∧
      join64 ca ^^^ join64 pa ≠ join64 cb ^^^ join64 pb :=
  C46_keystream_blocks_differ m key K hk it size i p hs it size i p hs iv iv a b pa pb hpa hpb
    (by have := iv.isLt; omega)

example := C46_positions .x86 twoHalves _ twoHalves_encrypts _ 16 _ _ fourWords_shows 7 0 1 (by decide) (by decide) (by decide)
  _ _ rfl rfl

/-- C46. Under different starting values the keystreams have no block in common within the first 2^64
blocks of each. -/
theorem C46_different_iv {κ : Type} (m : Machine) (key : Key) (K : BitVec 256)
    (hk : Encrypts m key K)
    (it : IterImpl ι) (size : Nat) (i : ι) (p : List (W64 × W64)) (hs : Shows it size i p)
    (it' : IterImpl κ) (size' : Nat) (i' : κ) (p' : List (W64 × W64)) (hs' : Shows it' size' i' p')
    (iv iv' : BitVec 64) (hiv : iv ≠ iv') (a b : Nat) (ha : a < 2 ^ 64) (hb : b < 2 ^ 64)
    (pa pb : W64 × W64) (hpa : p[a]? = some pa) (hpb : p'[b]? = some pb) :
    ∃ ca cb, blockAt (ItCTR.impl m it) (StCTREncrypted.iter (.ok (some i)) key iv) a = .ok ca ∧
      blockAt (ItCTR.impl m it') (StCTREncrypted.iter (.ok (some i')) key iv') b = .ok cb ∧
      join64 ca ^^^ join64 pa ≠ join64 cb ^^^ join64 pb :=
  C46_keystream_blocks_differ m key K hk it size i p hs it' size' i' p' hs' iv iv' a b pa pb hpa hpb
    (by
      have h1 := iv.isLt
      have h2 := iv'.isLt
      have : iv.toNat ≠ iv'.toNat := fun e => hiv (BitVec.eq_of_toNat_eq e)
      omega)

example : ([(1, 2), (3, 4)] : List (W64 × W64))[1]? = some (3, 4) := rfl

/-! ### C47 -/

/-- C47. Over a vector of `2 k` words, `k ≥ 1`: after `n < k` times `next()` the iterator shows the
words `2 n` and `2 n + 1`, `last()` is true exactly for `n = k - 1`, `size()` is 16. -/
theorem C47_memory_blocks (data : List W64) (k : Nat) (hk : 1 ≤ k) (hd : data.length = 2 * k) :
    ∃ i, StMemory.iter data = .ok (some i) ∧ ∀ n, n < k → ∃ j lo hi,
      advance (ItMemory.impl data) n i = .ok (some j) ∧
      data[2 * n]? = some lo ∧ data[2 * n + 1]? = some hi ∧
      (ItMemory.impl data).value j = .ok (lo, hi) ∧
      (ItMemory.impl data).last j = .ok (decide (n = k - 1)) ∧
      (ItMemory.impl data).size j = .ok 16 := by
  obtain ⟨i, h1, h2⟩ := Shows_memory data (by omega) (by intro e; rw [e] at hd; simp at hd; omega)
  refine ⟨i, h1, ?_⟩
  intro n hn
  have hlen := wordPairs_length data
  obtain ⟨j, h3, h4⟩ := Shows_advance h2 (n := n) (by omega)
  obtain ⟨v, r, e, h5, h6, h7⟩ := Shows_here h4
  have hv : (wordPairs data)[n]? = some v := by
    have := congrArg (fun l => l[0]?) e
    simpa using this
  obtain ⟨w1, w2⟩ := wordPairs_getElem? data n hv
  have hr : (r = []) ↔ n = k - 1 := by
    have := congrArg List.length e
    simp only [List.length_drop, List.length_cons] at this
    rw [← List.length_eq_zero_iff]
    omega
  refine ⟨j, v.1, v.2, h3, w1, w2, h5, ?_, ?_⟩
  · rw [h6]; simp only [hr]
  · rw [h7]; split <;> rfl

example := C47_memory_blocks [1, 2, 3, 4] 2 (by decide) rfl

/-- C47, in the form used for the modes: the vector is a stream that shows its words in pairs. -/
theorem C47_memory_shows (data : List W64) (h : data.length % 2 = 0) (h0 : data ≠ []) :
    ∃ i, StMemory.iter data = .ok (some i) ∧ Shows (ItMemory.impl data) 16 i (wordPairs data) :=
  Shows_memory data h h0

example := C47_memory_shows [1, 2, 3, 4] rfl (by decide)

/-- C47. After the last block `next()` returns null. -/
theorem C47_memory_end (data : List W64) (k : Nat) (hk : 1 ≤ k) (hd : data.length = 2 * k) :
    ∃ i, StMemory.iter data = .ok (some i) ∧ advance (ItMemory.impl data) k i = .ok none := by
  have hpos : ∀ (i : ItMemory) (n : Nat) j, advance (ItMemory.impl data) n i = .ok (some j) →
      j.offset = i.offset + 16 * n := by
    intro i n
    induction n generalizing i with
    | zero => intro j h; cases h; rfl
    | succ n ih =>
      intro j h
      simp only [advance] at h
      cases hnx : (ItMemory.impl data).next i with
      | ok o =>
        rw [hnx, Exec.ok_bind] at h
        cases o with
        | none => simp at h
        | some i' =>
          have := ih i' j h
          have hi' : i'.offset = i.offset + 16 := by
            simp only [ItMemory.impl, ItMemory.next, if_true, StMemory.nextIter] at hnx
            split at hnx
            · simp at hnx
            · cases h1 : vget data ((i.offset + 16) / 8) <;> rw [h1] at hnx <;> simp at hnx
              cases h2 : vget data ((i.offset + 16) / 8 + 1) <;> rw [h2] at hnx <;> simp at hnx
              rw [← hnx]
          omega
      | throw _ => rw [hnx] at h; cases h
      | ub _ => rw [hnx] at h; cases h
      | diverge => rw [hnx] at h; cases h
  have hsucc : ∀ (n : Nat) (i j : ItMemory), advance (ItMemory.impl data) n i = .ok (some j) →
      advance (ItMemory.impl data) (n + 1) i = advance (ItMemory.impl data) 1 j := by
    intro n
    induction n with
    | zero => intro i j h; cases h; rfl
    | succ n ih =>
      intro i j h
      rw [advance] at h ⊢
      cases hnx : (ItMemory.impl data).next i with
      | ok o =>
        rw [hnx, Exec.ok_bind] at h
        rw [Exec.ok_bind]
        cases o with
        | none => simp at h
        | some i' => exact ih i' j h
      | throw _ => rw [hnx] at h; cases h
      | ub _ => rw [hnx] at h; cases h
      | diverge => rw [hnx] at h; cases h
  obtain ⟨i, h1, h2⟩ := C47_memory_blocks data k hk hd
  obtain ⟨j, lo, hi, h3, -⟩ := h2 (k - 1) (by omega)
  refine ⟨i, h1, ?_⟩
  have h4 := hsucc (k - 1) i j h3
  rw [show k - 1 + 1 = k by omega] at h4
  rw [h4]
  have h0 : i.offset = 0 := by
    simp only [StMemory.iter, StMemory.nextIter] at h1
    rw [if_neg (by omega)] at h1
    cases e1 : vget data (0 / 8) <;> rw [e1] at h1 <;> simp at h1
    cases e2 : vget data 1 <;> rw [e2] at h1 <;> simp at h1
    rw [← h1]
  have h5 := hpos i (k - 1) j h3
  simp only [advance, ItMemory.impl, ItMemory.next, if_true, StMemory.nextIter]
  rw [if_pos (by omega)]
  rfl

example := C47_memory_end [1, 2, 3, 4] 2 (by decide) rfl

/-! ### C48 -/

/-- C48 is false of the code: over a vector of odd length, reading on to the last word is an
out-of-bounds read, in `iter()` if there is one word and in `next()` of the last complete block
otherwise. -/
theorem C48_odd_length_out_of_bounds (data : List W64) (k : Nat) (hd : data.length = 2 * k + 1) :
    (k = 0 → StMemory.iter data = .ub .oobRead) ∧
    (∀ i : ItMemory, k ≠ 0 → i.offset = 16 * (k - 1) →
      (ItMemory.impl data).next i = .ub .oobRead ∧ (ItMemory.impl data).last i = .ub .oobRead) := by
  have key : ∀ off, off = 16 * k → StMemory.nextIter data off = .ub .oobRead := by
    intro off ho
    rcases List.eq_nil_or_concat data with rfl | ⟨pre, a, rfl⟩
    · simp at hd
    · rw [List.concat_eq_append] at hd ⊢
      have : off = 8 * pre.length := by simp at hd; omega
      rw [this]
      exact nextIter_odd pre a
  constructor
  · intro h0
    exact key 0 (by omega)
  · intro i h0 hi
    have := key (i.offset + 16) (by omega)
    simp only [ItMemory.impl, ItMemory.next, if_true, this]
    exact ⟨trivial, rfl⟩

example := C48_odd_length_out_of_bounds [1, 2, 3] 1 rfl

/-- C48 is false of the code: over an empty vector `iter()` returns null, which `StCTREncrypted` and
`Imit` dereference. -/
theorem C48_empty_null_dereference (m : Machine) (key : Key) (iv : BitVec 64) (fuel : Nat) :
    StMemory.iter [] = .ok none ∧
    (∃ j, StCTREncrypted.iter (StMemory.iter []) key iv = .ok (some j) ∧
      (ItCTR.impl m (ItMemory.impl [])).value j = .ub .nullDeref ∧
      (ItCTR.impl m (ItMemory.impl [])).last j = .ub .nullDeref ∧
      (ItCTR.impl m (ItMemory.impl [])).next j = .ub .nullDeref) ∧
    Imit.value m (ItMemory.impl []) (StMemory.iter []) (fuel + 1) key = .ub .nullDeref :=
  ⟨rfl, ⟨_, rfl, rfl, rfl, rfl⟩, rfl⟩

/-- What is true of C48: vectors of even length at least 2 are safe, at every position. Missing: odd
length and empty vectors, see above. -/
theorem C48_even_length_safe_partial (data : List W64) (k : Nat) (hk : 1 ≤ k)
    (hd : data.length = 2 * k) (n : Nat) (hn : n ≤ k) (u : UB) :
    (StMemory.iter data >>= fun p => deref p (advance (ItMemory.impl data) n)) ≠ .ub u := by
  rcases Nat.lt_or_ge n k with h | h
  · obtain ⟨i, h1, h2⟩ := C47_memory_blocks data k hk hd
    obtain ⟨j, lo, hi, h3, -⟩ := h2 n h
    simp [h1, deref, h3]
  · obtain ⟨i, h1, h2⟩ := C47_memory_end data k hk hd
    have : n = k := by omega
    subst this
    simp [h1, deref, h2]

example := C48_even_length_safe_partial [1, 2, 3, 4] 2 (by decide) rfl 2 (by decide)

/-- C48 is exactly so: to go any number of blocks through a vector, stopping at the end, has no undefined
behaviour if and only if the vector holds whole blocks and at least one. -/
theorem C48_walk_safe_iff (data : List W64) :
    (∀ n u, (StMemory.iter data >>= fun p => deref p (advance (ItMemory.impl data) n)) ≠ .ub u) ↔
      data ≠ [] ∧ data.length % 2 = 0 := by
  constructor
  · intro h
    refine ⟨?_, ?_⟩
    · rintro rfl
      exact h 0 .nullDeref rfl
    · rcases Nat.mod_two_eq_zero_or_one data.length with e | e
      · exact e
      · exfalso
        obtain ⟨k, hk⟩ : ∃ k, data.length = 2 * k + 1 := ⟨data.length / 2, by omega⟩
        rcases Nat.eq_zero_or_pos k with rfl | h0
        · have := (C48_odd_length_out_of_bounds data 0 hk).1 rfl
          refine h 0 .oobRead ?_
          rw [this]; rfl
        · have hw : ∀ n (i : ItMemory), i.offset + 16 * n = 16 * k → 0 < n →
              advance (ItMemory.impl data) n i = .ub .oobRead := by
            intro n
            induction n with
            | zero => intro i _ h; omega
            | succ n ih =>
              intro i hi _
              rcases Nat.eq_zero_or_pos n with rfl | hn
              · have := ((C48_odd_length_out_of_bounds data k hk).2 i (by omega) (by omega)).1
                simp only [advance, this]
                rfl
              · have : (ItMemory.impl data).next i =
                    .ok (some ⟨i.offset + 16, (data[(i.offset + 16) / 8]'(by omega),
                      data[(i.offset + 16) / 8 + 1]'(by omega))⟩) :=
                  nextIter_block (by omega)
                simp only [advance, this, Exec.ok_bind]
                exact ih _ (by simp only; omega) hn
          have h1 : StMemory.iter data = .ok (some ⟨0, (data[0 / 8]'(by omega),
              data[0 / 8 + 1]'(by omega))⟩) := nextIter_block (by omega)
          refine h k .oobRead ?_
          rw [h1, Exec.ok_bind]
          exact hw k _ (by simp) h0
  · rintro ⟨h0, h2⟩ n u
    have hl : 0 < data.length := List.length_pos_iff.mpr h0
    have hw : ∀ n (i : ItMemory), i.offset % 16 = 0 →
        advance (ItMemory.impl data) n i ≠ .ub u := by
      intro n
      induction n with
      | zero => intro i _ h; cases h
      | succ n ih =>
        intro i hi
        by_cases he : (i.offset + 16) / 8 + 1 < data.length
        · have : (ItMemory.impl data).next i = _ := nextIter_block he
          simp only [advance, this, Exec.ok_bind]
          exact ih _ (by simp only; omega)
        · have : (ItMemory.impl data).next i = .ok none := by
            simp only [ItMemory.impl, ItMemory.next, if_true, StMemory.nextIter]
            rw [if_pos (by omega)]
          simp [advance, this]
    have h1 : StMemory.iter data = .ok (some ⟨0, (data[0 / 8]'(by omega),
        data[0 / 8 + 1]'(by omega))⟩) := nextIter_block (by omega)
    rw [h1, Exec.ok_bind]
    exact hw n _ rfl

/-- Three words: `next()` of the first block reads past the end. -/
example : (ItMemory.impl [1, 2, 3]).next ⟨0, (1, 2)⟩ = .ub .oobRead := by decide

/-! ### C49 -/

/-- C49 is false of the code: once the stream is gone, `next()` and `last()` of every iterator of it
dereference null, for every vector and every position. -/
theorem C49_stream_gone (data : List W64) (i : ItMemory) :
    (ItMemory.impl data false).next i = .ub .nullDeref ∧
      (ItMemory.impl data false).last i = .ub .nullDeref := ⟨rfl, rfl⟩

/-- C49 is false of the code, and also the iterators that wrap such an iterator: `Imit` and
`StCTREncrypted` over it. -/
theorem C49_stream_gone_wrapped (m : Machine) (data : List W64) (i : ItMemory) (key : Key) (c : Blk)
    (fuel : Nat) :
    (ItCTR.impl m (ItMemory.impl data false)).next ⟨some i, key, c⟩ = .ub .nullDeref ∧
    (ItCTR.impl m (ItMemory.impl data false)).last ⟨some i, key, c⟩ = .ub .nullDeref ∧
    Imit.value m (ItMemory.impl data false) (.ok (some i)) (fuel + 1) key = .ub .nullDeref :=
  ⟨rfl, rfl, rfl⟩

/-- C49 is false of the code: whatever the program did before, once it has destroyed the last pointer
to the stream, `next()` and `last()` of every iterator it still holds dereference null. -/
theorem C49_history_stream_gone (data : List W64) (ops : List SessionOp) (s : Session)
    (_ : Session.run data ⟨1, []⟩ ops = .ok s) (hgone : s.owners = 0) (k : Nat)
    (hk : k < s.iters.length) :
    Session.run data s [.next k] = .ub .nullDeref ∧ Session.run data s [.last k] = .ub .nullDeref := by
  have h : s.iters[k]? = some s.iters[k] := List.getElem?_eq_getElem hk
  constructor <;>
    simp [Session.run, Session.step, h, hgone, ItMemory.impl, ItMemory.next]

example := C49_history_stream_gone [1, 2, 3, 4] [.iter, .next 0, .drop] _ rfl rfl 0 (by decide)

/-- Such histories exist for every vector that has a block: `iter()`, destroy the stream, `next()`. -/
theorem C49_iter_drop_next (data : List W64) (h : 2 ≤ data.length) :
    Session.run data ⟨1, []⟩ [.iter, .drop, .next 0] = .ub .nullDeref := by
  obtain ⟨a, b, r, rfl⟩ : ∃ a b r, data = a :: b :: r := by
    match data, h with
    | a :: b :: r, _ => exact ⟨a, b, r, rfl⟩
  rfl

example := C49_iter_drop_next [1, 2, 3, 4] (by decide)

/-- What is true of C49: over whole blocks, a history of any length and kind in which the program always
holds a pointer to the stream has no undefined behaviour, and every block it can see is a block of the
stream. Missing: histories in which it does not, see above. -/
theorem C49_owned_histories_safe_partial (data : List W64) (hd : data.length % 2 = 0)
    (ops : List SessionOp) (h : AlwaysOwned 1 ops) :
    ∃ s, Session.run data ⟨1, []⟩ ops = .ok s ∧
      ∀ i ∈ s.iters, i.data ∈ wordPairs data := by
  obtain ⟨s, h1, h2⟩ := Session_run_safe data hd ops ⟨1, []⟩ h (by simp)
  exact ⟨s, h1, fun i hi => (h2 i hi).2⟩

/-- The first iterator copied, two more got from it, one of two pointers destroyed. -/
example : AlwaysOwned 1 [.iter, .copy, .next 0, .drop, .next 1, .last 2, .value 0] := by
  simp [AlwaysOwned]

/-- What is true of C49: `value()` and `size()` do not depend on the stream. Missing: `next()` and
`last()`, see `C49_stream_gone`. -/
theorem C49_value_survives_partial (data : List W64) (i : ItMemory) (alive : Bool) :
    (ItMemory.impl data alive).value i = .ok i.data ∧ (ItMemory.impl data alive).size i = .ok 16 :=
  ⟨rfl, rfl⟩

/-! ### C50 -/

/-- C50. `Imit` over a vector of whole blocks is the OMAC of GOST R 34.13-2015, `p` being the blocks
before the last one. -/
theorem C50_mac_conforms (m : Machine) (key : Key) (K : BitVec 256) (hk : Encrypts m key K)
    (data : List W64) (h : data.length % 2 = 0) (p : List (W64 × W64)) (last : W64 × W64)
    (hp : wordPairs data = p ++ [last]) (fuel : Nat) (hf : p.length < fuel) :
    ∃ r, Imit.value m (ItMemory.impl data) (StMemory.iter data) fuel key = .ok r ∧
      join64 r = omac (Spec.Kuz.enc K) (macK1 (Spec.Kuz.enc K) 0x87) (p.map join64)
        (join64 last) := by
  obtain ⟨i, h1, h2⟩ := Shows_memory data h (by rintro rfl; simp [wordPairs] at hp)
  rw [hp] at h2
  obtain ⟨b, e1, ⟨r, e2, e3⟩, -⟩ := Kuz.Imit_build_eq hk p last h2 fuel hf
  rw [if_pos rfl] at e3
  exact ⟨r, by rw [h1]; simp only [Imit.value, e1, Exec.ok_bind, e2], e3⟩

example := C50_mac_conforms .x86 twoHalves _ twoHalves_encrypts [1, 2, 3, 4] rfl [(1, 2)] (3, 4) rfl 2 (by decide)

/-- C50 over any stream (for example an encrypted one): the blocks it shows are authenticated, with the
second auxiliary key if the size of the last block is not 16. (The stream has to have padded it.) -/
theorem C50_mac_any_stream (m : Machine) (key : Key) (K : BitVec 256) (hk : Encrypts m key K)
    (it : IterImpl ι) (size : Nat) (i : ι) (p : List (W64 × W64)) (last : W64 × W64)
    (hs : Shows it size i (p ++ [last])) (fuel : Nat) (hf : p.length < fuel) :
    ∃ r, Imit.value m it (.ok (some i)) fuel key = .ok r ∧
      join64 r = omac (Spec.Kuz.enc K)
        (if size = 16 then macK1 (Spec.Kuz.enc K) 0x87 else macK2 (Spec.Kuz.enc K) 0x87)
        (p.map join64) (join64 last) := by
  obtain ⟨b, e1, ⟨r, e2, e3⟩, -⟩ := Kuz.Imit_build_eq hk p last hs fuel hf
  exact ⟨r, by simp only [Imit.value, e1, Exec.ok_bind, e2], e3⟩

example : wordPairs [1, 2, 3, 4] = [(1, 2)] ++ [(3, 4)] := rfl

/-! ### C51 -/

/-- C51. Messages of whole blocks that differ in exactly one block have different values. -/
theorem C51_one_block_changes_mac (m : Machine) (key : Key) (K : BitVec 256)
    (hk : Encrypts m key K) (before after : List W64) (x y : W64 × W64)
    (hb : before.length % 2 = 0) (ha : after.length % 2 = 0) (hxy : x ≠ y) (fuel : Nat)
    (hf : before.length + after.length ≤ 2 * fuel) :
    Imit.value m (ItMemory.impl (before ++ [x.1, x.2] ++ after))
        (StMemory.iter (before ++ [x.1, x.2] ++ after)) (fuel + 1) key ≠
      Imit.value m (ItMemory.impl (before ++ [y.1, y.2] ++ after))
        (StMemory.iter (before ++ [y.1, y.2] ++ after)) (fuel + 1) key := by
  have hw : ∀ z : W64 × W64, wordPairs (before ++ [z.1, z.2] ++ after) =
      wordPairs before ++ z :: wordPairs after := by
    intro z
    rw [List.append_assoc, wordPairs_append hb]
    rfl
  have hsplit : ∀ z : W64 × W64, ∃ p last, wordPairs (before ++ [z.1, z.2] ++ after) = p ++ [last] := by
    intro z
    rcases List.eq_nil_or_concat (wordPairs (before ++ [z.1, z.2] ++ after)) with h | ⟨q, v, h⟩
    · rw [hw] at h; simp at h
    · exact ⟨q, v, by rw [h]; simp⟩
  have heven : ∀ z : W64 × W64, (before ++ [z.1, z.2] ++ after).length % 2 = 0 := by
    intro z
    simp only [List.length_append, List.length_cons, List.length_nil]
    omega
  have hlen : ∀ (z : W64 × W64) p last, wordPairs (before ++ [z.1, z.2] ++ after) = p ++ [last] →
      p.length < fuel + 1 := by
    intro z p last h
    have := congrArg List.length h
    rw [wordPairs_length] at this
    simp only [List.length_append, List.length_cons, List.length_nil] at this
    omega
  obtain ⟨p, last, hp⟩ := hsplit x
  obtain ⟨q, last', hq⟩ := hsplit y
  obtain ⟨r, e1, e2⟩ := C50_mac_conforms m key K hk _ (heven x) p last hp (fuel + 1) (hlen x p last hp)
  obtain ⟨r', e1', e2'⟩ :=
    C50_mac_conforms m key K hk _ (heven y) q last' hq (fuel + 1) (hlen y q last' hq)
  rw [e1, e1']
  intro e
  cases e
  have h := e2.symm.trans e2'
  have := omac_change (fun _ _ => kuz_enc_injective K) _
    (l := (wordPairs before).map join64) (l' := (wordPairs after).map join64)
    (x := join64 x) (y := join64 y) (last := join64 last) (last' := join64 last')
    (p := p.map join64) (q := q.map join64)
    (by
      have := congrArg (List.map join64) (hp.symm.trans (hw x))
      simpa using this)
    (by
      have := congrArg (List.map join64) (hq.symm.trans (hw y))
      simpa using this) h
  exact hxy (join64_inj this)

example := C51_one_block_changes_mac .x86 twoHalves _ twoHalves_encrypts [1, 2] [3, 4] (5, 6) (5, 7) rfl rfl (by decide) 2
  (by decide)

/-! ### C62 -/

/-- C62 is false of the code: for a message of `n` blocks the block that `Imit` evaluates at the end is
nested at least 164 `n` levels deep. -/
theorem C62_depth_grows (m : Machine) (key : Key) (K : BitVec 256) (hk : Encrypts m key K)
    (it : IterImpl ι) (size : Nat) (i : ι) (p : List (W64 × W64)) (hs : Shows it size i p)
    (fuel : Nat) (hf : p.length ≤ fuel) :
    ∃ b, Imit.build it (.ok (some i)) fuel key = .ok b ∧ 164 * p.length ≤ b.depth := by
  obtain ⟨q, v, rfl⟩ := Shows.split hs
  simp only [List.length_append, List.length_cons, List.length_nil] at hf ⊢
  obtain ⟨b, e1, -, e2, -⟩ := Kuz.Imit_build_eq hk q v hs fuel (by omega)
  exact ⟨b, e1, e2⟩

example := C62_depth_grows .x86 twoHalves _ twoHalves_encrypts _ 16 _ _ fourWords_shows 2 (by decide)

/-- C62 is false of the code: so no bound on the depth holds for all messages. -/
theorem C62_no_bound (m : Machine) (key : Key) (K : BitVec 256) (hk : Encrypts m key K)
    (bound : Nat) :
    ∃ (data : List W64) (b : Blk),
      Imit.build (ItMemory.impl data) (StMemory.iter data) data.length key = .ok b ∧
      bound < b.depth := by
  let data : List W64 := List.replicate (2 * bound + 2) 0
  have hl : data.length = 2 * bound + 2 := by simp [data]
  obtain ⟨i, h1, h2⟩ := Shows_memory data (by omega) (by intro e; rw [e] at hl; simp at hl)
  have hw := wordPairs_length data
  obtain ⟨b, e1, e2⟩ := C62_depth_grows m key K hk _ 16 i _ h2 data.length (by omega)
  exact ⟨data, b, by rw [h1]; exact e1, by omega⟩

example := C62_no_bound .x86 twoHalves _ twoHalves_encrypts 1000000

/-- What is true of C62: the depth is linear in the length of the message, with a constant depending on
the key. Missing: a bound that does not depend on the message. -/
theorem C62_linear_depth_partial (m : Machine) (key : Key) (K : BitVec 256) (hk : Encrypts m key K)
    (it : IterImpl ι) (size : Nat) (i : ι) (p : List (W64 × W64)) (hs : Shows it size i p)
    (fuel : Nat) (hf : p.length ≤ fuel) :
    ∃ b, Imit.build it (.ok (some i)) fuel key = .ok b ∧
      b.depth ≤ 164 * p.length + keyDepth key + 170 := by
  obtain ⟨q, v, rfl⟩ := Shows.split hs
  simp only [List.length_append, List.length_cons, List.length_nil] at hf ⊢
  obtain ⟨b, e1, -, -, e2⟩ := Kuz.Imit_build_eq hk q v hs fuel (by omega)
  exact ⟨b, e1, by omega⟩

example := C62_linear_depth_partial .x86 twoHalves _ twoHalves_encrypts _ 16 _ _ fourWords_shows 2 (by decide)

/-! ### C63 -/

/-- C63 is false of the code: evaluating block number `n` of an encrypted stream evaluates a block
nested more than `n` levels deep, and this is the only block it depends on apart from the plain
text. -/
theorem C63_depth_grows (m : Machine) (key : Key) (it : IterImpl ι) (size : Nat) (i : ι)
    (p : List (W64 × W64)) (hs : Shows it size i p) (iv : BitVec 64) (n : Nat) (hn : n < p.length) :
    ∃ j j' c, StCTREncrypted.iter (.ok (some i)) key iv = .ok (some j) ∧
      advance (ItCTR.impl m it) n j = .ok (some ⟨some j', key, c⟩) ∧ n < c.depth := by
  obtain ⟨j', -, h⟩ := ctr_advance (m := m) hs hn key (.raw 0 iv)
  exact ⟨_, j', _, rfl, h, by rw [repeat_incremented_depth]; simp only [Blk.depth]; omega⟩

example (m : Machine) (key : Key) := C63_depth_grows m key _ 16 _ _ fourWords_shows 7 1 (by decide)

/-- What is true of C63: the depth of the counter block is exactly `n + 1`. Missing: a bound that does
not depend on `n`. -/
theorem C63_linear_depth_partial (m : Machine) (key : Key) (it : IterImpl ι) (size : Nat) (i : ι)
    (p : List (W64 × W64)) (hs : Shows it size i p) (iv : BitVec 64) (n : Nat) (hn : n < p.length) :
    ∃ j j' c, StCTREncrypted.iter (.ok (some i)) key iv = .ok (some j) ∧
      advance (ItCTR.impl m it) n j = .ok (some ⟨some j', key, c⟩) ∧ c.depth = n + 1 := by
  obtain ⟨j', -, h⟩ := ctr_advance (m := m) hs hn key (.raw 0 iv)
  exact ⟨_, j', _, rfl, h, by rw [repeat_incremented_depth]; simp only [Blk.depth]; omega⟩

example (m : Machine) (key : Key) := C63_linear_depth_partial m key _ 16 _ _ fourWords_shows 7 1 (by decide)

/-! ### C64 -/

/-- C64 is false of the code: where `next()` of the wrapped stream returns null, `next()` of
`StCTREncrypted` returns an iterator that is not null and whose methods all dereference null. -/
theorem C64_end_is_not_null (m : Machine) (key : Key) (it : IterImpl ι) (i : ι) (c : Blk)
    (h : it.next i = .ok none) :
    ∃ j, (ItCTR.impl m it).next ⟨some i, key, c⟩ = .ok (some j) ∧
      (ItCTR.impl m it).value j = .ub .nullDeref ∧ (ItCTR.impl m it).last j = .ub .nullDeref ∧
      (ItCTR.impl m it).size j = .ub .nullDeref ∧ (ItCTR.impl m it).next j = .ub .nullDeref := by
  refine ⟨⟨none, key, .incremented c⟩, ?_, rfl, rfl, rfl, rfl⟩
  simp only [ItCTR.impl, deref, h, Exec.ok_bind]
  rfl

example (m : Machine) (key : Key) := C64_end_is_not_null m key (ItMemory.impl [1, 2]) ⟨0, (1, 2)⟩ (.raw 7 0) rfl

/-- What is true of C64: at the end of a `StMemory` of whole blocks `next()` does return null. -/
theorem C64_memory_end_null_partial (data : List W64) (k : Nat) (hk : 1 ≤ k)
    (hd : data.length = 2 * k) :
    ∃ i, StMemory.iter data = .ok (some i) ∧ advance (ItMemory.impl data) k i = .ok none :=
  C47_memory_end data k hk hd

example : (ItMemory.impl [1, 2]).next ⟨0, (1, 2)⟩ = .ok none := by decide

end Goost.Props
