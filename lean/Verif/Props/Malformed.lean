import Verif.Props.Blocks
import Verif.Props.Kuznyechik
import Verif.Props.Mac
/-
Properties C73 – C75: key words, substitution tables and block texts of a wrong size or form.
-/
namespace Goost.Props
open Goost.Magma Spec Spec.Magma

/-! ### C73 -/

/-- C73 is false of the code: a `LazyKey` can be made from fewer than eight words, and encrypting any
block with it reads outside of them, whatever the substitution is. -/
theorem C73_short_key_undefined (m : Machine) (k : List (BitVec 32)) (hk : k.length < 8) (sbox : Sbox)
    (hs : ∀ x, ∃ y, sbox x = .ok y) (b : Blk) (v : W32 × W32) (hb : b.value m = .ok v) :
    (BlkEncrypted b (some (LazyKey.ofNative k sbox))).value m = .ub .oobRead ∧
    (BlkDecrypted b (some (LazyKey.ofNative k sbox))).value m = .ub .oobRead := by
  let t : W32 → W32 := fun x => (hs x).choose
  have ht : ∀ x, sbox x = .ok (t x) := fun x => (hs x).choose_spec
  have hf : forwardRounds (some (LazyKey.ofNative k sbox)) v = .ub .oobRead := by
    match k, hk with
    | [], _ => simp [forwardRounds, callKey, LazyKey.ofNative, LazyKey, KeyDataNative, vgetI, vget]
    | [_], _ | [_, _], _ | [_, _, _], _ | [_, _, _, _], _ | [_, _, _, _, _], _
    | [_, _, _, _, _, _], _ | [_, _, _, _, _, _, _], _ =>
      simp [forwardRounds, callKey, LazyKey.ofNative, LazyKey, KeyDataNative, vgetI, vget, ht]
  constructor
  · simp [BlkEncrypted, Blk.value, hb, hf]
  · simp [BlkDecrypted, Blk.value, hb, hf]

example (m : Machine) := C73_short_key_undefined m [1, 2, 3] (by decide) SboxR3412 C05_r3412_bijection.1 (.raw 1 2) _ rfl

/-- C73 is false of the code: words after the eighth are ignored, so that different vectors are the
same key. -/
theorem C73_long_key_truncated (m : Machine) (k extra : List (BitVec 32)) (hk : k.length = 8)
    (sbox : Sbox) (b : Blk) :
    (BlkEncrypted b (some (LazyKey.ofNative (k ++ extra) sbox))).value m =
      (BlkEncrypted b (some (LazyKey.ofNative k sbox))).value m ∧
    (BlkDecrypted b (some (LazyKey.ofNative (k ++ extra) sbox))).value m =
      (BlkDecrypted b (some (LazyKey.ofNative k sbox))).value m := by
  have h : ∀ v (i : Int), 0 ≤ i → i ≤ 7 → callKey (some (LazyKey.ofNative (k ++ extra) sbox)) v i =
      callKey (some (LazyKey.ofNative k sbox)) v i := by
    intro v i h0 h7
    have : (k ++ extra)[i.toNat]? = k[i.toNat]? := List.getElem?_append_left (by omega)
    simp only [callKey, LazyKey.ofNative, LazyKey, KeyDataNative, vgetI, vget, this]
  have hf : forwardRounds (some (LazyKey.ofNative (k ++ extra) sbox)) =
      forwardRounds (some (LazyKey.ofNative k sbox)) := by
    funext v
    simp only [forwardRounds, fun v => h v 0 (by decide) (by decide), fun v => h v 1 (by decide) (by decide),
      fun v => h v 2 (by decide) (by decide), fun v => h v 3 (by decide) (by decide),
      fun v => h v 4 (by decide) (by decide), fun v => h v 5 (by decide) (by decide),
      fun v => h v 6 (by decide) (by decide), fun v => h v 7 (by decide) (by decide)]
  have hb : backwardRounds (some (LazyKey.ofNative (k ++ extra) sbox)) =
      backwardRounds (some (LazyKey.ofNative k sbox)) := by
    funext v
    simp only [backwardRounds, fun v => h v 0 (by decide) (by decide), fun v => h v 1 (by decide) (by decide),
      fun v => h v 2 (by decide) (by decide), fun v => h v 3 (by decide) (by decide),
      fun v => h v 4 (by decide) (by decide), fun v => h v 5 (by decide) (by decide),
      fun v => h v 6 (by decide) (by decide), fun v => h v 7 (by decide) (by decide)]
  simp only [BlkEncrypted, BlkDecrypted, Blk.value, hf, hb, and_self]

example (m : Machine) (sbox : Sbox) (b : Blk) := C73_long_key_truncated m [1, 2, 3, 4, 5, 6, 7, 8] [9] rfl sbox b

/-- C73, the part that holds: with eight words and a substitution that always answers, the key is
usable. -/
theorem C73_eight_words_partial (k : List (BitVec 32)) (hk : k.length = 8) (sbox : Sbox)
    (hs : ∀ x, ∃ y, sbox x = .ok y) : Usable (LazyKey.ofNative k sbox) := by
  have ht : ∀ x, sbox x = .ok ((hs x).choose) := fun x => (hs x).choose_spec
  exact (LazyKey_ofNative_computes (t := fun x => (hs x).choose) (by omega) ht).usable

example := C73_eight_words_partial [1, 2, 3, 4, 5, 6, 7, 8] rfl SboxR3412 C05_r3412_bijection.1

/-- C73 is false of the code for containers: an empty key or table, and one that is too long, are
undefined behaviour already when the `ECBSource` is made. -/
theorem C73_container_undefined (c : Container) :
    (c.key = [] → ECBSource.makeKey c = .ub .oobRead) ∧
    (32 < c.key.length → ECBSource.makeKey c = .ub .oobWrite) ∧
    (c.key.length = 32 → c.sbox = [] → ECBSource.makeKey c = .ub .oobRead) ∧
    (c.key.length = 32 → 64 < c.sbox.length → ECBSource.makeKey c = .ub .oobWrite) := by
  have hget : ∀ (l : List Byte) i, i < l.length → ∃ x, vget l i = .ok x := by
    intro l i h
    exact ⟨l[i], by simp [vget, h]⟩
  have hload : ∀ (l : List Byte) i, i + 4 ≤ l.length → ∃ x, load32 l i = .ok x := by
    intro l i h
    obtain ⟨b0, e0⟩ := hget l i (by omega)
    obtain ⟨b1, e1⟩ := hget l (i + 1) (by omega)
    obtain ⟨b2, e2⟩ := hget l (i + 2) (by omega)
    obtain ⟨b3, e3⟩ := hget l (i + 3) (by omega)
    exact ⟨_, by simp only [load32, e0, e1, e2, e3, Exec.ok_bind]; rfl⟩
  have hkey : c.key.length = 32 → ∀ u, copyInto 64 c.sbox = .ub u → ECBSource.makeKey c = .ub u := by
    intro h u hu
    have e : copyInto 32 c.key = .ok c.key := by
      unfold copyInto
      rw [if_neg (by intro e; simp [e] at h), if_pos (by omega), h]
      simp
    obtain ⟨k0, e0⟩ := hload c.key 0 (by omega)
    obtain ⟨k1, e1⟩ := hload c.key 4 (by omega)
    obtain ⟨k2, e2⟩ := hload c.key 8 (by omega)
    obtain ⟨k3, e3⟩ := hload c.key 12 (by omega)
    obtain ⟨k4, e4⟩ := hload c.key 16 (by omega)
    obtain ⟨k5, e5⟩ := hload c.key 20 (by omega)
    obtain ⟨k6, e6⟩ := hload c.key 24 (by omega)
    obtain ⟨k7, e7⟩ := hload c.key 28 (by omega)
    simp [ECBSource.makeKey, e, e0, e1, e2, e3, e4, e5, e6, e7, hu]
  refine ⟨?_, ?_, ?_, ?_⟩
  · intro h
    simp [ECBSource.makeKey, copyInto, h]
  · intro h
    have h0 : c.key ≠ [] := by intro e; simp [e] at h
    simp [ECBSource.makeKey, copyInto, h0, show ¬ c.key.length ≤ 32 by omega]
  · intro h1 h2
    exact hkey h1 _ (by simp [copyInto, h2])
  · intro h1 h2
    have h0 : c.sbox ≠ [] := by intro e; simp [e] at h2
    exact hkey h1 _ (by simp [copyInto, h0, show ¬ c.sbox.length ≤ 64 by omega])

/-- C73 is false of the code for containers: a key or a table that is too short is taken as if zero bytes
followed. -/
theorem C73_container_zero_padded (c : Container) (hk0 : c.key ≠ []) (hk : c.key.length ≤ 32)
    (hs0 : c.sbox ≠ []) (hs : c.sbox.length ≤ 64) :
    ECBSource.makeKey c = ECBSource.makeKey
      ⟨c.key ++ List.replicate (32 - c.key.length) 0, c.sbox ++ List.replicate (64 - c.sbox.length) 0⟩ := by
  have e : ∀ n (l : List Byte), l ≠ [] → l.length ≤ n →
      copyInto n (l ++ List.replicate (n - l.length) 0) = copyInto n l := by
    intro n l h0 hl
    unfold copyInto
    rw [if_neg (by simp [h0]), if_pos (by simp; omega), if_neg h0, if_pos hl]
    simp
    omega
  unfold ECBSource.makeKey
  simp only [e 32 c.key hk0 hk, e 64 c.sbox hs0 hs]

example : (∀ x, ∃ y, SboxR3412 x = .ok y) ∧ [1, 2, 3, 4, 5, 6, 7].length < 8 ∧
    (BlkRaw.ofU64 0x123456789abcdef).value .iso = .ok (0x89abcdef, 0x1234567) :=
  ⟨C05_r3412_bijection.1, by decide, by decide⟩

/-! ### C74 -/

/-- C74 is false of the code: what `SboxNibble` does with tables of any size. It reads outside of a table
exactly if the table is too short for the nibble, and succeeds otherwise. No table is ever rejected. -/
theorem C74_nibble_tables (p : Fin 8 → List Int) (v : BitVec 32) :
    ((∀ i, (nibble v i).toNat < (p i).length) → ∃ r, SboxNibble p v = .ok r) ∧
    ((∃ i, (p i).length ≤ (nibble v i).toNat) → SboxNibble p v = .ub .oobRead) := by
  have hn : ∀ (i : Nat) (l : List Int),
      ((v.extractLsb' (4 * i) 4).toNat < l.length → ∃ r, SboxNibble.transformN v l i = .ok r) ∧
      (l.length ≤ (v.extractLsb' (4 * i) 4).toNat → SboxNibble.transformN v l i = .ub .oobRead) := by
    intro i l
    constructor
    · intro h
      exact ⟨_, by
        simp only [SboxNibble.transformN, nibble_index, vget, List.getElem?_eq_getElem h, Exec.ok_bind]
        rfl⟩
    · intro h
      simp only [SboxNibble.transformN, nibble_index, vget, List.getElem?_eq_none h, Exec.ub_bind]
  have cases : ∀ i : Fin 8, (∃ r, SboxNibble.transformN v (p i) i.val = .ok r) ∨
      SboxNibble.transformN v (p i) i.val = .ub .oobRead := by
    intro i
    by_cases h : (nibble v i).toNat < (p i).length
    · exact Or.inl ((hn i.val (p i)).1 h)
    · exact Or.inr ((hn i.val (p i)).2 (by unfold nibble at h; omega))
  constructor
  · intro h
    obtain ⟨r0, e0⟩ := (hn 0 (p 0)).1 (h 0)
    obtain ⟨r1, e1⟩ := (hn 1 (p 1)).1 (h 1)
    obtain ⟨r2, e2⟩ := (hn 2 (p 2)).1 (h 2)
    obtain ⟨r3, e3⟩ := (hn 3 (p 3)).1 (h 3)
    obtain ⟨r4, e4⟩ := (hn 4 (p 4)).1 (h 4)
    obtain ⟨r5, e5⟩ := (hn 5 (p 5)).1 (h 5)
    obtain ⟨r6, e6⟩ := (hn 6 (p 6)).1 (h 6)
    obtain ⟨r7, e7⟩ := (hn 7 (p 7)).1 (h 7)
    exact ⟨_, by simp only [SboxNibble, e0, e1, e2, e3, e4, e5, e6, e7, Exec.ok_bind]; rfl⟩
  · rintro ⟨i, h⟩
    have hi := (hn i.val (p i)).2 h
    unfold SboxNibble
    have c0 : (∃ r, SboxNibble.transformN v (p 0) 0 = .ok r) ∨
        SboxNibble.transformN v (p 0) 0 = .ub .oobRead := cases 0
    have c1 : (∃ r, SboxNibble.transformN v (p 1) 1 = .ok r) ∨
        SboxNibble.transformN v (p 1) 1 = .ub .oobRead := cases 1
    have c2 : (∃ r, SboxNibble.transformN v (p 2) 2 = .ok r) ∨
        SboxNibble.transformN v (p 2) 2 = .ub .oobRead := cases 2
    have c3 : (∃ r, SboxNibble.transformN v (p 3) 3 = .ok r) ∨
        SboxNibble.transformN v (p 3) 3 = .ub .oobRead := cases 3
    have c4 : (∃ r, SboxNibble.transformN v (p 4) 4 = .ok r) ∨
        SboxNibble.transformN v (p 4) 4 = .ub .oobRead := cases 4
    have c5 : (∃ r, SboxNibble.transformN v (p 5) 5 = .ok r) ∨
        SboxNibble.transformN v (p 5) 5 = .ub .oobRead := cases 5
    have c6 : (∃ r, SboxNibble.transformN v (p 6) 6 = .ok r) ∨
        SboxNibble.transformN v (p 6) 6 = .ub .oobRead := cases 6
    have c7 : (∃ r, SboxNibble.transformN v (p 7) 7 = .ok r) ∨
        SboxNibble.transformN v (p 7) 7 = .ub .oobRead := cases 7
    rcases c0 with ⟨r0, e0⟩ | e0
    case inr => simp only [e0, Exec.ub_bind]
    rcases c1 with ⟨r1, e1⟩ | e1
    case inr => simp only [e0, e1, Exec.ok_bind, Exec.ub_bind]
    rcases c2 with ⟨r2, e2⟩ | e2
    case inr => simp only [e0, e1, e2, Exec.ok_bind, Exec.ub_bind]
    rcases c3 with ⟨r3, e3⟩ | e3
    case inr => simp only [e0, e1, e2, e3, Exec.ok_bind, Exec.ub_bind]
    rcases c4 with ⟨r4, e4⟩ | e4
    case inr => simp only [e0, e1, e2, e3, e4, Exec.ok_bind, Exec.ub_bind]
    rcases c5 with ⟨r5, e5⟩ | e5
    case inr => simp only [e0, e1, e2, e3, e4, e5, Exec.ok_bind, Exec.ub_bind]
    rcases c6 with ⟨r6, e6⟩ | e6
    case inr => simp only [e0, e1, e2, e3, e4, e5, e6, Exec.ok_bind, Exec.ub_bind]
    rcases c7 with ⟨r7, e7⟩ | e7
    case inr => simp only [e0, e1, e2, e3, e4, e5, e6, e7, Exec.ok_bind, Exec.ub_bind]
    exfalso
    match i, hi with
    | 0, hi => rw [show (((0 : Fin 8)).val) = 0 from rfl, e0] at hi; cases hi
    | 1, hi => rw [show (((1 : Fin 8)).val) = 1 from rfl, e1] at hi; cases hi
    | 2, hi => rw [show (((2 : Fin 8)).val) = 2 from rfl, e2] at hi; cases hi
    | 3, hi => rw [show (((3 : Fin 8)).val) = 3 from rfl, e3] at hi; cases hi
    | 4, hi => rw [show (((4 : Fin 8)).val) = 4 from rfl, e4] at hi; cases hi
    | 5, hi => rw [show (((5 : Fin 8)).val) = 5 from rfl, e5] at hi; cases hi
    | 6, hi => rw [show (((6 : Fin 8)).val) = 6 from rfl, e6] at hi; cases hi
    | 7, hi => rw [show (((7 : Fin 8)).val) = 7 from rfl, e7] at hi; cases hi

/-- C74 is false of the code: an entry that is not a nibble is not rejected and changes other nibbles of
the result (here table 0 is constantly 16 and the others map everything to 0). -/
theorem C74_entries_spill (v : BitVec 32) :
    SboxNibble (fun i => if i = 0 then List.replicate 16 16 else List.replicate 16 0) v = .ok 0x10 := by
  have h : ∀ (x : Int) (n : Nat), SboxNibble.transformN v (List.replicate 16 x) n =
      .ok (BitVec.ofInt 32 x <<< (n * 4)) := by
    intro x n
    have hx := (v.extractLsb' (4 * n) 4).isLt
    simp only [SboxNibble.transformN, nibble_index, vget]
    rw [List.getElem?_replicate, if_pos hx]
    rfl
  simp only [SboxNibble, if_pos, if_neg (by decide : ¬ (1 : Fin 8) = 0), if_neg (by decide : ¬ (2 : Fin 8) = 0),
    if_neg (by decide : ¬ (3 : Fin 8) = 0), if_neg (by decide : ¬ (4 : Fin 8) = 0),
    if_neg (by decide : ¬ (5 : Fin 8) = 0), if_neg (by decide : ¬ (6 : Fin 8) = 0),
    if_neg (by decide : ¬ (7 : Fin 8) = 0), h, Exec.ok_bind]
  rfl

/-- C74, packed tables: false of the code for tables of fewer than 64 bytes: the substitution of
0xffffffff reads outside of the table. -/
theorem C74_packed_short_undefined (uz : List Byte) (h : uz.length < 64) :
    SboxByte uz 0xffffffff = .ub .oobRead := by
  have tab : ∀ (o : Nat) (x : BitVec 32), (x.sshiftRight 4 &&& 0xf).toNat = 15 →
      (x &&& 0xf).toNat = 15 → (60 + o < uz.length → ∃ r, SboxByte64Tab uz o x = .ok r) ∧
      (uz.length ≤ 60 + o → SboxByte64Tab uz o x = .ub .oobRead) := by
    intro o x h1 h2
    constructor
    · intro hl
      exact ⟨_, by
        simp only [SboxByte64Tab, vget, h1, h2, show 15 * 4 + o = 60 + o by omega,
          List.getElem?_eq_getElem hl, Exec.ok_bind]
        rfl⟩
    · intro hl
      simp only [SboxByte64Tab, vget, h1, show 15 * 4 + o = 60 + o by omega,
        List.getElem?_eq_none hl, Exec.ub_bind]
  obtain ⟨a0, b0⟩ := tab 0 0xffffffff (by decide) (by decide)
  obtain ⟨a1, b1⟩ := tab 1 ((0xffffffff : BitVec 32) >>> 8) (by decide) (by decide)
  obtain ⟨a2, b2⟩ := tab 2 ((0xffffffff : BitVec 32) >>> 16) (by decide) (by decide)
  obtain ⟨a3, b3⟩ := tab 3 ((0xffffffff : BitVec 32) >>> 24) (by decide) (by decide)
  unfold SboxByte SboxByte.ofTabs
  by_cases h0 : 60 < uz.length
  · obtain ⟨r0, e0⟩ := a0 h0
    by_cases h1 : 61 < uz.length
    · obtain ⟨r1, e1⟩ := a1 h1
      by_cases h2 : 62 < uz.length
      · obtain ⟨r2, e2⟩ := a2 h2
        simp only [e0, e1, e2, b3 (by omega), Exec.ok_bind, Exec.ub_bind]
      · simp only [e0, e1, b2 (by omega), Exec.ok_bind, Exec.ub_bind]
    · simp only [e0, b1 (by omega), Exec.ok_bind, Exec.ub_bind]
  · simp only [b0 (by omega), Exec.ub_bind]

example := C74_packed_short_undefined (List.replicate 63 0x6c) (by decide)

/-- C74, packed tables: bytes after the 64th are ignored. -/
theorem C74_packed_long_truncated (uz extra : List Byte) (h : uz.length = 64) (v : BitVec 32) :
    SboxByte (uz ++ extra) v = SboxByte uz v := by
  have get : ∀ i, i < 64 → vget (uz ++ extra) i = vget uz i := by
    intro i hi
    simp only [vget]
    rw [List.getElem?_append_left (by omega)]
  have nib : ∀ x : BitVec 32, (x &&& 0xf).toNat < 16 := by
    intro x
    rw [BitVec.toNat_and]
    exact Nat.lt_of_le_of_lt Nat.and_le_right (by decide)
  have tab : ∀ o, o < 4 → SboxByte64Tab (uz ++ extra) o = SboxByte64Tab uz o := by
    intro o ho
    funext x
    have h1 := nib (x.sshiftRight 4)
    have h2 := nib x
    simp only [SboxByte64Tab]
    rw [get _ (by omega), get _ (by omega)]
  simp only [SboxByte, tab 0 (by decide), tab 1 (by decide), tab 2 (by decide), tab 3 (by decide)]

example := C74_packed_long_truncated (List.replicate 64 0x6c) [1, 2] (by decide) 0x12345678

/-- C74, the part that holds: eight tables of 16 nibbles, and 64 packed bytes, always answer. (What they
answer is C05 and C06.) -/
theorem C74_well_formed_partial (v : BitVec 32) :
    (∀ p : Fin 8 → List Int, (∀ i, (p i).length = 16) → ∃ r, SboxNibble p v = .ok r) ∧
    (∀ uz : List Byte, uz.length = 64 → ∃ r, SboxByte uz v = .ok r) := by
  refine ⟨fun p hp => (C74_nibble_tables p v).1 fun i => ?_, fun uz hu => ⟨_, SboxByte_eq (by omega) v⟩⟩
  rw [hp]
  exact (nibble v i).isLt

example : ∃ i : Fin 8, ((fun _ => List.replicate 15 0 : Fin 8 → List Int) i).length ≤
    (nibble 0xf0000 i).toNat := ⟨4, by decide⟩

/-! ### C75 -/

/-- C75 is false of the code: of a text of more than 16 (32) digits the first ones are taken and the rest
is ignored, whatever it is. -/
theorem C75_long_text_truncated (m : Machine) (s rest : List Char) :
    (s.length = 16 → (Magma.Blk.str (s ++ rest)).value m = (Magma.Blk.str s).value m) ∧
    (s.length = 32 → (Kuz.Blk.str (s ++ rest)).value m = (Kuz.Blk.str s).value m) := by
  constructor
  · intro h
    have p1 : Magma.padZeros 16 (s ++ rest) = s ++ rest := by
      simp [Magma.padZeros, show 16 - (s.length + rest.length) = 0 by omega]
    have p2 : Magma.padZeros 16 s = s := by simp [Magma.padZeros, show 16 - s.length = 0 by omega]
    have d : ((s ++ rest).drop 8).take 8 = (s.drop 8).take 8 := by
      rw [List.drop_append_of_le_length (by omega), List.take_append_of_le_length (by simp; omega)]
    have t : (s ++ rest).take 8 = s.take 8 := List.take_append_of_le_length (by omega)
    simp only [Magma.Blk.value, p1, p2, substr, if_pos (show 8 ≤ (s ++ rest).length by simp; omega),
      if_pos (show 8 ≤ s.length by omega), d, Nat.zero_le, if_true, List.drop_zero, t]
  · intro h
    have p1 : Kuz.padZeros 32 (s ++ rest) = s ++ rest := by
      simp [Kuz.padZeros, show 32 - (s.length + rest.length) = 0 by omega]
    have p2 : Kuz.padZeros 32 s = s := by simp [Kuz.padZeros, show 32 - s.length = 0 by omega]
    have d : ((s ++ rest).drop 16).take 16 = (s.drop 16).take 16 := by
      rw [List.drop_append_of_le_length (by omega), List.take_append_of_le_length (by simp; omega)]
    have t : (s ++ rest).take 16 = s.take 16 := List.take_append_of_le_length (by omega)
    simp only [Kuz.Blk.value, p1, p2, substr, if_pos (show 16 ≤ (s ++ rest).length by simp; omega),
      if_pos (show 16 ≤ s.length by omega), d, Nat.zero_le, if_true, List.drop_zero, t]

/-- C75 is false of the code, witnesses: in each half everything from the first character on that is not
a digit is ignored, a sign and `0x` are understood. -/
theorem C75_garbage_accepted (m : Machine) :
    (Magma.Blk.str "12 bugs -1 bugs ".toList).value m = .ok (0xffffffff, 0x12) ∧
    (Magma.Blk.str "0x1Fzzzz+2______".toList).value m = .ok (2, 0x1f) ∧
    (Kuz.Blk.str "1, not a number!-1 not a number!".toList).value m = .ok (0xffffffffffffffff, 1) := by
  simp only [Magma.Blk.value, Kuz.Blk.value]
  decide

/-- C75, the part that holds: a text of 16 (32) characters is rejected if one of its halves begins with a
character that is not a digit, a sign or white space. Missing: other malformed texts, see
`C75_garbage_accepted`. -/
theorem C75_unreadable_half_rejected_partial (m : Machine) (s : List Char) (i : Nat) (hi : i < 2)
    (c : Char) (h1 : hexDigit c = none) (h2 : isSpaceC c = false) (h3 : c ≠ '+') (h4 : c ≠ '-') :
    (s.length = 16 → s[8 * i]? = some c → ∃ e, (Magma.Blk.str s).value m = .throw e) ∧
    (s.length = 32 → s[16 * i]? = some c → ∃ e, (Kuz.Blk.str s).value m = .throw e) := by
  refine ⟨fun hl hc => ?_, fun hl hc => Kuz.str_reject m hl i hi c hc h1 h2 h3 h4⟩
  have p2 : Magma.padZeros 16 s = s := by simp [Magma.padZeros, show 16 - s.length = 0 by omega]
  have e : (Magma.Blk.str s).value m = (do
      let first ← stoull16 (s.drop 8)
      let second ← stoull16 (s.take 8)
      return (first.setWidth 32, second.setWidth 32)) := by
    simp only [Magma.Blk.value, p2, substr, if_pos (show 8 ≤ s.length by omega), Nat.zero_le, if_true,
      List.drop_zero, Exec.ok_bind]
    rw [List.take_of_length_le (by simp; omega)]
  have cut : ∀ l : List Char, l[0]? = some c → stoull16 l = .throw .invalidArgument := by
    intro l hl
    cases l with
    | nil => simp at hl
    | cons a l =>
      simp only [List.getElem?_cons_zero, Option.some.injEq] at hl
      subst hl
      exact stoull16_reject l h1 h2 h3 h4
  rw [e]
  by_cases h0 : i = 0
  · subst h0
    rcases stoull16_throw (s.drop 8) with ⟨x, ex⟩ | ⟨x, ex⟩
    · refine ⟨.invalidArgument, ?_⟩
      rw [ex, Exec.ok_bind, cut (s.take 8) (by rw [List.getElem?_take_of_lt (by omega)]; exact hc)]
      rfl
    · exact ⟨x, by rw [ex]; rfl⟩
  · obtain rfl : i = 1 := by omega
    refine ⟨.invalidArgument, ?_⟩
    rw [cut (s.drop 8) (by rw [List.getElem?_drop]; exact hc)]
    rfl

example : hexDigit 'g' = none ∧ isSpaceC 'g' = false ∧ "00000000g0000000".toList.length = 16 ∧
    "00000000g0000000".toList[8 * 1]? = some 'g' := by decide

end Goost.Props
