import Verif.Lemmas.Reads
import Verif.Lemmas.Reuse
import Verif.Props.Mac
import Verif.Props.KuzStream
/-
Properties C83 – C85: what authentication codes say about other messages, keys with special structure,
altered ciphertexts.
-/
namespace Goost.Props
open Spec Spec.Magma Spec.Modes
variable {W σ ι : Type}

/-! ### C83 -/

/-- C83. Let `tag` be the gost89 MAC of a message `d` of whole blocks, at least two. For every message
that begins with a block `x` and has more data, the MAC is also that of a longer message: `d`, then
`x ⊕ tag`, then the rest. Nobody has to know the key to tell this message. -/
theorem C83_tags_combine (m : Machine) (key : Magma.Key) (h : Usable key) (d x rest tag : List Byte)
    (hd : d.length % 8 = 0) (h16 : 16 ≤ d.length) (hx : x.length = 8) (hr : rest ≠ [])
    (ht : Gost89.DataImit.value m d (some key) = .ok tag) :
    Gost89.DataImit.value m (d ++ List.zipWith (· ^^^ ·) x tag ++ rest) (some key) =
      Gost89.DataImit.value m (x ++ rest) (some key) := by
  obtain ⟨f, hf⟩ := h.computes
  rw [C29_gost89_mac m key f hf, zeroPadded_whole _ hd h16] at ht
  have ht := (Exec.ok.inj ht).symm
  subst ht
  have hrl : 0 < rest.length := List.length_pos_iff.mpr hr
  have lz : (List.zipWith (· ^^^ ·) x (bytesOf64 (chain (macStep f) 0 (blocks64 d)))).length = 8 := by
    rw [List.length_zipWith, hx, bytesOf64_length]; rfl
  have pad : ∀ (a z : List Byte), a.length % 8 = 0 → z.length = 8 →
      zeroPadded (a ++ z ++ rest) = a ++ (z ++ (rest ++ List.replicate ((8 - rest.length % 8) % 8) 0)) := by
    intro a z ha hz
    rw [zeroPadded, List.append_assoc, List.append_assoc, List.append_assoc]
    congr 4
    simp only [List.length_append]
    omega
  have e1 := pad d _ hd lz
  have e2 := pad [] x rfl hx
  rw [List.nil_append, List.nil_append] at e2
  have step : ∀ c y, macStep f (y ^^^ c ^^^ c) = macStep f (y ^^^ 0) := by
    intro c y
    rw [Magma.xor_cancel]
    exact congrArg _ (BitVec.xor_zero).symm
  rw [C29_gost89_mac m key f hf, C29_gost89_mac m key f hf, e1, e2, blocks64_append_whole hd,
    blocks64_append_whole (by rw [lz]), blocks64_append_whole (a := x) (by rw [hx]), blocks64_eight lz,
    blocks64_eight hx, chain_append, xorBytes_eq hx (bytesOf64_length _), block64_bytesOf64]
  simp only [chain, List.cons_append, List.nil_append, List.foldl_cons, step]

example : let x : List Byte := sampleData.take 8
    sampleData.length % 8 = 0 ∧ 16 ≤ sampleData.length ∧ x.length = 8 ∧ sampleData ≠ [] := by decide
example : Usable sampleGostKey := sampleGostKey_usable

/-! ### C84 -/

/-- C84. If the eight words of a key read the same backwards, encryption and decryption are the same, and
encrypting twice changes nothing. This is so for every substitution. -/
theorem C84_palindromic_key (m : Machine) (ws : List W32) (h8 : ws.length = 8) (hp : ws.reverse = ws)
    (sbox : Magma.Sbox) (hs : ∀ v, ∃ r, sbox v = .ok r) (b : Magma.Blk) (v : W32 × W32)
    (hb : b.value m = .ok v) :
    let key := some (Magma.LazyKey.ofNative ws sbox)
    (Magma.BlkEncrypted b key).value m = (Magma.BlkDecrypted b key).value m ∧
    (Magma.BlkEncrypted (Magma.BlkEncrypted b key) key).value m = .ok v := by
  intro key
  obtain ⟨t, ht⟩ : ∃ t : W32 → W32, ∀ v, sbox v = .ok (t v) :=
    ⟨fun v => (hs v).choose, fun v => (hs v).choose_spec⟩
  have hf := Magma.LazyKey_ofNative_computes (kd := ws) (by omega) ht
  obtain ⟨a0, a1, a2, a3, a4, a5, a6, a7, rfl⟩ : ∃ a0 a1 a2 a3 a4 a5 a6 a7,
      ws = [a0, a1, a2, a3, a4, a5, a6, a7] := by
    match ws, h8 with
    | [a0, a1, a2, a3, a4, a5, a6, a7], _ => exact ⟨a0, a1, a2, a3, a4, a5, a6, a7, rfl⟩
  simp only [List.reverse_cons, List.reverse_nil, List.nil_append, List.cons_append, List.cons.injEq,
    and_true] at hp
  obtain ⟨rfl, rfl, rfl, rfl, -⟩ := hp
  have fb : ∀ v, Magma.fwd (fun i v => t (v + [a7, a6, a5, a4, a4, a5, a6, a7][i.val])) v =
      Magma.bwd (fun i v => t (v + [a7, a6, a5, a4, a4, a5, a6, a7][i.val])) v := fun v => rfl
  have e : (Magma.BlkEncrypted b key).value m = (Magma.BlkDecrypted b key).value m := by
    rw [Magma.BlkEncrypted_value hf m hb, Magma.BlkDecrypted_value hf m hb, Magma.encP, Magma.decP,
      fb, fb]
  refine ⟨e, ?_⟩
  have h1 := Magma.BlkEncrypted_value hf m hb
  have h2 := e.symm.trans h1
  rw [← hb, ← C01_encrypt_decrypt m _ hf.usable b, Magma.BlkEncrypted_value hf m h1,
    Magma.BlkEncrypted_value hf m h2]

example : ([1, 2, 3, 4, 4, 3, 2, 1] : List W32).reverse = [1, 2, 3, 4, 4, 3, 2, 1] := by decide
example (uz : List Byte) (h : uz.length = 64) (v : W32) :
    ∃ r, Magma.SboxTwisted (Magma.SboxByte uz) v = .ok r := ⟨_, Magma.packed_total (by omega) v⟩

/-- The highest bit of a word. -/
private abbrev top : W32 := 0x80000000

/-- C84. Two keys that differ in the highest bits of all their words: encryption under the one of a block
with the highest bits of both halves changed is the encryption under the other, with the same bits
changed. This is so for every substitution. -/
theorem C84_highest_bits (m : Machine) (ws : List W32) (h8 : ws.length = 8)
    (sbox : Magma.Sbox) (hs : ∀ v, ∃ r, sbox v = .ok r) (b b' : Magma.Blk) (v c : W32 × W32)
    (hb : b.value m = .ok v) (hb' : b'.value m = .ok (v.1 ^^^ 0x80000000, v.2 ^^^ 0x80000000))
    (hc : (Magma.BlkEncrypted b (some (Magma.LazyKey.ofNative ws sbox))).value m = .ok c) :
    (Magma.BlkEncrypted b' (some (Magma.LazyKey.ofNative (ws.map (· ^^^ 0x80000000)) sbox))).value m =
      .ok (c.1 ^^^ 0x80000000, c.2 ^^^ 0x80000000) := by
  obtain ⟨t, ht⟩ : ∃ t : W32 → W32, ∀ v, sbox v = .ok (t v) :=
    ⟨fun v => (hs v).choose, fun v => (hs v).choose_spec⟩
  have hf := Magma.LazyKey_ofNative_computes (kd := ws) (by omega) ht
  have hf' := Magma.LazyKey_ofNative_computes (kd := ws.map (· ^^^ 0x80000000)) (by rw [List.length_map]; omega) ht
  have add : ∀ x k : W32, (x ^^^ top) + (k ^^^ top) = x + k := by
    have h : ∀ x : W32, x ^^^ top = x + top := by
      intro x
      apply BitVec.eq_of_toNat_eq
      rw [BitVec.toNat_xor, BitVec.toNat_add]
      have h1 := Nat.xor_mod_two_pow (a := x.toNat) (b := 2 ^ 31) (n := 31)
      have h2 := Nat.xor_div_two_pow (a := x.toNat) (b := 2 ^ 31) (n := 31)
      have e : top.toNat = 2 ^ 31 := rfl
      have hx := x.isLt
      rw [e]
      rw [Nat.mod_self, Nat.xor_zero] at h1
      rw [Nat.div_self (by decide)] at h2
      have : x.toNat / 2 ^ 31 = 0 ∨ x.toNat / 2 ^ 31 = 1 := by omega
      rcases this with h | h <;> rw [h] at h2 <;> simp only [Nat.zero_xor, Nat.xor_self] at h2 <;> omega
    intro x k
    rw [h, h, BitVec.add_assoc, BitVec.add_comm k, ← BitVec.add_assoc top]
    show x + (0#32 + k) = x + k
    rw [BitVec.zero_add]
  have flip : ∀ f f' : Fin 8 → W32 → W32, (∀ i v, f' i (v ^^^ top) = f i v) → ∀ v : W32 × W32,
      Magma.fwd f' (v.1 ^^^ top, v.2 ^^^ top) = ((Magma.fwd f v).1 ^^^ top, (Magma.fwd f v).2 ^^^ top) ∧
      Magma.bwd f' (v.1 ^^^ top, v.2 ^^^ top) = ((Magma.bwd f v).1 ^^^ top, (Magma.bwd f v).2 ^^^ top) := by
    intro f f' h v
    have hx : ∀ a b : W32, a ^^^ top ^^^ b = a ^^^ b ^^^ top := by
      intro a b; rw [BitVec.xor_assoc, BitVec.xor_comm top, ← BitVec.xor_assoc]
    simp only [Magma.fwd, Magma.bwd, h, hx, and_self]
  have hff : ∀ (i : Fin 8) (v : W32),
      t ((v ^^^ top) + (ws.map (· ^^^ (0x80000000 : W32)))[i.val]'(by rw [List.length_map]; omega)) =
        t (v + ws[i.val]'(by omega)) := by
    intro i v
    rw [List.getElem_map]
    exact congrArg t (add v _)
  rw [Magma.BlkEncrypted_value hf m hb] at hc
  have hc := (Exec.ok.inj hc).symm
  subst hc
  rw [Magma.BlkEncrypted_value hf' m hb']
  have fl := flip (fun i v => t (v + ws[i.val]'(by omega)))
    (fun i v => t (v + (ws.map (· ^^^ (0x80000000 : W32)))[i.val]'(by rw [List.length_map]; omega))) hff
  simp only [Magma.encP]
  rw [(fl v).1, (fl _).1, (fl _).1, (fl _).2]
  rfl

example : ((Magma.BlkRaw.ofU64 5).value .iso = .ok (5, 0)) ∧
    (Magma.BlkRaw.ofU64 0x8000000080000005).value .iso = .ok ((5 : W32) ^^^ 0x80000000, (0 : W32) ^^^ 0x80000000) := by
  decide

/-! ### C85 -/

/-- C85. Every byte string of whole blocks is accepted as ciphertext, read in any sizes: what is read has
the same length, and different ciphertexts give different data. -/
theorem C85_anything_decrypts (m : Machine) (rd : σ → Nat → Io W (List Byte × σ)) (key : Magma.Key)
    (h : Usable key) (hl : key.isLazy = true) (ivl ivr iv : BitVec 64) :
    ∃ cfb gost ecbd : List Byte → List Byte, ∀ (s : σ) (w : W) (c : List Byte), c.length % 8 = 0 →
      SuppliesBlocks rd s w c →
      Supplies (Magma.CFBSource.read m rd) (Magma.CFBSource.new s key ivl ivr) w (cfb c) ∧
      Supplies (Gost89.CFBSource.read m rd) (Gost89.CFBSource.new s key iv) w (gost c) ∧
      SuppliesBlocks (Magma.ECBSource.read m rd) (.ecb s key) w (ecbd c) ∧
      (cfb c).length = c.length ∧ (gost c).length = c.length ∧ (ecbd c).length = c.length ∧
      ∀ c', c'.length % 8 = 0 → c ≠ c' → cfb c ≠ cfb c' ∧ gost c ≠ gost c' ∧ ecbd c ≠ ecbd c' := by
  obtain ⟨f, hf⟩ := h.computes
  have whole : ∀ c : List Byte, c.length % 8 = 0 → unblocks64 (blocks64 c) = c := by
    intro c hc
    exact unblocks64_blocks64_whole hc
  refine ⟨fun c => unblocks64 (cfbDec (encF f) [ivl, ivr] (blocks64 c)),
    fun c => unblocks64 (cfbDec (encF f) [iv] (blocks64 c)),
    fun c => unblocks64 (ecb (decF f) (blocks64 c)), ?_⟩
  intro s w c hc hs
  have hs' := hs
  rw [← whole c hc] at hs'
  have len : 8 * (blocks64 c).length = c.length := by rw [blocks64_length]; omega
  refine ⟨C22_magma_supplies m rd s w key f hf hl ivl ivr _ hs', C22_gost89_supplies m rd s w key f hf hl iv _ hs',
    ECBSource_supplies hf hl m rd s w c hs hc, ?_, ?_, ?_, ?_⟩
  · rw [unblocks64_length, cfbDec_length _ _ _ (by simp), len]
  · rw [unblocks64_length, cfbDec_length _ _ _ (by simp), len]
  · rw [unblocks64_length, ecb, List.length_map, len]
  · intro c' hc' hne
    have inj : ∀ a b : List (BitVec 64), unblocks64 a = unblocks64 b → a = b := by
      intro a b e
      have := congrArg blocks64 e
      rwa [blocks64_unblocks64, blocks64_unblocks64] at this
    have back : blocks64 c = blocks64 c' → False := by
      intro e
      have := congrArg unblocks64 e
      rw [whole c hc, whole c' hc'] at this
      exact hne this
    refine ⟨fun e => back ?_, fun e => back ?_, fun e => back ?_⟩
    · have := congrArg (cfbEnc (encF f) [ivl, ivr]) (inj _ _ e)
      rwa [cfbEnc_cfbDec _ _ _ (by simp), cfbEnc_cfbDec _ _ _ (by simp)] at this
    · have := congrArg (cfbEnc (encF f) [iv]) (inj _ _ e)
      rwa [cfbEnc_cfbDec _ _ _ (by simp), cfbEnc_cfbDec _ _ _ (by simp)] at this
    · have := congrArg (List.map (encF f)) (inj _ _ e)
      have id : (encF f ∘ decF f) = id := funext fun x => Magma.encF_decF f x
      rwa [ecb, ecb, List.map_map, List.map_map, id, List.map_id, List.map_id] at this

example : SuppliesBlocks memRead sampleData () sampleData ∧ sampleData.length % 8 = 0 ∧
    Usable sampleGostKey ∧ sampleGostKey.isLazy = true :=
  ⟨(memRead_supplies _ ()).blocks, by decide, sampleGostKey_usable, rfl⟩

/-- C85. If the ciphertext is cut off after some block, the data end there, without any error. -/
theorem C85_truncated (m : Machine) (rd : σ → Nat → Io W (List Byte × σ)) (key : Magma.Key)
    (h : Usable key) (hl : key.isLazy = true) (ivl ivr iv : BitVec 64) (s s' : σ) (w w' : W) (c : List Byte)
    (hc : c.length % 8 = 0) (k : Nat) (hs : SuppliesBlocks rd s w c)
    (hs' : SuppliesBlocks rd s' w' (c.take (8 * k))) :
    (∃ d, Supplies (Magma.CFBSource.read m rd) (Magma.CFBSource.new s key ivl ivr) w d ∧
      Supplies (Magma.CFBSource.read m rd) (Magma.CFBSource.new s' key ivl ivr) w' (d.take (8 * k))) ∧
    (∃ d, Supplies (Gost89.CFBSource.read m rd) (Gost89.CFBSource.new s key iv) w d ∧
      Supplies (Gost89.CFBSource.read m rd) (Gost89.CFBSource.new s' key iv) w' (d.take (8 * k))) ∧
    (∃ d, SuppliesBlocks (Magma.ECBSource.read m rd) (.ecb s key) w d ∧
      SuppliesBlocks (Magma.ECBSource.read m rd) (.ecb s' key) w' (d.take (8 * k))) := by
  obtain ⟨f, hf⟩ := h.computes
  have whole := unblocks64_blocks64_whole hc
  have hc' : (c.take (8 * k)).length % 8 = 0 := by rw [List.length_take]; omega
  have whole' := unblocks64_blocks64_whole hc'
  have e := ECBSource_supplies hf hl m rd s w c hs hc
  have e' := ECBSource_supplies hf hl m rd s' w' _ hs' hc'
  rw [← whole] at hs
  rw [← whole', blocks64_take] at hs'
  refine ⟨⟨_, C22_magma_supplies m rd s w key f hf hl ivl ivr _ hs, ?_⟩,
    ⟨_, C22_gost89_supplies m rd s w key f hf hl iv _ hs, ?_⟩, ⟨_, e, ?_⟩⟩
  · rw [← unblocks64_take, ← cfbDec_take]
    exact C22_magma_supplies m rd s' w' key f hf hl ivl ivr _ hs'
  · rw [← unblocks64_take, ← cfbDec_take]
    exact C22_gost89_supplies m rd s' w' key f hf hl iv _ hs'
  · rw [ecbPlain, blocks64_take] at e'
    rw [ecbPlain, ← unblocks64_take, ecb, ← List.map_take]
    exact e'

example : SuppliesBlocks memRead (sampleData.take (8 * 2)) () (sampleData.take (8 * 2)) :=
  (memRead_supplies _ ()).blocks

/-- C85, ECB: blocks of the ciphertext that are left out, repeated or rearranged (`places` tells which
block comes where) are left out, repeated or rearranged in the data. -/
theorem C85_ecb_rearranged (m : Machine) (rd : σ → Nat → Io W (List Byte × σ)) (key : Magma.Key)
    (h : Usable key) (hl : key.isLazy = true) (s s' : σ) (w w' : W) (c : List (BitVec 64))
    (places : List (Fin c.length)) (hs : SuppliesBlocks rd s w (unblocks64 c))
    (hs' : SuppliesBlocks rd s' w' (unblocks64 (places.map fun i => c[i]))) :
    ∃ (p : List (BitVec 64)) (hp : p.length = c.length),
      SuppliesBlocks (Magma.ECBSource.read m rd) (.ecb s key) w (unblocks64 p) ∧
      SuppliesBlocks (Magma.ECBSource.read m rd) (.ecb s' key) w'
        (unblocks64 (places.map fun i => p[i.val])) := by
  obtain ⟨f, hf⟩ := h.computes
  have e := ECBSource_supplies hf hl m rd s w _ hs (by rw [unblocks64_length]; omega)
  have e' := ECBSource_supplies hf hl m rd s' w' _ hs' (by rw [unblocks64_length]; omega)
  rw [ecbPlain, blocks64_unblocks64] at e e'
  refine ⟨ecb (decF f) c, by rw [ecb, List.length_map], e, ?_⟩
  rw [ecb, List.map_map] at e'
  simp only [ecb, List.getElem_map]
  exact e'

/-- The second block, the first, and the first again. -/
example : ∃ places : List (Fin ([10, 20, 30] : List (BitVec 64)).length),
    places.map (fun i => ([10, 20, 30] : List (BitVec 64))[i]) = [(20 : BitVec 64), 10, 10] ∧
    SuppliesBlocks memRead (unblocks64 [20, 10, 10]) () (unblocks64 [20, 10, 10]) :=
  ⟨[1, 0, 0], rfl, (memRead_supplies _ ()).blocks⟩

private theorem cfbDec_tail (E : BitVec 64 → BitVec 64) (a b c R R' : List (BitVec 64)) (h1 : R ≠ [])
    (h2 : R' ≠ []) (hl : R.length = R'.length) :
    (cfbDec E R (a ++ c)).drop (a.length + R.length) = (cfbDec E R' (b ++ c)).drop (b.length + R.length) := by
  apply List.ext_getElem?
  intro i
  have get : ∀ (S x : List (BitVec 64)), S ≠ [] → S.length = R.length →
      (cfbDec E S (x ++ c))[x.length + R.length + i]? =
        c[R.length + i]?.map fun y => y ^^^ E (c.getD i 0) := by
    intro S x hS hSR
    have e1 : (x ++ c)[x.length + R.length + i]? = c[R.length + i]? := by
      rw [Nat.add_assoc, List.getElem?_append_right (by omega), Nat.add_sub_cancel_left]
    have e2 : (S ++ (x ++ c)).getD (x.length + R.length + i) 0 = c.getD i 0 := by
      rw [← List.append_assoc, List.getD_eq_getElem?_getD,
        List.getElem?_append_right (by rw [List.length_append]; omega), List.getD_eq_getElem?_getD,
        List.length_append]
      congr 2
      omega
    rw [cfbDec_getElem? _ _ _ hS, e1, e2]
  rw [List.getElem?_drop, List.getElem?_drop, get R a h1 rfl, get R' b h2 hl.symm]

/-- C85, CFB: blocks `c` that stand behind other blocks in another ciphertext, even with another
initialization vector, give the same data, from the third of them on (gost89: from the second). -/
theorem C85_cfb_spliced (m : Machine) (rd : σ → Nat → Io W (List Byte × σ)) (key : Magma.Key)
    (h : Usable key) (hl : key.isLazy = true) (ivl ivr ivl' ivr' iv iv' : BitVec 64) (s s' : σ) (w w' : W)
    (a b c : List (BitVec 64)) (hs : SuppliesBlocks rd s w (unblocks64 (a ++ c)))
    (hs' : SuppliesBlocks rd s' w' (unblocks64 (b ++ c))) :
    (∃ d d', Supplies (Magma.CFBSource.read m rd) (Magma.CFBSource.new s key ivl ivr) w d ∧
      Supplies (Magma.CFBSource.read m rd) (Magma.CFBSource.new s' key ivl' ivr') w' d' ∧
      d.drop (8 * (a.length + 2)) = d'.drop (8 * (b.length + 2))) ∧
    (∃ d d', Supplies (Gost89.CFBSource.read m rd) (Gost89.CFBSource.new s key iv) w d ∧
      Supplies (Gost89.CFBSource.read m rd) (Gost89.CFBSource.new s' key iv') w' d' ∧
      d.drop (8 * (a.length + 1)) = d'.drop (8 * (b.length + 1))) := by
  obtain ⟨f, hf⟩ := h.computes
  have tail := cfbDec_tail (encF f) a b c
  refine ⟨⟨_, _, C22_magma_supplies m rd s w key f hf hl ivl ivr _ hs,
      C22_magma_supplies m rd s' w' key f hf hl ivl' ivr' _ hs', ?_⟩,
    ⟨_, _, C22_gost89_supplies m rd s w key f hf hl iv _ hs,
      C22_gost89_supplies m rd s' w' key f hf hl iv' _ hs', ?_⟩⟩
  · rw [unblocks64_drop, unblocks64_drop]
    exact congrArg _ (tail [ivl, ivr] [ivl', ivr'] (by simp) (by simp) rfl)
  · rw [unblocks64_drop, unblocks64_drop]
    exact congrArg _ (tail [iv] [iv'] (by simp) (by simp) rfl)

example : SuppliesBlocks memRead (unblocks64 ([1, 2] ++ [3, 4, 5])) () (unblocks64 ([1, 2] ++ [3, 4, 5])) ∧
    SuppliesBlocks memRead (unblocks64 ([9] ++ [3, 4, 5])) () (unblocks64 ([9] ++ [3, 4, 5])) :=
  ⟨(memRead_supplies _ ()).blocks, (memRead_supplies _ ()).blocks⟩

/-- C85, CTR: bits of the ciphertext that are changed are changed in the data. -/
theorem C85_ctr_changed (m : Machine) (key : Kuz.Key) (K : BitVec 256) (hk : Encrypts m key K)
    (it : Kuz.IterImpl ι) (size : Nat) (i i' : ι) (c c' : List (W64 × W64)) (change : List (BitVec 128))
    (hs : Shows it size i c) (hs' : Shows it size i' c') (iv : BitVec 64)
    (hc : c'.map join64 = List.zipWith (· ^^^ ·) (c.map join64) change) :
    ∃ j p j' p', Kuz.StCTREncrypted.iter (.ok (some i)) key iv = .ok (some j) ∧
      Kuz.StCTREncrypted.iter (.ok (some i')) key iv = .ok (some j') ∧
      Shows (Kuz.ItCTR.impl m it) size j p ∧ Shows (Kuz.ItCTR.impl m it) size j' p' ∧
      p'.map join64 = List.zipWith (· ^^^ ·) (p.map join64) change := by
  obtain ⟨j, p, e1, s1, h1⟩ := C44_ctr_conforms m key K hk it size i c hs iv
  obtain ⟨j', p', e2, s2, h2⟩ := C44_ctr_conforms m key K hk it size i' c' hs' iv
  refine ⟨j, p, j', p', e1, e2, s1, s2, ?_⟩
  rw [h1, h2, hc]
  apply List.ext_getElem?
  intro n
  simp only [ctr, List.getElem?_mapIdx, List.getElem?_zipWith]
  cases (c.map join64)[n]? with
  | none => rfl
  | some x =>
    cases change[n]? with
    | none => rfl
    | some y =>
      show some (x ^^^ y ^^^ _) = some (x ^^^ _ ^^^ y)
      rw [BitVec.xor_assoc, BitVec.xor_comm y, ← BitVec.xor_assoc]

example : (∃ i, Kuz.StMemory.iter [1, 2, 3, 4] = .ok (some i) ∧
      Shows (Kuz.ItMemory.impl [1, 2, 3, 4]) 16 i [(1, 2), (3, 4)]) ∧
    ([(0, 2), (3, 5)] : List (W64 × W64)).map join64 =
      List.zipWith (· ^^^ ·) ([(1, 2), (3, 4)].map join64) [1, 1 <<< 64] :=
  ⟨Shows_memory [1, 2, 3, 4] rfl (by simp), by decide +kernel⟩

end Goost.Props
