import Verif.Lemmas.Leak
import Verif.Lemmas.KuzSteps
/-
Property C89: what the memory accesses and branches of an encryption reveal.
-/
namespace Goost.Props
open Spec

/-! ### Magma -/

section
open Goost.Magma

/-- The substitution of the code (`sb`) and its version with a log of its accesses (`sl`): the one that
the library uses by default, or any over 8 tables of 16 entries, with or without the rotation, or any over
a packed table of 64 bytes. -/
inductive Substitution : Sbox → SboxL → Prop
  | r3412 : Substitution SboxR3412 SboxR3412L
  | nibble (p : Fin 8 → List Int) (hp : ∀ i, (p i).length = 16) :
    Substitution (SboxNibble p) (SboxNibbleL p)
  | byte (uz : List Byte) (h : uz.length = 64) : Substitution (SboxByte uz) (SboxByteL uz)
  | twisted {sb : Sbox} {sl : SboxL} : Substitution sb sl → Substitution (SboxTwisted sb) (SboxTwistedL sl)

/-- What is observed of a call. -/
def observed {α : Type} (x : Logged α) : List Access := (x []).2

private theorem Substitution.erases {sb : Sbox} {sl : SboxL} (h : Substitution sb sl) :
    ∀ x, Erases (sl x) (sb x) := by
  induction h with
  | r3412 => exact Erases.r3412
  | nibble p _ => exact Erases.nibble p
  | byte uz _ => exact Erases.byte uz
  | twisted _ ih => exact Erases.twisted ih

private theorem nibble_tables (x : W32) : ∀ y ∈ nibbleLog x, y.isTable = true := by
  simp [nibbleLog, Access.isTable]

private theorem byte_tables (x : W32) : ∀ y ∈ byteLog x, y.isTable = true := by
  simp [byteLog, Access.isTable]

private theorem keyWords_inj {K K' : Nat} (h : K < 2 ^ 256) (h' : K' < 2 ^ 256)
    (e : ∀ i : Fin 8, Spec.Magma.keyWord (BitVec.ofNat 256 K) i =
      Spec.Magma.keyWord (BitVec.ofNat 256 K') i) : K = K' := by
  have key : BitVec.ofNat 256 K = BitVec.ofNat 256 K' := by
    apply BitVec.eq_of_getLsbD_eq
    intro j hj
    have := congrArg (BitVec.getLsbD · (j % 32)) (e ⟨7 - j / 32, by omega⟩)
    simp only [Spec.Magma.keyWord, BitVec.getLsbD_extractLsb', Nat.mod_lt j (show 0 < 32 by omega),
      decide_true, Bool.true_and] at this
    rw [show 32 * (7 - (7 - j / 32)) + j % 32 = j by omega] at this
    exact this
  have := congrArg BitVec.toNat key
  simp only [BitVec.toNat_ofNat, Nat.mod_eq_of_lt h, Nat.mod_eq_of_lt h'] at this
  exact this

private theorem Substitution.logs {sb : Sbox} {sl : SboxL} (h : Substitution sb sl) :
    ∃ s a, LogsAs sl s a ∧ (∀ x, (a x).length = 8) ∧ (∀ x y, a x = a y → x = y) ∧
      ∀ x, ∀ y ∈ a x, y.isTable = true := by
  induction h with
  | r3412 =>
    obtain ⟨s, h⟩ := nibble_logs (p := SboxR3412.tables) (by decide)
    exact ⟨_, _, h.twisted, fun _ => rfl, fun _ _ => nibbleLog_inj, nibble_tables⟩
  | nibble p hp =>
    obtain ⟨s, h⟩ := nibble_logs hp
    exact ⟨s, _, h, fun _ => rfl, fun _ _ => nibbleLog_inj, nibble_tables⟩
  | byte uz hu =>
    obtain ⟨s, h⟩ := byte_logs hu
    exact ⟨s, _, h, fun _ => rfl, fun _ _ => byteLog_inj, byte_tables⟩
  | twisted _ ih =>
    obtain ⟨s, a, h, hr⟩ := ih
    exact ⟨_, a, h.twisted, hr⟩

/-- C89. The version with a log is the code: its results are those of the encryption and of the
decryption. -/
theorem C89_log_of_the_code (m : Machine) {sb : Sbox} {sl : SboxL} (h : Substitution sb sl) (kd : KeyData)
    (v : W32 × W32) (w : List Access) :
    (BlkEncryptedL (LazyKeyL kd sl) v w).1 =
      (BlkEncrypted (.raw v.1 v.2) (some (LazyKey kd sb))).value m ∧
    (BlkDecryptedL (LazyKeyL kd sl) v w).1 =
      (BlkDecrypted (.raw v.1 v.2) (some (LazyKey kd sb))).value m :=
  ⟨Erases.encrypted (fun v i => Erases.lazyKey kd h.erases v i) m v w,
   Erases.decrypted (fun v i => Erases.lazyKey kd h.erases v i) m v w⟩

example (m : Machine) (w : List Access) := C89_log_of_the_code m (.twisted (.byte (List.replicate 64 0x6c) (by decide)))
  (KeyDataNative [1, 2, 3, 4, 5, 6, 7, 8]) (9, 10) w

/-- C89 is false: whoever sees which table entries one encryption, or one decryption, of a known block
reads knows the whole key: two keys with the same accesses are the same. -/
theorem C89_magma_reveals_key {sb : Sbox} {sl : SboxL} (h : Substitution sb sl) (kd kd' : KeyData)
    (hk : ∀ i : Nat, i < 8 → ∃ k, kd i = .ok k) (hk' : ∀ i : Nat, i < 8 → ∃ k, kd' i = .ok k)
    (v : W32 × W32)
    (he : observed (BlkEncryptedL (LazyKeyL kd sl) v) = observed (BlkEncryptedL (LazyKeyL kd' sl) v) ∨
      observed (BlkDecryptedL (LazyKeyL kd sl) v) = observed (BlkDecryptedL (LazyKeyL kd' sl) v))
    (i : Nat) (hi : i < 8) : kd i = kd' i := by
  obtain ⟨s, a, hs, hlen, hinj, -⟩ := h.logs
  rcases he with he | he
  · rw [BlkEncryptedL_eq, BlkEncryptedL_eq] at he
    exact key_from_log hs hlen hinj hk hk' _ enc_rest v he i hi
  · rw [BlkDecryptedL_eq, BlkDecryptedL_eq] at he
    exact key_from_log hs hlen hinj hk hk' _ dec_rest v he i hi

/-- C89 is false, for keys from text: equal accesses come from equal numbers. -/
theorem C89_magma_reveals_text_key (s s' : List Char) (hs : IsHex s) (hl : s.length = 64) (hs' : IsHex s')
    (hl' : s'.length = 64) (v : W32 × W32)
    (he : observed (BlkEncryptedL (LazyKeyL (KeyCachedData (KeyDataString s)) SboxR3412L) v) =
      observed (BlkEncryptedL (LazyKeyL (KeyCachedData (KeyDataString s')) SboxR3412L) v)) :
    hexNat s = hexNat s' := by
  have g : ∀ s, IsHex s → s.length = 64 → ∀ i : Fin 8, KeyCachedData (KeyDataString s) (i.val : Int) =
      .ok (Spec.Magma.keyWord (BitVec.ofNat 256 (hexNat s)) i) := fun s hs hl =>
    KeyCachedData_eq (KeyDataString_eq hs hl)
  have key : ∀ i : Fin 8, Spec.Magma.keyWord (BitVec.ofNat 256 (hexNat s)) i =
      Spec.Magma.keyWord (BitVec.ofNat 256 (hexNat s')) i := by
    intro i
    have := C89_magma_reveals_key .r3412 _ _ (fun i hi => ⟨_, g s hs hl ⟨i, hi⟩⟩)
      (fun i hi => ⟨_, g s' hs' hl' ⟨i, hi⟩⟩) v (.inl he) i.val i.isLt
    rw [g s hs hl i, g s' hs' hl' i] at this
    exact Exec.ok.inj this
  have b1 := hexNat_lt s
  have b2 := hexNat_lt s'
  rw [hl] at b1
  rw [hl'] at b2
  exact keyWords_inj (by omega) (by omega) key

/-- The same text twice. -/
example (v : W32 × W32) := C89_magma_reveals_text_key (List.replicate 64 'a') (List.replicate 64 'a')
  (fun c hc => by rw [List.eq_of_mem_replicate hc]; decide) (by simp)
  (fun c hc => by rw [List.eq_of_mem_replicate hc]; decide) (by simp) v rfl

/-- C89, what does hold: the number of accesses is 256 whatever the key and the block are, and none of
the steps is a branch on the data. -/
theorem C89_magma_steps_partial {sb : Sbox} {sl : SboxL} (h : Substitution sb sl) (kd : KeyData)
    (hk : ∀ i : Nat, i < 8 → ∃ k, kd i = .ok k) (v : W32 × W32) :
    ((observed (BlkEncryptedL (LazyKeyL kd sl) v)).length = 256 ∧
      ∀ x ∈ observed (BlkEncryptedL (LazyKeyL kd sl) v), x.isTable = true) ∧
    ((observed (BlkDecryptedL (LazyKeyL kd sl) v)).length = 256 ∧
      ∀ x ∈ observed (BlkDecryptedL (LazyKeyL kd sl) v), x.isTable = true) := by
  obtain ⟨s, a, hs, hlen, -, ht⟩ := h.logs
  refine ⟨⟨?_, ?_⟩, ?_, ?_⟩
  · rw [BlkEncryptedL_eq]
    exact rounds_log_length hs hlen hk _ enc_rest v
  · rw [BlkEncryptedL_eq]
    exact rounds_log_all hs ht hk _ enc_rest v
  · rw [BlkDecryptedL_eq]
    exact rounds_log_length hs hlen hk _ dec_rest v
  · rw [BlkDecryptedL_eq]
    exact rounds_log_all hs ht hk _ dec_rest v

/-- The first accesses of an encryption of the block 0 with a key whose first word is `0x76543210`. -/
example : (observed (BlkEncryptedL (LazyKeyL (KeyDataNative
    [0x76543210, 1, 2, 3, 4, 5, 6, 7]) SboxR3412L) (0, 0))).take 8 =
    [.table 0 0, .table 1 1, .table 2 2, .table 3 3, .table 4 4, .table 5 5, .table 6 6, .table 7 7] := by
  decide +kernel

/-- The key data of the example answers for every index. -/
example (i : Nat) (hi : i < 8) :
    ∃ k, KeyDataNative [0x76543210, 1, 2, 3, 4, 5, 6, 7] i = .ok k := by
  have : ∀ i : Fin 8, ∃ k, KeyDataNative [0x76543210, 1, 2, 3, 4, 5, 6, 7] (i.val : Int) = .ok k := by
    intro i
    have h8 : i.val < 8 := i.isLt
    have : i.val = 0 ∨ i.val = 1 ∨ i.val = 2 ∨ i.val = 3 ∨ i.val = 4 ∨ i.val = 5 ∨ i.val = 6 ∨ i.val = 7 := by
      omega
    rcases this with h | h | h | h | h | h | h | h <;> rw [h] <;> exact ⟨_, rfl⟩
  exact this ⟨i, hi⟩

end

/-! ### Kuznyechik -/

section
open Kuz

/-- What is observed of the encryption of `v` with a key, after the encryption of the blocks in `hist` with
it. -/
def observedK (m : Machine) (key : Key) (hist : List (W64 × W64)) (v : W64 × W64) : List Access :=
  (BlkEncrypted (BlkRaw.ofPair v) key).log m
    (runCalls (fun b c => (BlkEncrypted (BlkRaw.ofPair b) key).valueS m c) hist noneLoaded).2

/-- C89. The substitution and the linear map with a log of their steps are the code: their results are
those of the code, and their logs are the parts that the log of a block is made of. -/
theorem C89_kuznyechik_log_of_the_code (m : Machine) (b : Blk) (c : Caches) (v : W64 × W64) (d : Caches)
    (hb : b.valueS m c = (.ok v, d)) (w : List Access) :
    sValueL v (w ++ b.log m c) = (((Blk.blkS b).valueS m c).1, w ++ (Blk.blkS b).log m c) ∧
    rValueL m v (w ++ b.log m c) = (((Blk.blkR b).valueS m c).1, w ++ (Blk.blkR b).log m c) := by
  constructor
  · rw [sValueL_eq]
    simp only [Blk.valueS, Blk.log, hb, Exec.ok_bind, List.append_assoc]
  · rw [rValueL_eq]
    simp only [Blk.valueS, Blk.log, hb, Exec.ok_bind, List.append_assoc]

example (m : Machine) (c : Caches) (w : List Access) := C89_kuznyechik_log_of_the_code m (.raw 1 2) c _ _ rfl w

private theorem owned {high low : Blk} (hh : Plain high) (hl : Plain low) (v : W64 × W64) :
    Owned (keyOwn (Key.ofBlocks high low) 0 fun _ => high)
      (BlkEncrypted (BlkRaw.ofPair v) (Key.ofBlocks high low)) :=
  Owned.encrypted 0 hh.owned hl.owned trivial

private theorem after {m : Machine} {high low : Blk} {h l : W64 × W64} (hh : Plain high) (hl : Plain low)
    (eh : high.value m = .ok h) (el : low.value m = .ok l) (hist : List (W64 × W64)) {c : Caches}
    (hc : c = (runCalls (fun b c => (BlkEncrypted (BlkRaw.ofPair b) (Key.ofBlocks high low)).valueS m c) hist
      noneLoaded).2) :
    (c (0 + 1) = none ∨ c (0 + 1) = some h) ∧ (c (0 + 2) = none ∨ c (0 + 2) = some l) := by
  have := consistent_after (m := m) _ (owned hh hl) hist (consistent_none m _)
  rw [← hc] at this
  constructor
  · rcases e : c (0 + 1) with - | x
    · exact .inl rfl
    · have := this _ _ e
      rw [show keyOwn (Key.ofBlocks high low) 0 (fun _ => high) (0 + 1) = high from rfl, eh] at this
      rw [Exec.ok.inj this]
      exact .inr rfl
  · rcases e : c (0 + 2) with - | x
    · exact .inl rfl
    · have := this _ _ e
      rw [show keyOwn (Key.ofBlocks high low) 0 (fun _ => high) (0 + 2) = low from rfl, el] at this
      rw [Exec.ok.inj this]
      exact .inr rfl

private theorem reveals {m : Machine} (hm : m.unalignedLoad = true) {p : Access → Bool} (hp : Sees m p)
    {high low high' low' : Blk} {h l h' l' : W64 × W64}
    (hh : Silent m high h) (hl : Silent m low l) (hh' : Silent m high' h') (hl' : Silent m low' l')
    (ph : Plain high) (pl : Plain low) (ph' : Plain high') (pl' : Plain low')
    (eh : high.value m = .ok h) (el : low.value m = .ok l) (eh' : high'.value m = .ok h')
    (el' : low'.value m = .ok l') (hist hist' : List (W64 × W64)) (v : W64 × W64)
    (he : (observedK m (Key.ofBlocks high low) hist v).filter p =
      (observedK m (Key.ofBlocks high' low') hist' v).filter p) : h = h' ∧ l = l' := by
  obtain ⟨h1, h2⟩ := after ph pl eh el hist rfl
  obtain ⟨h1', h2'⟩ := after ph' pl' eh' el' hist' rfl
  exact keys_from_log hm hp hh hl hh' hl' 0 0 v h1 h2 h1' h2' he

/-- C89 is false for Kuznyechik too. Two keys with the same table accesses, or with the same branches,
during the encryption of one known block are the same, whatever was encrypted with them before. -/
theorem C89_kuznyechik_reveals_key (m : Machine) (hm : m.unalignedLoad = true) (h l h' l' : W64 × W64)
    (hist hist' : List (W64 × W64)) (v : W64 × W64)
    (he : (observedK m (Key.ofBlocks (BlkRaw.ofPair h) (BlkRaw.ofPair l)) hist v).filter (·.isTable) =
        (observedK m (Key.ofBlocks (BlkRaw.ofPair h') (BlkRaw.ofPair l')) hist' v).filter (·.isTable) ∨
      (observedK m (Key.ofBlocks (BlkRaw.ofPair h) (BlkRaw.ofPair l)) hist v).filter (!·.isTable) =
        (observedK m (Key.ofBlocks (BlkRaw.ofPair h') (BlkRaw.ofPair l')) hist' v).filter (!·.isTable)) :
    h = h' ∧ l = l' := by
  rcases he with he | he
  · exact reveals hm (.tables m) (.raw m h) (.raw m l) (.raw m h') (.raw m l') trivial trivial trivial trivial
      rfl rfl rfl rfl hist hist' v he
  · exact reveals hm (.branches hm) (.raw m h) (.raw m l) (.raw m h') (.raw m l') trivial trivial trivial
      trivial rfl rfl rfl rfl hist hist' v he

/-- C89 is false for Kuznyechik, for keys from text. -/
theorem C89_kuznyechik_reveals_text_key (m : Machine) (hm : m.unalignedLoad = true) (s s' : List Char)
    (hs : IsHex s) (hl : s.length = 64) (hs' : IsHex s') (hl' : s'.length = 64) (key key' : Key)
    (hk : Key.ofString s = .ok key) (hk' : Key.ofString s' = .ok key') (hist hist' : List (W64 × W64))
    (v : W64 × W64)
    (he : (observedK m key hist v).filter (·.isTable) = (observedK m key' hist' v).filter (·.isTable) ∨
      (observedK m key hist v).filter (!·.isTable) = (observedK m key' hist' v).filter (!·.isTable)) :
    hexNat s = hexNat s' := by
  have of : ∀ s : List Char, s.length = 64 → Key.ofString s =
      .ok (Key.ofBlocks (.str (s.take 32)) (.str ((s.drop 32).take 32))) := by
    intro s hl
    simp [Key.ofString, KeyDataString.high, KeyDataString.low, substr, hl]
  rw [of s hl, Exec.ok.injEq] at hk
  rw [of s' hl', Exec.ok.injEq] at hk'
  subst hk hk'
  obtain ⟨h, eh, gh⟩ := Kuz.str_value m (hs.take 32) (by simp; omega)
  obtain ⟨l, el, gl⟩ := Kuz.str_value m ((hs.drop 32).take 32) (by simp; omega)
  obtain ⟨h', eh', gh'⟩ := Kuz.str_value m (hs'.take 32) (by simp; omega)
  obtain ⟨l', el', gl'⟩ := Kuz.str_value m ((hs'.drop 32).take 32) (by simp; omega)
  have : h = h' ∧ l = l' := by
    rcases he with he | he
    · exact reveals hm (.tables m) (.str eh) (.str el) (.str eh') (.str el') trivial trivial trivial trivial
        eh el eh' el' hist hist' v he
    · exact reveals hm (.branches hm) (.str eh) (.str el) (.str eh') (.str el') trivial trivial trivial trivial
        eh el eh' el' hist hist' v he
  rw [this.1, gh'] at gh
  rw [this.2, gl'] at gl
  have e1 := key_of_halves hl
  have e2 := key_of_halves hl'
  rw [gh, gl, e1] at e2
  have b1 := hexNat_lt s
  have b2 := hexNat_lt s'
  rw [hl] at b1
  rw [hl'] at b2
  have := congrArg BitVec.toNat e2
  simp only [BitVec.toNat_ofNat] at this
  omega

/-- C89, what does hold: the number of steps of an encryption depends neither on the key nor on the block
nor on the blocks encrypted before, only on how many they are. -/
theorem C89_kuznyechik_steps_partial (m : Machine) (hm : m.unalignedLoad = true) (h l h' l' : W64 × W64)
    (hist hist' : List (W64 × W64)) (hl : hist.length = hist'.length) (v v' : W64 × W64) :
    (observedK m (Key.ofBlocks (BlkRaw.ofPair h) (BlkRaw.ofPair l)) hist v).length =
      (observedK m (Key.ofBlocks (BlkRaw.ofPair h') (BlkRaw.ofPair l')) hist' v').length := by
  have value : ∀ (h l v : W64 × W64), ∃ r, (BlkEncrypted (BlkRaw.ofPair v)
      (Key.ofBlocks (BlkRaw.ofPair h) (BlkRaw.ofPair l))).value m = .ok r := by
    intro h l v
    obtain ⟨r, e, -⟩ := encrypt_value (m := m) hm (high := BlkRaw.ofPair h) (low := BlkRaw.ofPair l)
      (b := BlkRaw.ofPair v) ⟨h, rfl, rfl⟩ ⟨l, rfl, rfl⟩ 0 ⟨v, rfl, rfl⟩
    exact ⟨r, e⟩
  exact after_alike (m := m) (m' := m)
    (f := fun v => BlkEncrypted (BlkRaw.ofPair v) (Key.ofBlocks (BlkRaw.ofPair h) (BlkRaw.ofPair l)))
    (f' := fun v => BlkEncrypted (BlkRaw.ofPair v) (Key.ofBlocks (BlkRaw.ofPair h') (BlkRaw.ofPair l')))
    (fun v u => Alike.encrypted (.raw _ _) (.raw _ _) (.raw _ _) 0) (owned trivial trivial)
    (owned trivial trivial) (value h l) (value h' l') hl (consistent_none m _) (consistent_none m _) rfl v v'

example := C89_kuznyechik_steps_partial .x86 rfl (1, 2) (3, 4) (5, 6) (7, 8) [(1, 1), (2, 2)] [(3, 3), (4, 4)] rfl (9, 9) (8, 8)

/-- C89. After the first encryption with a key every encryption has 9 * 16 accesses to the table and
9 * 16 * 256 branches. -/
theorem C89_kuznyechik_count_partial (m : Machine) (hm : m.unalignedLoad = true) (h l : W64 × W64)
    (first : W64 × W64) (hist : List (W64 × W64)) (v : W64 × W64) :
    (observedK m (Key.ofBlocks (BlkRaw.ofPair h) (BlkRaw.ofPair l)) (first :: hist) v).length =
      9 * 16 + 9 * 16 * 256 := by
  refine loaded_length hm _ _ 0 v fun i h1 h2 => ?_
  exact after_loaded (fun v => (Alike.encrypted (.raw h h) (.raw l l) (.raw v v) 0).1)
    (fun v => Loads.encrypted _ _ _ 0 i h1 h2) (owned trivial trivial)
    (fun v => by
      obtain ⟨r, e, -⟩ := encrypt_value (m := m) hm (high := BlkRaw.ofPair h) (low := BlkRaw.ofPair l)
        (b := BlkRaw.ofPair v) ⟨h, rfl, rfl⟩ ⟨l, rfl, rfl⟩ 0 ⟨v, rfl, rfl⟩
      exact ⟨r, e⟩) first hist (consistent_none m _)

/-- The table accesses of the substitution and the first branches of the linear map, of the block 1. -/
example : (Blk.blkR (.blkS (.raw 1 0))).log .x86 noneLoaded =
    .table 0 1 :: List.replicate 15 (.table 0 0) ++
      rLog (0xfcfcfcfcfcfcfcee, 0xfcfcfcfcfcfcfcfc) := by decide +kernel

/-- The branches of one product. -/
example : gmulLog 3 0x81 0x94 = [.branch false, .branch true, .branch false, .branch true, .branch true,
    .branch false] := by decide +kernel

end

end Goost.Props
