import Verif.Lemmas.KeyCache
import Verif.Props.MagmaCipher
/-
Properties C07 – C10: Magma keys.
-/
namespace Goost.Props
open Goost.Magma Spec Spec.Magma

/-! ### C07 -/

/-- C07. A key given as 64 hexadecimal digits and a key given as eight native words that denote the
same 256-bit number (first word most significant) are the same key: with any S-box (also one that
throws) their round transforms agree. -/
theorem C07_string_native_agree (s : List Char) (hs : IsHex s) (hl : s.length = 64)
    (ws : List (BitVec 32)) (hw : ws.length = 8) (heq : hexNat s = natOfWords ws)
    (sbox : Sbox) (v : BitVec 32) (i : Int) (hi : 0 ≤ i ∧ i ≤ 7) :
    (LazyKey.ofStringSbox s sbox).transform v i = (LazyKey.ofNative ws sbox).transform v i := by
  obtain ⟨j, rfl⟩ : ∃ j : Fin 8, i = (j.val : Int) := ⟨⟨i.toNat, by omega⟩, by simp; omega⟩
  simp only [LazyKey.ofStringSbox, LazyKey.ofNative, LazyKey,
    KeyCachedData_eq (KeyDataString_eq hs hl), KeyDataNative_eq (show 8 ≤ ws.length by omega),
    heq, native_word hw]

example (sbox : Sbox) := C07_string_native_agree sampleKeyText (by decide) (by decide) [0xffeeddcc, 0xbbaa9988, 0x77665544,
  0x33221100, 0xf0f1f2f3, 0xf4f5f6f7, 0xf8f9fafb, 0xfcfdfeff] rfl (by decide) sbox 5 7 (by decide)

/-- C07. A key given by a container of 32 key bytes that denote the same number (first byte most
significant) is that key too, with the packed S-box of the container. -/
theorem C07_container_native_agree (c : Container) (hk : c.key.length = 32)
    (hsb : c.sbox.length = 64) (ws : List (BitVec 32)) (hw : ws.length = 8)
    (heq : natOfBytes c.key.reverse = natOfWords ws) (v : BitVec 32) (i : Int)
    (hi : 0 ≤ i ∧ i ≤ 7) :
    ∃ key, ECBSource.makeKey c = .ok key ∧ key.isLazy = true ∧
      key.transform v i =
        (LazyKey.ofNative ws (SboxTwisted (SboxNibble (unpacked c.sbox)))).transform v i := by
  obtain ⟨j, rfl⟩ : ∃ j : Fin 8, i = (j.val : Int) := ⟨⟨i.toNat, by omega⟩, by simp; omega⟩
  refine ⟨_, makeKey_eq hk hsb, rfl, ?_⟩
  have e : SboxByte c.sbox = SboxNibble (unpacked c.sbox) := by
    funext v; exact C06_packed_equals_nibble c.sbox hsb v
  have hkw := KeyDataNative_eq (kd := keyWords (BitVec.ofNat 256 (natOfWords ws)))
    (by rw [keyWords_length]; omega) j
  rw [keyWords_get, native_word hw] at hkw
  simp only [LazyKey.ofNative, LazyKey, KeyDataNative_eq (show 8 ≤ ws.length by omega), heq, hkw, e]

/-- The key of the standard in the three forms. -/
example : IsHex sampleKeyText ∧ sampleKeyText.length = 64 ∧
    hexNat sampleKeyText = natOfWords [0xffeeddcc, 0xbbaa9988, 0x77665544, 0x33221100, 0xf0f1f2f3,
      0xf4f5f6f7, 0xf8f9fafb, 0xfcfdfeff] ∧
    natOfBytes ([0xff, 0xee, 0xdd, 0xcc, 0xbb, 0xaa, 0x99, 0x88, 0x77, 0x66, 0x55, 0x44, 0x33, 0x22,
      0x11, 0x00, 0xf0, 0xf1, 0xf2, 0xf3, 0xf4, 0xf5, 0xf6, 0xf7, 0xf8, 0xf9, 0xfa, 0xfb, 0xfc, 0xfd,
      0xfe, 0xff] : List Byte).reverse = hexNat sampleKeyText := by decide

/-! ### C08 -/

/-- C08. A key text of any length other than 64 is rejected at every index. -/
theorem C08_wrong_size_rejected (s : List Char) (h : s.length ≠ 64) (i : Int) :
    KeyDataString s i = .throw (.runtimeError "Wrong key size") := by
  simp [KeyDataString, h]

example := C08_wrong_size_rejected "00".toList (by decide) 3

/-- C08. An index outside 0 … 7 is rejected for every key text of the right length. -/
theorem C08_wrong_index_rejected (s : List Char) (h : s.length = 64) (i : Int)
    (hi : i < 0 ∨ 7 < i) : KeyDataString s i = .throw (.runtimeError "Wrong key index") := by
  simp only [KeyDataString, h, ne_eq, not_true_eq_false, if_false]
  rw [if_pos (by omega)]

example := C08_wrong_index_rejected sampleKeyText (by decide) 8 (by decide)

/-- C08. For a text of 64 hexadecimal digits `key(i)` is the number written by the eight digits from
position `8 i` on. -/
theorem C08_parsed_exactly (s : List Char) (hs : IsHex s) (h : s.length = 64) (i : Nat)
    (hi : i ≤ 7) :
    KeyDataString s i = .ok (BitVec.ofNat 32 (hexNat ((s.drop (8 * i)).take 8))) := by
  have h0 : ¬ ((i : Int) < 0 ∨ (i : Int) > 7) := by omega
  have hlen : ((s.drop (i * 8)).take 8).length = 8 := by simp; omega
  simp only [KeyDataString, h, ne_eq, not_true_eq_false, if_false, h0, Int.toNat_natCast, substr]
  rw [if_pos (by omega), Nat.mul_comm 8 i]
  simp only [Exec.ok_bind]
  exact istreamHex32_eq ((hs.drop _).take _) hlen

example := C08_parsed_exactly sampleKeyText (by decide) (by decide) 7 (by decide)

/-- C08. A `LazyKey` made from a text of the wrong length throws at every use. -/
theorem C08_key_of_wrong_size_rejected (s : List Char) (h : s.length ≠ 64) (v : BitVec 32)
    (i : Int) : (LazyKey.ofString s).transform v i = .throw (.runtimeError "Wrong key size") := by
  simp [LazyKey.ofString, LazyKey.ofStringSbox, LazyKey, KeyCachedData, C08_wrong_size_rejected s h]

example : "00".toList.length ≠ 64 ∧ IsHex sampleKeyText ∧ sampleKeyText.length = 64 := by decide

/-! ### C09 -/

/-- C09 is false of the code. No text of 64 characters, hexadecimal or not, is ever rejected: a use of
the key with an index 0 … 7 does not throw. -/
theorem C09_nothing_is_rejected (s : List Char) (h : s.length = 64) (v : BitVec 32) (i : Int)
    (e : Exn) : (LazyKey.ofString s).transform v i ≠ .throw e := by
  have hk : ∀ j : Int, 0 ≤ j → j ≤ 7 → ∀ e, KeyDataString s j ≠ .throw e := by
    intro j h0 h7 e
    simp only [KeyDataString, h, ne_eq, not_true_eq_false, if_false, substr]
    rw [if_neg (by omega), if_pos (by omega)]
    exact istreamHex32_no_throw _ _
  have hc : KeyCachedData (KeyDataString s) i ≠ .throw e := by
    unfold KeyCachedData
    have go : ∀ (x : Exec W32) (f : W32 → Exec W32), x ≠ .throw e → (∀ a, f a ≠ .throw e) →
        x >>= f ≠ .throw e := by
      intro x f hx hf
      cases x with
      | ok a => exact hf a
      | throw e' => exact hx
      | ub u => simp
      | diverge => simp
    refine go _ _ (hk 0 (by decide) (by decide) e) fun _ => ?_
    refine go _ _ (hk 1 (by decide) (by decide) e) fun _ => ?_
    refine go _ _ (hk 2 (by decide) (by decide) e) fun _ => ?_
    refine go _ _ (hk 3 (by decide) (by decide) e) fun _ => ?_
    refine go _ _ (hk 4 (by decide) (by decide) e) fun _ => ?_
    refine go _ _ (hk 5 (by decide) (by decide) e) fun _ => ?_
    refine go _ _ (hk 6 (by decide) (by decide) e) fun _ => ?_
    refine go _ _ (hk 7 (by decide) (by decide) e) fun _ => ?_
    unfold vgetI vget
    split
    · simp
    · split <;> simp
  simp only [LazyKey.ofString, LazyKey.ofStringSbox, LazyKey]
  cases hk : KeyCachedData (KeyDataString s) i with
  | ok k => simp [SboxR3412_eq]
  | throw e' => rw [hk] at hc; simpa using hc
  | ub u => simp
  | diverge => simp

example := C09_nothing_is_rejected (List.replicate 64 'z') (by decide) 1 5 (.runtimeError "Wrong key data")

/-- C09 is false of the code. In a word of the key text everything from the first character on that is
not a hexadecimal digit is ignored: the word has the value of the digits before it. -/
theorem C09_garbage_is_ignored (s : List Char) (h : s.length = 64) (i : Nat) (hi : i ≤ 7)
    (p r : List Char) (c : Char) (hp : IsHex p) (hp0 : p ≠ []) (hc : hexDigit c = none)
    (hx : c ≠ 'x' ∧ c ≠ 'X') (hw : (s.drop (8 * i)).take 8 = p ++ c :: r) :
    KeyDataString s i = .ok (BitVec.ofNat 32 (hexNat p)) := by
  have h0 : ¬ ((i : Int) < 0 ∨ (i : Int) > 7) := by omega
  have hlen : ((s.drop (8 * i)).take 8).length = 8 := by simp; omega
  simp only [KeyDataString, h, ne_eq, not_true_eq_false, if_false, h0, Int.toNat_natCast, substr]
  rw [if_pos (by omega), Nat.mul_comm i 8, Exec.ok_bind, hw]
  rw [hw] at hlen
  exact istreamHex32_garbage hp hp0 (by simp at hlen; omega) hc hx r

/-- C09 is false of the code, witness: the text of 64 letters `z` is accepted and encrypts every block
exactly as the all-zero key does. -/
theorem C09_malformed_key_accepted (m : Machine) (b : Blk) (v : W32 × W32)
    (hb : b.value m = .ok v) :
    ∃ c, (BlkEncrypted b (some (LazyKey.ofString (List.replicate 64 'z')))).value m = .ok c ∧
      join32 c = Spec.Magma.enc 0 (join32 v) := by
  have hk : ∀ i : Fin 8, KeyDataString (List.replicate 64 'z') (i.val : Int) =
      .ok ((fun _ => (0 : W32)) i) := by decide
  have h := LazyKey_computes (KeyCachedData_eq hk) SboxR3412_eq
  refine ⟨_, BlkEncrypted_value h m hb, ?_⟩
  rw [join32_encP]
  congr 1
  funext i a
  simp [g, keyWord]

example : ((List.replicate 64 'z').drop (8 * 3)).take 8 = "zzzzzzzz".toList ∧
    hexDigit 'z' = none := by decide
/-- A key text with a typing error in its second word. -/
example : KeyDataString
    "ffeeddccbbag9988776655443322110ff0f1f2f3f4f5f6f7f8f9fafbfcfdfeff".toList 1 =
      .ok 0xbba :=
  C09_garbage_is_ignored _ (by decide) 1 (by decide) "bba".toList "9988".toList 'g' (by decide)
    (by decide) (by decide) (by decide) (by decide)

/-- What remains of C09: a text of the wrong length is rejected. Missing: texts of 64 characters
with characters that are not digits; for these the property is false, see
`C09_nothing_is_rejected`. -/
theorem C09_malformed_key_rejected_partial (s : List Char) (h : s.length ≠ 64) (m : Machine)
    (b : Blk) (v : W32 × W32) (hb : b.value m = .ok v) :
    (BlkEncrypted b (some (LazyKey.ofString s))).value m =
      .throw (.runtimeError "Wrong key size") := by
  simp [BlkEncrypted, Blk.value, hb, forwardRounds, callKey, C08_key_of_wrong_size_rejected s h]

example (m : Machine) := C09_malformed_key_rejected_partial "00".toList (by decide) m (.raw 1 2) _ rfl

/-! ### C10 -/

/-- C10. Over any wrapped `KeyData` (with hidden state, so that its answers may change from call to
call) and for any history of `key(i)` calls on one `KeyCachedData`, the results and the state of the
wrapped object are those of the ideal memo: the eight words are asked for at the first call, again
after each failure, and never after the first success. -/
theorem C10_history_is_memo {Ω : Type} (kd : Ω → Int → Exec (BitVec 32) × Ω) (o : Ω)
    (hist : List Int) :
    let real := runCalls (fun i s => KeyCachedData.key kd i s.1 s.2) hist ({}, o)
    let ideal := runCalls (fun i s =>
      let (r, s) := memo (readEight kd) s
      (r >>= fun ws => vgetI ws i, s)) hist (none, o)
    real.1 = ideal.1 ∧ real.2.2 = ideal.2.2 := by
  obtain ⟨c', s', o', rs, e1, e2, _⟩ := history_eq kd hist {} none fresh_rel o
  simp only [e1]
  have : (runCalls (fun i s =>
      let (r, s) := memo (readEight kd) s
      (r >>= fun ws => vgetI ws i, s)) hist (none, o)) = (rs, s', o') := e2
  rw [this]
  exact ⟨rfl, rfl⟩

/-- C10. If the wrapped object always gives the same answers, `k i` at `i`, then every call of every
history returns `k i`. -/
theorem C10_cache_unobservable (kd : Int → Exec (BitVec 32)) (k : Fin 8 → BitVec 32)
    (h : ∀ i : Fin 8, kd (i.val : Int) = .ok (k i)) (hist : List (Fin 8)) :
    (runCalls (fun (i : Fin 8) s => KeyCachedData.key (fun (o : Unit) j => (kd j, o)) (i.val : Int)
      s.1 s.2) hist ({}, ())).1 = hist.map fun i => .ok (k i) := by
  have e : ∀ (s : CachedData × Unit), runCalls (fun (i : Fin 8) s =>
      KeyCachedData.key (fun (o : Unit) j => (kd j, o)) (i.val : Int) s.1 s.2) hist s =
      runCalls (fun i s => KeyCachedData.key (fun (o : Unit) j => (kd j, o)) i s.1 s.2)
        (hist.map fun i => (i.val : Int)) s := by
    induction hist with
    | nil => intro s; rfl
    | cons i is ih => intro s; simp only [runCalls, List.map_cons, ih]
  rw [e]
  obtain ⟨c', s', o', rs, e1, e2, _⟩ := history_eq (Ω := Unit) (fun o j => (kd j, o))
    (hist.map fun i => (i.val : Int)) {} none fresh_rel ()
  have e3 := ideal_const_history (Ω := Unit) kd (hist.map fun i => (i.val : Int)) none (by simp) ()
  have e4 : runCalls (idealKey (constData kd)) (hist.map fun i => (i.val : Int)) (none, ()) =
    (rs, s', o') := e2
  rw [e4] at e3
  rw [e1, e3, List.map_map]
  apply List.map_congr_left
  intro i _
  exact KeyCachedData_eq h i

example := C10_cache_unobservable (fun i => .ok (BitVec.ofInt 32 i + 10)) (fun i => BitVec.ofInt 32 i.val + 10) (fun _ => rfl)
  [3, 7, 3]

/-- C10, also for a wrapped object that fails and for any indices: every call returns what the first
one would. (`KeyCachedData kd` is the outcome of the first call, which is what the model of
`LazyKey` uses.) -/
theorem C10_every_call_like_the_first (kd : Int → Exec (BitVec 32)) (hist : List Int) :
    (runCalls (fun i s => KeyCachedData.key (fun (o : Unit) j => (kd j, o)) i s.1 s.2) hist
      ({}, ())).1 = hist.map (KeyCachedData kd) := by
  obtain ⟨c', s', o', rs, e1, e2, _⟩ := history_eq (Ω := Unit) (fun o j => (kd j, o))
    hist {} none fresh_rel ()
  have e3 := ideal_const_history (Ω := Unit) kd hist none (by simp) ()
  have e4 : runCalls (idealKey (constData kd)) hist (none, ()) = (rs, s', o') := e2
  rw [e4] at e3
  rw [e1, e3]

/-- A wrapped object that throws at the first try, answers at the second and would answer
differently later. The first call throws, the second fills the cache, the third does not ask
again. -/
example : runCalls (fun i s => KeyCachedData.key
      (fun (o : Nat) i => (if o = 0 then .throw (.user 1) else .ok (BitVec.ofNat 32 (o + i.toNat)),
        o + 1)) i s.1 s.2) [3, 3, 5] ({}, 0) =
    ([.throw (.user 1), .ok 7, .ok 11], ⟨true, [1, 3, 5, 7, 9, 11, 13, 15]⟩, 9) := by decide

end Goost.Props
