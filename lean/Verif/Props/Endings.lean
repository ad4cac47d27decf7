import Verif.Lemmas.Endings
import Verif.Lemmas.OneKey
import Verif.Props.Mac
import Verif.Props.Cfb
import Verif.Props.KuzStream
/-
Property C125: the authentication code tells a full last block from a short one.
-/
namespace Goost.Props
open Spec Spec.Magma Spec.Modes
variable {ι ι' : Type}

/-! ### C125 -/

/-- C125, magma: after the same whole blocks `p`, one message ends in the whole block `x`, the other in `t`, 1 … 7 bytes.
`z` is the encryption of the block of zeros. The codes are equal exactly if the sum of `x` and of `t` filled up with zeros
is the sum of the two auxiliary keys, which are `z` doubled once and twice in the field of the standard. -/
theorem C125_magma_endings (key : Magma.Key) (h : Usable key) (p x t : List Byte) (hp : p.length % 8 = 0)
    (hx : x.length = 8) (ht : t ≠ []) (ht8 : t.length < 8) (z : W32 × W32)
    (hz : (Magma.BlkEncrypted (Magma.BlkRaw.ofU64 0) (some key)).value .x86 = .ok z) :
    ∃ vx vt, MagmaCode key (p ++ x) vx ∧ MagmaCode key (p ++ t) vt ∧
      (vx = vt ↔ block64 x ^^^ block64 (t ++ List.replicate (8 - t.length) 0) =
        double 0x1b (join32 z) ^^^ double 0x1b (double 0x1b (join32 z))) := by
  obtain ⟨f, hf⟩ := h.computes
  obtain ⟨z', hz', ez⟩ := Goost.Magma.BlkEncrypted_ofU64 hf .x86 0
  obtain rfl : z = z' := Exec.ok.inj (hz.symm.trans hz')
  rw [← unblocks64_blocks64_whole hp]
  obtain ⟨vx, cx, ex⟩ := MagmaCode_exists hf (blocks64 p) x (by rintro rfl; simp at hx) (by omega)
  obtain ⟨vt, ct, et⟩ := MagmaCode_exists hf (blocks64 p) t ht (by omega)
  refine ⟨vx, vt, cx, ct, ?_⟩
  rw [if_pos hx] at ex
  rw [if_neg (by omega)] at et
  have k := omac_masks (E := encF f) (fun _ _ h => Goost.Magma.encF_injective f h)
    (macK1 (encF f) 0x1b) (macK2 (encF f) 0x1b) (blocks64 p) (block64 x) (block64 t)
  rw [← ex, ← et] at k
  have k' : vx = vt ↔ join32 vx = join32 vt := ⟨fun e => by rw [e], fun e => join32_inj e⟩
  rw [k', k, block64_zeros, ez]
  simp only [macK2, macK1]
  exact xor_swap_iff _ _ _ _

/-- C125, magma: a message that ends in 1 … 7 bytes, and the message with zeros in place of the missing bytes, have the same
code only if the key encrypts the block of zeros to zeros. -/
theorem C125_magma_filled_up (key : Magma.Key) (h : Usable key) (d : List Byte) (hd : d.length % 8 ≠ 0) (z : W32 × W32)
    (hz : (Magma.BlkEncrypted (Magma.BlkRaw.ofU64 0) (some key)).value .x86 = .ok z) :
    ∃ v v', MagmaCode key d v ∧ MagmaCode key (d ++ List.replicate (8 - d.length % 8) 0) v' ∧
      (v = v' ↔ z = (0, 0)) := by
  obtain ⟨f, hf⟩ := h.computes
  obtain ⟨z', hz', ez⟩ := Goost.Magma.BlkEncrypted_ofU64 hf .x86 0
  obtain rfl : z = z' := Exec.ok.inj (hz.symm.trans hz')
  obtain ⟨p, t, rfl, ht, ht8, -, -⟩ := split_message (d := d) (by rintro rfl; simp at hd)
  have hl : (unblocks64 p ++ t).length % 8 = t.length % 8 := by
    rw [List.length_append, unblocks64_length]; omega
  rw [hl] at hd ⊢
  have ht0 : 0 < t.length := List.length_pos_iff.2 ht
  have hm : t.length % 8 = t.length := by omega
  rw [hm, List.append_assoc]
  obtain ⟨v, c, e⟩ := MagmaCode_exists hf p t ht ht8
  obtain ⟨v', c', e'⟩ := MagmaCode_exists hf p (t ++ List.replicate (8 - t.length) 0) (by simp [ht])
    (by simp; omega)
  refine ⟨v, v', c, c', ?_⟩
  rw [if_neg (by omega)] at e
  rw [if_pos (by simp; omega), block64_zeros] at e'
  have k := omac_masks (E := encF f) (fun _ _ h => Goost.Magma.encF_injective f h)
    (macK2 (encF f) 0x1b) (macK1 (encF f) 0x1b) p (block64 t) (block64 t)
  rw [← e, ← e'] at k
  have k' : v = v' ↔ join32 v = join32 v' := ⟨fun e => by rw [e], fun e => join32_inj e⟩
  rw [k', k]
  have q := macKeys_eq_iff (E := encF f) (B := 0x1b) (by decide) (by decide) fun _ => double64_fixed
  have j : join32 z = 0 ↔ z = (0, 0) :=
    ⟨fun e => join32_inj (e.trans (by decide)), fun e => by rw [e]; decide⟩
  rw [← j, ez, ← q]
  exact ⟨fun e => (xor_left_cancel e).symm, fun e => by rw [e]⟩

/-- C125, magma: the one zero byte that C34 leaves open, which completes a block. It changes the code unless the key
encrypts the block of zeros to zeros. -/
theorem C125_magma_zero_byte (key : Magma.Key) (h : Usable key) (d : List Byte) (hd : d.length % 8 = 7) (z : W32 × W32)
    (hz : (Magma.BlkEncrypted (Magma.BlkRaw.ofU64 0) (some key)).value .x86 = .ok z) :
    ∃ v v', MagmaCode key d v ∧ MagmaCode key (d ++ [0]) v' ∧ (v = v' ↔ z = (0, 0)) := by
  have := C125_magma_filled_up key h d (by omega) z hz
  rwa [hd] at this

/-- A key with a substitution that answers zeros. -/
def flatKey : Magma.Key :=
  Magma.LazyKey.ofNative [1, 2, 3, 4, 5, 6, 7, 8] (Magma.SboxTwisted (Magma.SboxNibble fun _ => List.replicate 16 0))

theorem flatKey_computes : Computes flatKey fun _ _ => 0 := by
  refine Goost.Magma.LazyKey_ofNative_computes (t := fun _ => 0) (by decide) fun v => ?_
  have : Magma.SboxNibble (fun _ => List.replicate 16 0) v = .ok (t (fun _ _ => 0) v) := by
    apply Goost.Magma.SboxNibble_eq
    intro i x
    have : ∀ x : BitVec 4, (List.replicate 16 (0 : Int))[x.toNat]? = some 0 := by decide
    exact this x
  have z : t (fun _ _ => 0) v = 0 := by
    simp only [t]
    decide
  rw [C05_twisted_rotation, this, z]
  rfl

/-- C125, magma: keys that encrypt zeros to zeros do exist, among those with a substitution of the user; under this one a
zero byte at the end is never noticed unless the length of the message was a multiple of 8. -/
theorem C125_exception (d : List Byte) (hd : d.length % 8 ≠ 0) :
    ∃ v, MagmaCode flatKey d v ∧ MagmaCode flatKey (d ++ [0]) v := by
  by_cases h7 : d.length % 8 = 7
  · obtain ⟨z, hz, ez⟩ := Goost.Magma.BlkEncrypted_ofU64 flatKey_computes .x86 0
    obtain ⟨v, v', c, c', e⟩ := C125_magma_zero_byte flatKey flatKey_computes.usable d h7 z hz
    have : z = (0, 0) := join32_inj (ez.trans (by decide))
    rw [← e.2 this] at c'
    exact ⟨v, c, c'⟩
  · obtain ⟨p, t, rfl, ht, ht8, -, -⟩ := split_message (d := d) (by rintro rfl; simp at hd)
    have hl : (unblocks64 p ++ t).length % 8 = t.length % 8 := by
      rw [List.length_append, unblocks64_length]; omega
    rw [hl] at hd h7
    have ht0 : 0 < t.length := List.length_pos_iff.2 ht
    obtain ⟨v, c, e⟩ := MagmaCode_exists flatKey_computes p t ht ht8
    obtain ⟨v', c', e'⟩ := MagmaCode_exists flatKey_computes p (t ++ [0]) (by simp) (by simp; omega)
    rw [if_neg (by omega)] at e
    rw [if_neg (by simp; omega), show block64 (t ++ [0]) = block64 t from block64_zeros t 1, ← e] at e'
    rw [join32_inj e'] at c'
    exact ⟨v, c, by rwa [List.append_assoc]⟩

/-- C125, magma with the key of the standard: the code of a message that ends in 1 … 7 bytes is that of the message filled up
with zeros exactly if the standard encrypts zeros to zeros under this key. -/
theorem C125_magma_standard (s : List Char) (hs : IsHex s) (hl : s.length = 64) (d : List Byte) (hd : d.length % 8 ≠ 0) :
    ∃ v v', MagmaCode (Magma.LazyKey.ofString s) d v ∧
      MagmaCode (Magma.LazyKey.ofString s) (d ++ List.replicate (8 - d.length % 8) 0) v' ∧
      (v = v' ↔ Spec.Magma.enc (BitVec.ofNat 256 (hexNat s)) 0 = 0) := by
  obtain ⟨z, hz, ez⟩ := C03_encrypt_conforms .x86 s hs hl (Magma.BlkRaw.ofU64 0) (0, 0) rfl
  obtain ⟨v, v', c, c', e⟩ := C125_magma_filled_up _ (Magma.LazyKey_ofString_computes hs hl).usable d hd z hz
  refine ⟨v, v', c, c', e.trans ?_⟩
  have : join32 ((0, 0) : W32 × W32) = 0 := by decide
  rw [this] at ez
  rw [← ez]
  exact ⟨fun e => by rw [e]; decide, fun e => join32_inj (e.trans (by decide))⟩

/-- C125, kuznyechik: two streams, of any classes, show the same blocks, but the last block of one is full and that of the
other is not (`size() ≠ 16`). `z` is the encryption of the block of zeros. The codes are equal exactly if `z` is the block of
zeros. -/
theorem C125_kuznyechik (m : Machine) (key : Kuz.Key) (K : BitVec 256) (hk : Encrypts m key K)
    (it : Kuz.IterImpl ι) (it' : Kuz.IterImpl ι') (i : ι) (i' : ι') (size : Nat) (hsize : size ≠ 16)
    (p : List (W64 × W64)) (last : W64 × W64) (hs : Shows it 16 i (p ++ [last])) (hs' : Shows it' size i' (p ++ [last]))
    (fuel : Nat) (hf : p.length < fuel) (z : W64 × W64)
    (hz : (Kuz.BlkEncrypted Kuz.BlkRaw.zero key).value m = .ok z) :
    ∃ r r', Kuz.Imit.value m it (.ok (some i)) fuel key = .ok r ∧
      Kuz.Imit.value m it' (.ok (some i')) fuel key = .ok r' ∧ (r = r' ↔ z = (0, 0)) := by
  obtain ⟨r, c, e⟩ := C50_mac_any_stream m key K hk it 16 i p last hs fuel hf
  obtain ⟨r', c', e'⟩ := C50_mac_any_stream m key K hk it' size i' p last hs' fuel hf
  obtain ⟨z', hz', ez⟩ := hk Kuz.BlkRaw.zero (0, 0) rfl
  obtain rfl : z = z' := Exec.ok.inj (hz.symm.trans hz')
  refine ⟨r, r', c, c', ?_⟩
  rw [if_pos rfl] at e
  rw [if_neg hsize] at e'
  have k := omac_masks (E := Spec.Kuz.enc K) (fun _ _ h => kuz_enc_injective K h)
    (macK1 (Spec.Kuz.enc K) 0x87) (macK2 (Spec.Kuz.enc K) 0x87) (p.map join64) (join64 last) (join64 last)
  rw [← e, ← e'] at k
  have k' : r = r' ↔ join64 r = join64 r' := ⟨fun e => by rw [e], fun e => join64_inj e⟩
  have z0 : join64 ((0, 0) : W64 × W64) = 0 := by decide
  rw [z0] at ez
  have q := macKeys_eq_iff (E := Spec.Kuz.enc K) (B := 0x87) (by decide) (by decide) fun _ => double128_fixed
  have j : join64 z = 0 ↔ z = (0, 0) := ⟨fun e => join64_inj (e.trans z0.symm), fun e => by rw [e, z0]⟩
  rw [k', k, ← j, ez, ← q]
  exact ⟨fun e => xor_left_cancel e, fun e => by rw [e]⟩

example := C125_magma_endings sampleGostKey sampleGostKey_usable (sampleData.take 8) (sampleData.take 8) [1, 2, 3]
  (by decide) (by decide) (by decide) (by decide) _ (Goost.Magma.BlkEncrypted_value sampleGostKey_usable.computes.choose_spec .x86 rfl)
example := C125_magma_filled_up sampleGostKey sampleGostKey_usable (sampleData.take 11) (by decide) _
  (Goost.Magma.BlkEncrypted_value sampleGostKey_usable.computes.choose_spec .x86 rfl)
example := C125_magma_zero_byte sampleGostKey sampleGostKey_usable (sampleData.take 15) (by decide) _
  (Goost.Magma.BlkEncrypted_value sampleGostKey_usable.computes.choose_spec .x86 rfl)
example := C125_exception (sampleData.take 15) (by decide)
example := C125_magma_standard sampleKeyText (by decide) (by decide) (sampleData.take 11) (by decide)
example : Spec.Magma.enc (BitVec.ofNat 256 (hexNat sampleKeyText)) 0 ≠ 0 := by decide +kernel

/-- A stream of one block, for the example. -/
def oneBlock (size : Nat) : Kuz.IterImpl Unit where
  value _ := .ok (3, 4)
  last _ := .ok true
  size _ := .ok size
  next _ := .ok none

example := C125_kuznyechik .x86 twoHalves _ twoHalves_encrypts (oneBlock 16) (oneBlock 5) () () 5 (by decide) []
  (3, 4) ⟨rfl, rfl, rfl⟩ ⟨rfl, rfl, rfl⟩ 1 (by decide) _ (twoHalves_encrypts Kuz.BlkRaw.zero (0, 0) rfl).choose_spec.1

end Goost.Props
