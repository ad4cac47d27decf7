import Verif.Lemmas.Codes
import Verif.Lemmas.Reads
import Verif.Props.Mac
import Verif.Props.KuzStream
/-
Property C95: authentication codes of messages with a common ending.
-/
namespace Goost.Props
open Spec Spec.Magma Spec.Modes

/-! ### C95 -/

/-- C95, magma: `a` and `b` are messages of whole blocks, of any length but not empty, and `t` is any
byte string. The codes of `a` and `b` agree exactly if those of `a` followed by `t` and of `b` followed
by `t` do. -/
theorem C95_magma (key : Magma.Key) (h : Usable key) (a b t : List Byte) (ha : a ≠ []) (hb : b ≠ [])
    (ha8 : a.length % 8 = 0) (hb8 : b.length % 8 = 0) :
    ∃ va vb vat vbt, MagmaCode key a va ∧ MagmaCode key b vb ∧ MagmaCode key (a ++ t) vat ∧
      MagmaCode key (b ++ t) vbt ∧ (vat = vbt ↔ va = vb) := by
  obtain ⟨f, hf⟩ := h.computes
  have whole : ∀ d : List Byte, d ≠ [] → d.length % 8 = 0 →
      ∃ p tail, d = unblocks64 p ++ tail ∧ tail.length = 8 := by
    intro d hd hd8
    obtain ⟨p, tail, e, ht, ht8, hp, -⟩ := split_message hd
    have := congrArg List.length e
    rw [List.length_append, unblocks64_length] at this
    have := List.length_pos_iff.2 ht
    exact ⟨p, tail, e, by omega⟩
  obtain ⟨p, x, rfl, hx⟩ := whole a ha ha8
  obtain ⟨p', x', rfl, hx'⟩ := whole b hb hb8
  have hne : ∀ l : List Byte, l.length = 8 → l ≠ [] := by rintro l hl rfl; simp at hl
  obtain ⟨va, ca, ea⟩ := MagmaCode_exists hf p x (hne x hx) (by omega)
  obtain ⟨vb, cb, eb⟩ := MagmaCode_exists hf p' x' (hne x' hx') (by omega)
  by_cases ht : t = []
  · subst ht
    exact ⟨va, vb, va, vb, ca, cb, by rwa [List.append_nil], by rwa [List.append_nil], Iff.rfl⟩
  · obtain ⟨q, y, rfl, hy, hy8, -, -⟩ := split_message ht
    have glue : ∀ (p : List W64) (x : List Byte), x.length = 8 →
        unblocks64 p ++ x ++ (unblocks64 q ++ y) = unblocks64 (p ++ block64 x :: q) ++ y := by
      intro p x hx
      rw [unblocks64_append, unblocks64_cons, bytesOf64_block64 hx]
      simp only [List.append_assoc]
    obtain ⟨vat, cat, eat⟩ := MagmaCode_exists hf (p ++ block64 x :: q) y hy hy8
    obtain ⟨vbt, cbt, ebt⟩ := MagmaCode_exists hf (p' ++ block64 x' :: q) y hy hy8
    refine ⟨va, vb, vat, vbt, ca, cb, by rwa [glue p x hx], by rwa [glue p' x' hx'], ?_⟩
    rw [if_pos hx] at ea
    rw [if_pos hx'] at eb
    have k := omac_common_ending (E := encF f) (fun _ _ h => Goost.Magma.encF_injective f h)
      (macK1 (encF f) 0x1b) (if y.length = 8 then macK1 (encF f) 0x1b else macK2 (encF f) 0x1b)
      p p' q (block64 x) (block64 x') (block64 y)
    rw [← ea, ← eb, ← eat, ← ebt] at k
    exact ⟨fun e => join32_inj (k.1 (by rw [e])), fun e => join32_inj (k.2 (by rw [e]))⟩

example := C95_magma sampleGostKey sampleGostKey_usable sampleData (sampleData.take 8) [1, 2, 3] (by decide) (by decide)
  (by decide) (by decide)

/-- C95, gost89: the same for messages of at least two whole blocks. -/
theorem C95_gost89 (m : Machine) (key : Magma.Key) (h : Usable key) (a b t : List Byte)
    (ha : 16 ≤ a.length) (hb : 16 ≤ b.length) (ha8 : a.length % 8 = 0) (hb8 : b.length % 8 = 0) :
    Gost89.DataImit.value m (a ++ t) (some key) = Gost89.DataImit.value m (b ++ t) (some key) ↔
      Gost89.DataImit.value m a (some key) = Gost89.DataImit.value m b (some key) := by
  obtain ⟨f, hf⟩ := h.computes
  have pad : ∀ d : List Byte, 16 ≤ d.length → d.length % 8 = 0 →
      zeroPadded (d ++ t) = d ++ (t ++ List.replicate ((8 - t.length % 8) % 8) 0) := by
    intro d h1 h2
    simp only [zeroPadded, List.append_assoc, List.length_append]
    congr 3
    omega
  rw [C29_gost89_mac m key f hf, C29_gost89_mac m key f hf, C29_gost89_mac m key f hf,
    C29_gost89_mac m key f hf, pad a ha ha8, pad b hb hb8, zeroPadded_whole a ha8 ha,
    zeroPadded_whole b hb8 hb, blocks64_append_whole ha8, blocks64_append_whole hb8, chain_append,
    chain_append]
  constructor
  · intro e
    rw [chain_injective (fun _ _ => Goost.Magma.macStep_injective f) _ (bytesOf64_inj (Exec.ok.inj e))]
  · intro e
    rw [bytesOf64_inj (Exec.ok.inj e)]

example (m : Machine) := C95_gost89 m sampleGostKey sampleGostKey_usable sampleData (sampleData.take 16) [1, 2, 3] (by decide)
  (by decide) (by decide) (by decide)

/-- C95, kuznyechik: the same for messages in memory, of whole blocks. -/
theorem C95_kuznyechik (m : Machine) (key : Kuz.Key) (K : BitVec 256) (hk : Encrypts m key K)
    (a b t : List W64) (ha : a ≠ []) (hb : b ≠ []) (ha2 : a.length % 2 = 0) (hb2 : b.length % 2 = 0)
    (ht2 : t.length % 2 = 0) (fuel : Nat) (hfa : a.length + t.length ≤ 2 * fuel)
    (hfb : b.length + t.length ≤ 2 * fuel) :
    let code := fun d => Kuz.Imit.value m (Kuz.ItMemory.impl d) (Kuz.StMemory.iter d) fuel key
    ∃ va vb vat vbt, code a = .ok va ∧ code b = .ok vb ∧ code (a ++ t) = .ok vat ∧
      code (b ++ t) = .ok vbt ∧ (vat = vbt ↔ va = vb) := by
  intro code
  have split : ∀ d : List W64, d ≠ [] → d.length % 2 = 0 → ∃ p x, wordPairs d = p ++ [x] := by
    intro d hd hd2
    rcases List.eq_nil_or_concat (wordPairs d) with h | ⟨q, v, h⟩
    · have := congrArg List.length h
      have := List.length_pos_iff.2 hd
      rw [wordPairs_length, List.length_nil] at *
      omega
    · exact ⟨q, v, by rw [h]; simp⟩
  have len : ∀ d : List W64, ∀ p x, wordPairs d = p ++ [x] → p.length + 1 = d.length / 2 := by
    intro d p x e
    rw [← wordPairs_length, e]; simp
  obtain ⟨p, x, ep⟩ := split a ha ha2
  obtain ⟨p', x', ep'⟩ := split b hb hb2
  have l1 := len _ _ _ ep
  have l2 := len _ _ _ ep'
  obtain ⟨va, ca, ea⟩ := C50_mac_conforms m key K hk a ha2 p x ep fuel (by omega)
  obtain ⟨vb, cb, eb⟩ := C50_mac_conforms m key K hk b hb2 p' x' ep' fuel (by omega)
  by_cases ht : t = []
  · subst ht
    exact ⟨va, vb, va, vb, ca, cb, by rw [List.append_nil]; exact ca, by rw [List.append_nil]; exact cb,
      Iff.rfl⟩
  · obtain ⟨q, y, eq⟩ := split t ht ht2
    have l3 := len _ _ _ eq
    obtain ⟨vat, cat, eat⟩ := C50_mac_conforms m key K hk (a ++ t)
      (by rw [List.length_append]; omega) (p ++ x :: q) y
      (by rw [wordPairs_append ha2, ep, eq]; simp) fuel
      (by rw [List.length_append, List.length_cons]; omega)
    obtain ⟨vbt, cbt, ebt⟩ := C50_mac_conforms m key K hk (b ++ t)
      (by rw [List.length_append]; omega) (p' ++ x' :: q) y
      (by rw [wordPairs_append hb2, ep', eq]; simp) fuel
      (by rw [List.length_append, List.length_cons]; omega)
    refine ⟨va, vb, vat, vbt, ca, cb, cat, cbt, ?_⟩
    have k := omac_common_ending (E := Spec.Kuz.enc K) (fun _ _ h => kuz_enc_injective K h)
      (macK1 (Spec.Kuz.enc K) 0x87) (macK1 (Spec.Kuz.enc K) 0x87)
      (p.map join64) (p'.map join64) (q.map join64) (join64 x) (join64 x') (join64 y)
    simp only [List.map_append, List.map_cons] at eat ebt
    rw [← ea, ← eb, ← eat, ← ebt] at k
    exact ⟨fun e => join64_inj (k.1 (by rw [e])), fun e => join64_inj (k.2 (by rw [e]))⟩

example : Usable sampleGostKey ∧ sampleData ≠ [] ∧ sampleData.length % 8 = 0 :=
  ⟨sampleGostKey_usable, by decide, by decide⟩

end Goost.Props
