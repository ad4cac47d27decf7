import Verif.Lemmas.RekeyMore
/-
Property C129: the key of a stream may be changed between its calls.
-/
namespace Goost.Props
open Goost.Magma Goost.Rekey Spec Spec.Magma Spec.Modes Spec.Rekey
variable {Ω V V' σ τ : Type}

/-- C129: a `LazyKey` over key data and a substitution that consult a state outside follows that state. -/
theorem C129_lazy_key (K : Ω → Fin 8 → BitVec 32) (sub : Ω → BitVec 32 → BitVec 32) :
    Follows (V := V)
      (Live.LazyKey (fun i w => (.ok (K w.1 (Fin.ofNat 8 i.toNat)), w)) fun x w => (.ok (sub w.1 x), w))
      fun ω i x => sub ω (K ω i + x) := by
  refine ⟨rfl, fun x i ω v => ?_⟩
  show (Exec.ok (sub ω (K ω (Fin.ofNat 8 (i.val : Int).toNat) + x)), (ω, v)) = _
  rw [Int.toNat_natCast, Fin.ofNat_val_eq_self]

/-- A key of the standard whose words are taken from a variable of the program (for the examples). -/
def variableKey : Live.Key (BitVec 256 × Unit) :=
  Live.LazyKey (fun i w => (.ok (keyWord w.1 (Fin.ofNat 8 i.toNat)), w))
    fun x w => (.ok ((t pi x).rotateLeft 11), w)

/-- It follows that variable. -/
theorem variableKey_follows :
    Follows variableKey fun (K : BitVec 256) i x => (t pi (keyWord K i + x)).rotateLeft 11 :=
  C129_lazy_key (fun K => keyWord K) fun _ x => (t pi x).rotateLeft 11

/-- Three bytes, a change of the key, fifteen bytes (for the examples). -/
def sampleSteps : List (Step (BitVec 256) (List Byte)) :=
  [.call [1, 2, 3], .change 5, .call [4, 5, 6, 7, 8, 9, 10, 11, 12, 13], .change 7, .call [14, 15, 16, 17, 18]]

/-- A block, a change of the key, two blocks (for the examples). -/
def alignedSteps : List (Step (BitVec 256) (List Byte)) :=
  [.call [1, 2, 3, 4, 5, 6, 7, 8], .change 5, .call [9, 10, 11, 12, 13, 14, 15, 16, 17, 18, 19, 20, 21, 22, 23, 24]]

/-! ### Writing -/

/-- C129 for `magma::CFBSink`: whatever pieces are written and whenever the key is changed in between, every
block is encrypted with the key in force when its last byte is written, and the register goes on. If whole
blocks have been written, `finalize` adds nothing. -/
theorem C129_cfb_sink (m : Machine) (k : Live.Key (Ω × V)) (f : Ω → Fin 8 → BitVec 32 → BitVec 32)
    (hk : Follows k f) (wr : τ → List Byte → Io V τ) (content : τ → V → List Byte)
    (hw : Collects wr content) (l : List (Step Ω (List Byte))) (ω : Ω) (s : τ) (ivl ivr : BitVec 64) (v : V) :
    ∃ t v', writeSteps (Live.CFBSink.write m fun s d => aside (wr s d)) l ⟨s, k, ivl, ivr, []⟩ (ω, v) =
        (.ok t, (stateAfter ω l, v')) ∧
      content t.sink v' = content s v ++
        unblocks64 (cfbEncBy (fun ω => encF (f ω)) [ivl, ivr] (byLast (written ω l))) ∧
      ((written ω l).length % 8 = 0 →
        ∀ w, Live.CFBSink.finalize m (fun s d => aside (wr s d)) t w = (.ok t.sink, w)) := by
  obtain ⟨t, v', h1, h2, h3, h4⟩ := CFBSink_steps m hk wr content hw l ω [] (by simp) s ivl ivr v
  refine ⟨t, v', h1, h2, fun h0 w => ?_⟩
  have : t.plain = [] := List.length_eq_zero_iff.1 (by simp only [List.length_nil] at h4; omega)
  simp only [Live.CFBSink.finalize, this, ne_eq, not_true, if_false]
  rfl

/-- The first block, of which three bytes were written under the key 0, is encrypted with the key 5, the next
one with the key 7; two bytes wait. -/
example : byLast (written (0 : BitVec 256) sampleSteps) =
    [(5, block64 [1, 2, 3, 4, 5, 6, 7, 8]), (7, block64 [9, 10, 11, 12, 13, 14, 15, 16])] := rfl

example (m : Machine) := C129_cfb_sink m _ _ variableKey_follows memWrite _ memWrite_collects sampleSteps 0
  [] 1 2 ()

/-- C129 for `gost89::CFBSink`. -/
theorem C129_gost89_cfb_sink (m : Machine) (k : Live.Key (Ω × V)) (f : Ω → Fin 8 → BitVec 32 → BitVec 32)
    (hk : Follows k f) (wr : τ → List Byte → Io V τ) (content : τ → V → List Byte)
    (hw : Collects wr content) (l : List (Step Ω (List Byte))) (ω : Ω) (s : τ) (iv : BitVec 64) (v : V) :
    ∃ t v', writeSteps (Live.Gost89.CFBSink.write m fun s d => aside (wr s d)) l ⟨s, k, iv, []⟩ (ω, v) =
        (.ok t, (stateAfter ω l, v')) ∧
      content t.sink v' = content s v ++
        unblocks64 (cfbEncBy (fun ω => encF (f ω)) [iv] (byLast (written ω l))) ∧
      ((written ω l).length % 8 = 0 →
        ∀ w, Live.Gost89.CFBSink.finalize m (fun s d => aside (wr s d)) t w = (.ok t.sink, w)) := by
  obtain ⟨t, v', h1, h2, h3, h4⟩ := gost89_CFBSink_steps m hk wr content hw l ω [] (by simp) s iv v
  refine ⟨t, v', h1, h2, fun h0 w => ?_⟩
  have : t.plain = [] := List.length_eq_zero_iff.1 (by simp only [List.length_nil] at h4; omega)
  simp only [Live.Gost89.CFBSink.finalize, this, ne_eq, not_true, if_false]
  rfl

example (m : Machine) := C129_gost89_cfb_sink m _ _ variableKey_follows memWrite _ memWrite_collects
  sampleSteps 0 [] 1 ()

/-- C129 for `ECBSink`: every block is encrypted with the key in force when its piece is written. -/
theorem C129_ecb_sink (k : Live.Key (Ω × V)) (f : Ω → Fin 8 → BitVec 32 → BitVec 32)
    (hk : Follows k f) (wr : τ → List Byte → Io V τ) (content : τ → V → List Byte)
    (hw : Collects wr content) (l : List (Step Ω (List Byte)))
    (hl : ∀ d, .call d ∈ l → d.length % 8 = 0) (ω : Ω) (s : τ) (v : V) :
    ∃ s' v', writeSteps (Live.ECBSink.write fun s d => aside (wr s d)) l ⟨s, k⟩ (ω, v) =
        (.ok ⟨s', k⟩, (stateAfter ω l, v')) ∧
      content s' v' = content s v ++
        unblocks64 ((byLast (written ω l)).map fun x => encF (f x.1) x.2) :=
  ECBSink_steps hk wr content hw l hl ω s v

example := C129_ecb_sink _ _ variableKey_follows memWrite _ memWrite_collects alignedSteps
  (by simp [alignedSteps]) 0 [] ()

/-! ### Reading -/

/-- C129 for `magma::CFBSource`: whatever sizes are asked for and whenever the key is changed in between,
every block is decrypted with the key in force when its first byte is asked for. -/
theorem C129_cfb_source (m : Machine) (k : Live.Key (Ω × V)) (f : Ω → Fin 8 → BitVec 32 → BitVec 32)
    (hk : Follows k f) (rd : σ → Nat → Io V (List Byte × σ)) (s : σ) (v : V) (c : List Byte)
    (hs : SuppliesBlocks rd s v c) (hc : c.length % 8 = 0) (l : List (Step Ω Nat)) (ω : Ω)
    (ivl ivr : BitVec 64) :
    ∃ t v', readSteps (Live.CFBSource.read m fun s n => aside (rd s n)) l ⟨s, k, ivl, ivr, []⟩ (ω, v) =
      (.ok ((unblocks64 (cfbDecBy (fun ω => encF (f ω)) [ivl, ivr]
          ((byFirst (demanded ω l)).zip (blocks64 c)))).take (demanded ω l).length, t),
        (stateAfter ω l, v')) := by
  obtain ⟨R, h0, hR⟩ := hs
  exact CFBSource_steps m hk hR l ω s v c [] ivl ivr h0 hc

/-- The first block is decrypted with the key 0 although most of it is asked for under the key 5. -/
example : byFirst (demanded (0 : BitVec 256) (mirror sampleSteps)) = [0, 5, 7] := by
  simp [sampleSteps, mirror, demanded, byFirst, List.replicate]

example (m : Machine) := C129_cfb_source m _ _ variableKey_follows memRead (List.replicate 24 7) ()
  _ (memRead_supplies _ _).blocks (by rfl) (mirror sampleSteps) 0 1 2

/-- C129 for `gost89::CFBSource`. -/
theorem C129_gost89_cfb_source (m : Machine) (k : Live.Key (Ω × V)) (f : Ω → Fin 8 → BitVec 32 → BitVec 32)
    (hk : Follows k f) (rd : σ → Nat → Io V (List Byte × σ)) (s : σ) (v : V) (c : List Byte)
    (hs : SuppliesBlocks rd s v c) (hc : c.length % 8 = 0) (l : List (Step Ω Nat)) (ω : Ω)
    (iv : BitVec 64) :
    ∃ t v', readSteps (Live.Gost89.CFBSource.read m fun s n => aside (rd s n)) l ⟨s, k, iv, []⟩ (ω, v) =
      (.ok ((unblocks64 (cfbDecBy (fun ω => encF (f ω)) [iv]
          ((byFirst (demanded ω l)).zip (blocks64 c)))).take (demanded ω l).length, t),
        (stateAfter ω l, v')) := by
  obtain ⟨R, h0, hR⟩ := hs
  exact gost89_CFBSource_steps m hk hR l ω s v c [] iv h0 hc

example (m : Machine) := C129_gost89_cfb_source m _ _ variableKey_follows memRead (List.replicate 24 7) ()
  _ (memRead_supplies _ _).blocks (by rfl) (mirror sampleSteps) 0 1

/-- C129 for `ECBSource`: every call returns one block, decrypted with the key in force at the call. -/
theorem C129_ecb_source (m : Machine) (k : Live.Key (Ω × V)) (f : Ω → Fin 8 → BitVec 32 → BitVec 32)
    (hk : Follows k f) (rd : σ → Nat → Io V (List Byte × σ)) (s : σ) (v : V) (c : List Byte)
    (hs : Supplies rd s v c) (hc : c.length % 8 = 0) (l : List (Step Ω Nat))
    (hl : ∀ n, .call n ∈ l → 8 ≤ n) (ω : Ω) :
    ∃ t v', readSteps (Live.ECBSource.read m fun s n => aside (rd s n)) l (.ecb s k) (ω, v) =
      (.ok (unblocks64 (((called ω l).zip (blocks64 c)).map fun x => decF (f x.1) x.2), t),
        (stateAfter ω l, v')) := by
  obtain ⟨R, h0, hR⟩ := hs
  exact ECBSource_steps m hk hR l hl ω s v c h0 hc

example (m : Machine) := C129_ecb_source m _ _ variableKey_follows memRead (List.replicate 24 7) ()
  _ (memRead_supplies _ _) (by rfl) [.call 8, .change 5, .call 100, .call 8, .call 9] (by simp) 0

/-! ### There and back -/

/-- C129: what has been written with changing keys is read back if for each block the key in force when its
first byte is asked for is the key that was in force when its last byte was written. The keys of the writer
and of the reader may be different objects. -/
theorem C129_round_trip (m : Machine) (k : Live.Key (Ω × V)) (k' : Live.Key (Ω × V'))
    (f : Ω → Fin 8 → BitVec 32 → BitVec 32) (hk : Follows k f) (hk' : Follows k' f)
    (wr : τ → List Byte → Io V τ) (content : τ → V → List Byte)
    (hw : Collects wr content) (l : List (Step Ω (List Byte))) (ω : Ω) (s : τ) (ivl ivr : BitVec 64) (v : V)
    (h0 : content s v = []) (h8 : (dataOf l).length % 8 = 0)
    (rd : σ → Nat → Io V' (List Byte × σ)) (l' : List (Step Ω Nat)) (ω' : Ω)
    (hl : byFirst (demanded ω' l') = (byLast (written ω l)).map Prod.fst) :
    ∃ t v1, writeSteps (Live.CFBSink.write m fun s d => aside (wr s d)) l ⟨s, k, ivl, ivr, []⟩ (ω, v) =
        (.ok t, (stateAfter ω l, v1)) ∧
      ∀ (s' : σ) (v' : V'), SuppliesBlocks rd s' v' (content t.sink v1) →
        ∃ t' v2, readSteps (Live.CFBSource.read m fun s n => aside (rd s n)) l' ⟨s', k', ivl, ivr, []⟩
            (ω', v') =
          (.ok ((dataOf l).take (demanded ω' l').length, t'), (stateAfter ω' l', v2)) := by
  obtain ⟨t, v1, g1, g2, -⟩ := C129_cfb_sink m k f hk wr content hw l ω s ivl ivr v
  refine ⟨t, v1, g1, fun s' v' hs => ?_⟩
  rw [g2, h0, List.nil_append] at hs
  obtain ⟨t', v2, r⟩ := C129_cfb_source m k' f hk' rd s' v' _ hs
    (by rw [unblocks64_length]; omega) l' ω' ivl ivr
  refine ⟨t', v2, ?_⟩
  rw [r, blocks64_unblocks64, hl, cfbDecBy_cfbEncBy _ _ _ (by simp), byLast_snd, written_data,
    unblocks64_blocks64_whole h8]

/-- A writer who changes the key within the first block, and a reader who changes it before the first block:
the theorem applies. -/
example (m : Machine) := C129_round_trip m _ _ _ variableKey_follows variableKey_follows memWrite _
  memWrite_collects (.call [] :: sampleSteps.take 3 ++ [.call [14, 15, 16]]) 0 [] 1 2 () rfl rfl memRead
  [.change 5, .call 4, .call 12] 9
  (by simp [sampleSteps, written, byLast, demanded, byFirst, List.replicate])

/-- C129: if the key is changed at block boundaries only, a reader who does what the writer did gets the data
back. -/
theorem C129_mirrored (m : Machine) (k : Live.Key (Ω × V)) (k' : Live.Key (Ω × V'))
    (f : Ω → Fin 8 → BitVec 32 → BitVec 32) (hk : Follows k f) (hk' : Follows k' f)
    (wr : τ → List Byte → Io V τ) (content : τ → V → List Byte)
    (hw : Collects wr content) (l : List (Step Ω (List Byte))) (ω : Ω) (s : τ) (ivl ivr : BitVec 64) (v : V)
    (h0 : content s v = []) (h8 : ∀ d, .call d ∈ l → d.length % 8 = 0)
    (rd : σ → Nat → Io V' (List Byte × σ)) :
    ∃ t v1, writeSteps (Live.CFBSink.write m fun s d => aside (wr s d)) l ⟨s, k, ivl, ivr, []⟩ (ω, v) =
        (.ok t, (stateAfter ω l, v1)) ∧
      ∀ (s' : σ) (v' : V'), SuppliesBlocks rd s' v' (content t.sink v1) →
        ∃ t' v2, readSteps (Live.CFBSource.read m fun s n => aside (rd s n)) (mirror l)
            ⟨s', k', ivl, ivr, []⟩ (ω, v') = (.ok (dataOf l, t'), (stateAfter ω l, v2)) := by
  obtain ⟨m1, m2, m3⟩ := mirror_states l h8 ω
  have hd : (dataOf l).length = (written ω l).length := by rw [← written_data ω l, List.length_map]
  obtain ⟨t, v1, g1, g2⟩ := C129_round_trip m k k' f hk hk' wr content hw l ω s ivl ivr v h0
    (by rw [hd]; exact m3) rd (mirror l) ω m1
  refine ⟨t, v1, g1, fun s' v' hs => ?_⟩
  obtain ⟨t', v2, r⟩ := g2 s' v' hs
  exact ⟨t', v2, by rw [r, m2, ← hd, List.take_length, stateAfter_mirror]⟩

example (m : Machine) := C129_mirrored m _ _ _ variableKey_follows variableKey_follows memWrite _
  memWrite_collects alignedSteps 0 [] 1 2 () rfl (by simp [alignedSteps]) memRead

/-- C129: the same for the CFB streams of gost89. -/
theorem C129_gost89_round_trip (m : Machine) (k : Live.Key (Ω × V)) (k' : Live.Key (Ω × V'))
    (f : Ω → Fin 8 → BitVec 32 → BitVec 32) (hk : Follows k f) (hk' : Follows k' f)
    (wr : τ → List Byte → Io V τ) (content : τ → V → List Byte)
    (hw : Collects wr content) (l : List (Step Ω (List Byte))) (ω : Ω) (s : τ) (iv : BitVec 64) (v : V)
    (h0 : content s v = []) (h8 : (dataOf l).length % 8 = 0)
    (rd : σ → Nat → Io V' (List Byte × σ)) (l' : List (Step Ω Nat)) (ω' : Ω)
    (hl : byFirst (demanded ω' l') = (byLast (written ω l)).map Prod.fst) :
    ∃ t v1, writeSteps (Live.Gost89.CFBSink.write m fun s d => aside (wr s d)) l ⟨s, k, iv, []⟩ (ω, v) =
        (.ok t, (stateAfter ω l, v1)) ∧
      ∀ (s' : σ) (v' : V'), SuppliesBlocks rd s' v' (content t.sink v1) →
        ∃ t' v2, readSteps (Live.Gost89.CFBSource.read m fun s n => aside (rd s n)) l' ⟨s', k', iv, []⟩
            (ω', v') =
          (.ok ((dataOf l).take (demanded ω' l').length, t'), (stateAfter ω' l', v2)) := by
  obtain ⟨t, v1, g1, g2, -⟩ := C129_gost89_cfb_sink m k f hk wr content hw l ω s iv v
  refine ⟨t, v1, g1, fun s' v' hs => ?_⟩
  rw [g2, h0, List.nil_append] at hs
  obtain ⟨t', v2, r⟩ := C129_gost89_cfb_source m k' f hk' rd s' v' _ hs
    (by rw [unblocks64_length]; omega) l' ω' iv
  refine ⟨t', v2, ?_⟩
  rw [r, blocks64_unblocks64, hl, cfbDecBy_cfbEncBy _ _ _ (by simp), byLast_snd, written_data,
    unblocks64_blocks64_whole h8]

example (m : Machine) := C129_gost89_round_trip m _ _ _ variableKey_follows variableKey_follows memWrite _
  memWrite_collects (.call [] :: sampleSteps.take 3 ++ [.call [14, 15, 16]]) 0 [] 1 () rfl rfl memRead
  [.change 5, .call 4, .call 12] 9
  (by simp [sampleSteps, written, byLast, demanded, byFirst, List.replicate])

/-- C129: the same for the CFB streams of gost89. -/
theorem C129_gost89_mirrored (m : Machine) (k : Live.Key (Ω × V)) (k' : Live.Key (Ω × V'))
    (f : Ω → Fin 8 → BitVec 32 → BitVec 32) (hk : Follows k f) (hk' : Follows k' f)
    (wr : τ → List Byte → Io V τ) (content : τ → V → List Byte)
    (hw : Collects wr content) (l : List (Step Ω (List Byte))) (ω : Ω) (s : τ) (iv : BitVec 64) (v : V)
    (h0 : content s v = []) (h8 : ∀ d, .call d ∈ l → d.length % 8 = 0)
    (rd : σ → Nat → Io V' (List Byte × σ)) :
    ∃ t v1, writeSteps (Live.Gost89.CFBSink.write m fun s d => aside (wr s d)) l ⟨s, k, iv, []⟩ (ω, v) =
        (.ok t, (stateAfter ω l, v1)) ∧
      ∀ (s' : σ) (v' : V'), SuppliesBlocks rd s' v' (content t.sink v1) →
        ∃ t' v2, readSteps (Live.Gost89.CFBSource.read m fun s n => aside (rd s n)) (mirror l)
            ⟨s', k', iv, []⟩ (ω, v') = (.ok (dataOf l, t'), (stateAfter ω l, v2)) := by
  obtain ⟨m1, m2, m3⟩ := mirror_states l h8 ω
  have hd : (dataOf l).length = (written ω l).length := by rw [← written_data ω l, List.length_map]
  obtain ⟨t, v1, g1, g2⟩ := C129_gost89_round_trip m k k' f hk hk' wr content hw l ω s iv v h0
    (by rw [hd]; exact m3) rd (mirror l) ω m1
  refine ⟨t, v1, g1, fun s' v' hs => ?_⟩
  obtain ⟨t', v2, r⟩ := g2 s' v' hs
  exact ⟨t', v2, by rw [r, m2, ← hd, List.take_length, stateAfter_mirror]⟩

example (m : Machine) := C129_gost89_mirrored m _ _ _ variableKey_follows variableKey_follows memWrite _
  memWrite_collects alignedSteps 0 [] 1 () rfl (by simp [alignedSteps]) memRead

/-- C129: the same for the codebook: a reader who makes each call under the key that was in force when the
block was written gets the data back. -/
theorem C129_ecb_round_trip (m : Machine) (k : Live.Key (Ω × V)) (k' : Live.Key (Ω × V'))
    (f : Ω → Fin 8 → BitVec 32 → BitVec 32) (hk : Follows k f) (hk' : Follows k' f)
    (wr : τ → List Byte → Io V τ) (content : τ → V → List Byte)
    (hw : Collects wr content) (l : List (Step Ω (List Byte)))
    (h8 : ∀ d, .call d ∈ l → d.length % 8 = 0) (ω : Ω) (s : τ) (v : V) (h0 : content s v = [])
    (rd : σ → Nat → Io V' (List Byte × σ)) (l' : List (Step Ω Nat)) (h8' : ∀ n, .call n ∈ l' → 8 ≤ n)
    (ω' : Ω) (hl : called ω' l' = (byLast (written ω l)).map Prod.fst) :
    ∃ s1 v1, writeSteps (Live.ECBSink.write fun s d => aside (wr s d)) l ⟨s, k⟩ (ω, v) =
        (.ok ⟨s1, k⟩, (stateAfter ω l, v1)) ∧
      ∀ (s' : σ) (v' : V'), Supplies rd s' v' (content s1 v1) →
        ∃ t' v2, readSteps (Live.ECBSource.read m fun s n => aside (rd s n)) l' (.ecb s' k') (ω', v') =
          (.ok (dataOf l, t'), (stateAfter ω' l', v2)) := by
  obtain ⟨s1, v1, g1, g2⟩ := C129_ecb_sink k f hk wr content hw l h8 ω s v
  refine ⟨s1, v1, g1, fun s' v' hs => ?_⟩
  rw [g2, h0, List.nil_append] at hs
  obtain ⟨t', v2, r⟩ := C129_ecb_source m k' f hk' rd s' v' _ hs
    (by rw [unblocks64_length]; omega) l' h8' ω'
  refine ⟨t', v2, ?_⟩
  have h3 := (mirror_states l h8 ω).2.2
  rw [r, blocks64_unblocks64, hl, zip_ecb, byLast_snd, written_data, unblocks64_blocks64_whole]
  rw [← written_data ω l, List.length_map]
  exact h3

example (m : Machine) := C129_ecb_round_trip m _ _ _ variableKey_follows variableKey_follows memWrite _
  memWrite_collects alignedSteps (by simp [alignedSteps]) 0 [] () rfl memRead
  [.call 8, .change 5, .call 8, .call 10] (by simp) 0 (by simp [alignedSteps, written, byLast, called])

/-- C129: a change within a block is not understood by a reader who does what the writer did: the writer
encrypts the block with the new key, the reader decrypts it with the old one. -/
theorem C129_within_block_lost (m : Machine) (k : Live.Key (Ω × V)) (k' : Live.Key (Ω × V'))
    (f : Ω → Fin 8 → BitVec 32 → BitVec 32) (hk : Follows k f) (hk' : Follows k' f)
    (wr : τ → List Byte → Io V τ) (content : τ → V → List Byte)
    (hw : Collects wr content) (d d' : List Byte) (hd : d ≠ []) (hd' : d' ≠ [])
    (h8 : d.length + d'.length = 8) (ω ω' : Ω) (s : τ) (ivl ivr : BitVec 64) (v : V)
    (h0 : content s v = []) (hne : encF (f ω) ivl ≠ encF (f ω') ivl)
    (rd : σ → Nat → Io V' (List Byte × σ)) :
    ∃ t v1, writeSteps (Live.CFBSink.write m fun s d => aside (wr s d))
        [.call d, .change ω', .call d'] ⟨s, k, ivl, ivr, []⟩ (ω, v) = (.ok t, (ω', v1)) ∧
      ∀ (s' : σ) (v' : V'), SuppliesBlocks rd s' v' (content t.sink v1) →
        ∃ x t' v2, readSteps (Live.CFBSource.read m fun s n => aside (rd s n))
            [.call d.length, .change ω', .call d'.length] ⟨s', k', ivl, ivr, []⟩ (ω, v') =
          (.ok (x, t'), (ω', v2)) ∧ x.length = 8 ∧ x ≠ d ++ d' := by
  have hw1 : written ω [.call d, .change ω', .call d'] =
      d.map (fun b => (b, ω)) ++ d'.map (fun b => (b, ω')) := by
    simp only [written, List.append_nil]
  have hb : byLast (d.map (fun b => (b, ω)) ++ d'.map (fun b => (b, ω'))) = [(ω', block64 (d ++ d'))] := by
    obtain ⟨e, b, rfl⟩ : ∃ e b, d' = e ++ [b] := ⟨_, _, (List.dropLast_concat_getLast hd').symm⟩
    have h7 : (d.map (fun b => (b, ω)) ++ e.map (fun b => (b, ω'))).length = 7 := by
      simp only [List.length_append, List.length_map, List.length_cons, List.length_nil] at h8 ⊢
      omega
    have := byLast_append (b := b) (ω := ω') h7 []
    have hm : (e ++ [b]).map (fun b => (b, ω')) = e.map (fun b => (b, ω')) ++ [(b, ω')] := by simp
    rw [hm, ← List.append_assoc, this]
    rw [List.map_append, fst_stamped, fst_stamped, List.append_assoc]
    rfl
  have hD : demanded ω [.call d.length, .change ω', .call d'.length] =
      List.replicate d.length ω ++ List.replicate d'.length ω' := by
    simp only [demanded, List.append_nil]
  obtain ⟨j, hj⟩ : ∃ j, d.length = j + 1 := ⟨d.length - 1, by
    have := List.length_pos_iff.2 hd
    omega⟩
  have hF : byFirst (List.replicate d.length ω ++ List.replicate d'.length ω') = [ω] := by
    rw [hj, List.replicate_succ, List.cons_append, byFirst_cons]
    have hnil : (List.replicate j ω ++ List.replicate d'.length ω').drop 7 = [] := by
      apply List.drop_of_length_le
      simp only [List.length_append, List.length_replicate]
      omega
    rw [hnil, byFirst_nil]
  obtain ⟨t, v1, g1, g2, -⟩ := C129_cfb_sink m k f hk wr content hw [.call d, .change ω', .call d'] ω s
    ivl ivr v
  refine ⟨t, v1, g1, fun s' v' hs => ?_⟩
  rw [g2, h0, List.nil_append, hw1, hb] at hs
  obtain ⟨t', v2, r⟩ := C129_cfb_source m k' f hk' rd s' v' _ hs
    (by rw [unblocks64_length]; omega) [.call d.length, .change ω', .call d'.length] ω ivl ivr
  rw [blocks64_unblocks64, hD, hF] at r
  have h8' : (List.replicate d.length ω ++ List.replicate d'.length ω').length = 8 := by
    simp only [List.length_append, List.length_replicate]; exact h8
  rw [h8'] at r
  simp only [cfbEncBy, List.zip_cons_cons, cfbDecBy, unblocks64_cons, unblocks64_nil, List.append_nil,
    List.zip_nil_left, cfbDecBy_nil] at r
  rw [List.take_of_length_le (by simp)] at r
  refine ⟨_, t', v2, r, by simp, fun he => ?_⟩
  have hb2 := congrArg block64 he
  rw [block64_bytesOf64, BitVec.xor_assoc] at hb2
  have hz : encF (f ω') ivl ^^^ encF (f ω) ivl = 0 := by
    have := congrArg (block64 (d ++ d') ^^^ ·) hb2
    simp only [← BitVec.xor_assoc, BitVec.xor_self, BitVec.zero_xor] at this
    exact this
  apply hne
  have := congrArg (· ^^^ encF (f ω) ivl) hz
  simp only [BitVec.xor_assoc, BitVec.xor_self, BitVec.xor_zero] at this
  rw [this]
  simp

example (m : Machine) := C129_within_block_lost m _ _ _ variableKey_follows variableKey_follows memWrite _
  memWrite_collects [1, 2, 3] [4, 5, 6, 7, 8] (by simp) (by simp) rfl 0 5 [] 1 2 () rfl
  (by decide +kernel) memRead

end Goost.Props
