import Verif.Lemmas.Rekey
import Verif.Lemmas.LiveAskMore
/-
Helper lemmas for C129: the codebook streams, and the way back.
-/
namespace Goost.Rekey
open Goost.Magma Spec Spec.Magma Spec.Modes Spec.Rekey
variable {Ω V σ τ α β : Type} {k : Live.Key (Ω × V)} {f : Ω → Fin 8 → W32 → W32}

theorem mod8_induction {P : List α → Prop} (h0 : P [])
    (h8 : ∀ a l, a.length = 8 → l.length % 8 = 0 → P l → P (a ++ l)) :
    ∀ l : List α, l.length % 8 = 0 → P l
  | [], _ => h0
  | a0 :: a1 :: a2 :: a3 :: a4 :: a5 :: a6 :: a7 :: l, h =>
    have hl : l.length % 8 = 0 := by simp only [List.length_cons] at h; omega
    h8 [a0, a1, a2, a3, a4, a5, a6, a7] l rfl hl (mod8_induction h0 h8 l hl)
  | [_], h | [_, _], h | [_, _, _], h | [_, _, _, _], h | [_, _, _, _, _], h | [_, _, _, _, _, _], h
  | [_, _, _, _, _, _, _], h => by simp at h

theorem byLast_piece (d : List Byte) (h : d.length % 8 = 0) (ω : Ω) (l : List (Byte × Ω)) :
    byLast (d.map (fun b => (b, ω)) ++ l) = (blocks64 d).map (fun x => (ω, x)) ++ byLast l := by
  revert h
  revert d
  refine mod8_induction rfl ?_
  intro a d ha hd ih
  rw [blocks64_append ha]
  match a, ha with
  | [_, _, _, _, _, _, _, _], _ =>
    simp only [List.map_cons, List.cons_append, List.nil_append]
    rw [← ih]
    rfl

theorem byLast_snd : ∀ l : List (Byte × Ω), (byLast l).map Prod.snd = blocks64 (l.map Prod.fst)
  | _ :: _ :: _ :: _ :: _ :: _ :: _ :: _ :: l => by
    simp only [byLast, List.map_cons, byLast_snd l]
    rfl
  | [] | [_] | [_, _] | [_, _, _] | [_, _, _, _] | [_, _, _, _, _] | [_, _, _, _, _, _]
  | [_, _, _, _, _, _, _] => rfl

theorem byFirst_block (ω : Ω) (D : List Ω) :
    byFirst (List.replicate 8 ω ++ D) = ω :: byFirst D := by
  show byFirst (ω :: (List.replicate 7 ω ++ D)) = _
  rw [byFirst_cons]
  rfl

theorem byFirst_piece (d : List Byte) (h : d.length % 8 = 0) (ω : Ω) (D : List Ω) :
    byFirst (List.replicate d.length ω ++ D) = (blocks64 d).map (fun _ => ω) ++ byFirst D := by
  revert h
  revert d
  refine mod8_induction rfl ?_
  intro a d ha hd ih
  rw [blocks64_append ha, List.length_append, ha, ← List.replicate_append_replicate, List.append_assoc,
    byFirst_block, ih]
  rfl

theorem cfbDecBy_cfbEncBy (E : Ω → W64 → W64) (B : List (Ω × W64)) (R : List W64) (hR : R ≠ []) :
    cfbDecBy E R ((B.map Prod.fst).zip (cfbEncBy E R B)) = B.map Prod.snd := by
  induction B generalizing R with
  | nil => cases R <;> rfl
  | cons b B ih =>
    match R, hR with
    | r :: R, _ =>
      obtain ⟨ω, p⟩ := b
      simp only [cfbEncBy, List.map_cons, List.zip_cons_cons, cfbDecBy]
      rw [ih _ (by simp), BitVec.xor_assoc, BitVec.xor_self, BitVec.xor_zero]

theorem mirror_states (l : List (Step Ω (List Byte))) (h : ∀ d, .call d ∈ l → d.length % 8 = 0) (ω : Ω) :
    byFirst (demanded ω (mirror l)) = (byLast (written ω l)).map Prod.fst ∧
      (demanded ω (mirror l)).length = (written ω l).length ∧ (written ω l).length % 8 = 0 := by
  induction l generalizing ω with
  | nil => exact ⟨byFirst_nil, rfl, rfl⟩
  | cons a l ih =>
    have hl : ∀ d, .call d ∈ l → d.length % 8 = 0 := fun d hd => h d (List.mem_cons_of_mem _ hd)
    cases a with
    | change ω' => exact ih hl ω'
    | call d =>
      have hd := h d List.mem_cons_self
      obtain ⟨g1, g2, g3⟩ := ih hl ω
      simp only [mirror, demanded, written]
      refine ⟨?_, ?_, ?_⟩
      · rw [byFirst_piece d hd, byLast_piece d hd, g1, List.map_append, List.map_map]
        rfl
      · simp [g2]
      · simp only [List.length_append, List.length_map]; omega

theorem stateAfter_mirror (l : List (Step Ω (List Byte))) (ω : Ω) :
    stateAfter ω (mirror l) = stateAfter ω l := by
  induction l generalizing ω with
  | nil => rfl
  | cons a l ih => cases a <;> exact ih _

theorem fst_stamped (d : List Byte) (ω : Ω) : (d.map fun b => (b, ω)).map Prod.fst = d := by
  induction d with
  | nil => rfl
  | cons y x ih => simp only [List.map_cons, ih]

theorem written_data (ω : Ω) (l : List (Step Ω (List Byte))) : (written ω l).map Prod.fst = dataOf l := by
  induction l generalizing ω with
  | nil => rfl
  | cons a l ih =>
    cases a with
    | change ω' => exact ih ω'
    | call d => rw [written, List.map_append, ih, fst_stamped, dataOf]

theorem zip_ecb (f : Ω → Fin 8 → W32 → W32) (B : List (Ω × W64)) :
    ((B.map Prod.fst).zip (B.map fun x => encF (f x.1) x.2)).map (fun x => decF (f x.1) x.2) =
      B.map Prod.snd := by
  induction B with
  | nil => rfl
  | cons b B ih => simp only [List.map_cons, List.zip_cons_cons, ih, decF_encF]

/-! ### The codebook -/

theorem ECBSink_loop_by (h : Follows k f) (wr : τ → List Byte → Io V τ)
    (content : τ → V → List Byte) (hw : Collects wr content) (ω : Ω) (d : List Byte) (p : List Byte)
    (hp : p.length < 8) (hd : (p ++ d).length % 8 = 0) (s : τ) (v : V) :
    ∃ s' v', Live.ECBSink.loop (fun s d => aside (wr s d)) k d p s (ω, v) = (.ok ⟨s', k⟩, (ω, v')) ∧
      content s' v' = content s v ++ unblocks64 ((blocks64 (p ++ d)).map (encF (f ω))) := by
  induction d generalizing p s v with
  | nil =>
    have hp0 : p = [] := by
      rw [List.append_nil] at hd
      exact List.length_eq_zero_iff.1 (by omega)
    subst hp0
    exact ⟨s, v, rfl, by rw [List.append_nil, blocks64_short (by simp)]; simp⟩
  | cons b d ih =>
    unfold Live.ECBSink.loop
    simp only
    have e : p ++ b :: d = (p ++ [b]) ++ d := by simp
    rw [e] at hd ⊢
    by_cases h8 : (p ++ [b]).length = 8
    · obtain ⟨s1, v1, e1, c1⟩ := hw s v (bytesOf64 (encF (f ω) (block64 (p ++ [b]))))
      obtain ⟨s', v', g1, g2⟩ := ih [] (by simp)
        (by rw [List.length_append, h8] at hd; rw [List.nil_append]; omega) s1 v1
      refine ⟨s', v', ?_, ?_⟩
      · rw [if_pos h8, load64_eq h8, Io.lift_ok_bind, Io.bind_run_ok (EncryptionBase_gives h ω _ v),
          overwrite8_eq h8, Io.lift_ok_bind, bytes64_eq_spec, Io.bind_run_ok (aside_run _ ω _ _ _ e1)]
        exact g1
      · rw [g2, c1, blocks64_append h8, List.map_cons, unblocks64_cons, List.append_assoc]
        rfl
    · rw [if_neg h8]
      refine ih _ ?_ hd s v
      simp only [List.length_append, List.length_cons, List.length_nil] at h8 ⊢
      omega

theorem ECBSink_steps (h : Follows k f) (wr : τ → List Byte → Io V τ)
    (content : τ → V → List Byte) (hw : Collects wr content) (l : List (Step Ω (List Byte)))
    (hl : ∀ d, .call d ∈ l → d.length % 8 = 0) (ω : Ω) (s : τ) (v : V) :
    ∃ s' v', writeSteps (Live.ECBSink.write fun s d => aside (wr s d)) l ⟨s, k⟩ (ω, v) =
        (.ok ⟨s', k⟩, (stateAfter ω l, v')) ∧
      content s' v' = content s v ++
        unblocks64 ((byLast (written ω l)).map fun x => encF (f x.1) x.2) := by
  induction l generalizing ω s v with
  | nil => exact ⟨s, v, rfl, by simp [written, byLast]⟩
  | cons a l ih =>
    have hl' : ∀ d, .call d ∈ l → d.length % 8 = 0 := fun d hd => hl d (List.mem_cons_of_mem _ hd)
    cases a with
    | change ω' => exact ih hl' ω' s v
    | call d =>
      have hd := hl d List.mem_cons_self
      obtain ⟨s1, v1, g1, g2⟩ := ECBSink_loop_by h wr content hw ω d [] (by simp) (by simpa using hd) s v
      obtain ⟨s', v', r1, r2⟩ := ih hl' ω s1 v1
      refine ⟨s', v', ?_, ?_⟩
      · show (Live.ECBSink.write _ _ d >>= fun t => writeSteps _ l t) (ω, v) = _
        exact (Io.bind_run_ok (a := ⟨s1, k⟩) (w' := (ω, v1)) g1).trans r1
      · rw [r2, g2, written, byLast_piece d hd, List.map_append, unblocks64_append, List.map_map,
          List.append_assoc, List.nil_append]
        rfl

variable {rd : σ → Nat → Io V (List Byte × σ)} {R : σ → V → List Byte → Prop}

theorem bare_steps (m : Machine)
    (hR : ∀ s w d, R s w d → ∀ n, ∃ s' w', rd s n w = (.ok (d.take n, s'), w') ∧ R s' w' (d.drop n))
    (l : List (Step Ω Nat)) (ω : Ω) (s : σ) (v : V) (hs : R s v []) :
    ∃ t v', readSteps (Live.ECBSource.read m fun s n => aside (rd s n)) l (.bare s) (ω, v) =
      (.ok ([], t), (stateAfter ω l, v')) := by
  induction l generalizing ω s v with
  | nil => exact ⟨_, v, rfl⟩
  | cons a l ih =>
    cases a with
    | change ω' => exact ih ω' s v hs
    | call n =>
      obtain ⟨s1, v1, e1, hs1⟩ := hR s v [] hs n
      simp only [List.take_nil, List.drop_nil] at e1 hs1
      obtain ⟨t, v2, r1⟩ := ih ω s1 v1 hs1
      refine ⟨t, v2, ?_⟩
      show (Live.ECBSource.read m _ (.bare s) n >>= fun x => _) (ω, v) = _
      have e2 : Live.ECBSource.read m (fun s n => aside (rd s n)) (.bare s) n (ω, v) =
          (.ok ([], .bare s1), (ω, v1)) := by
        simp only [Live.ECBSource.read]
        rw [Io.bind_run_ok (aside_run _ ω _ _ _ e1)]
        rfl
      refine (Io.bind_run_ok e2).trans ?_
      exact (Io.bind_run_ok r1).trans rfl

theorem ECBSource_steps (m : Machine) (h : Follows k f)
    (hR : ∀ s w d, R s w d → ∀ n, ∃ s' w', rd s n w = (.ok (d.take n, s'), w') ∧ R s' w' (d.drop n))
    (l : List (Step Ω Nat)) (hl : ∀ n, .call n ∈ l → 8 ≤ n) (ω : Ω) (s : σ) (v : V) (c : List Byte)
    (hs : R s v c) (hc : c.length % 8 = 0) :
    ∃ t v', readSteps (Live.ECBSource.read m fun s n => aside (rd s n)) l (.ecb s k) (ω, v) =
      (.ok (unblocks64 (((called ω l).zip (blocks64 c)).map fun x => decF (f x.1) x.2), t),
        (stateAfter ω l, v')) := by
  induction l generalizing ω s v c with
  | nil => exact ⟨_, v, rfl⟩
  | cons a l ih =>
    have hl' : ∀ n, .call n ∈ l → 8 ≤ n := fun d hd => hl d (List.mem_cons_of_mem _ hd)
    cases a with
    | change ω' => exact ih hl' ω' s v c hs hc
    | call n =>
      have hn := hl n List.mem_cons_self
      obtain ⟨s1, v1, e1, hs1⟩ := hR s v c hs 8
      by_cases hc0 : c = []
      · subst hc0
        obtain ⟨t, v2, r1⟩ := bare_steps m hR l ω s1 v1 (by simpa using hs1)
        refine ⟨t, v2, ?_⟩
        have e2 : Live.ECBSource.read m (fun s n => aside (rd s n)) (.ecb s k) n (ω, v) =
            (.ok ([], .bare s1), (ω, v1)) := by
          simp only [Live.ECBSource.read]
          rw [if_neg (by omega), Io.bind_run_ok (aside_run _ ω _ _ _ e1)]
          rfl
        show (Live.ECBSource.read m _ (.ecb s k) n >>= fun x => _) (ω, v) = _
        refine (Io.bind_run_ok e2).trans ?_
        have : blocks64 [] = [] := rfl
        simp only [this, List.zip_nil_right, List.map_nil, unblocks64_nil]
        exact (Io.bind_run_ok r1).trans rfl
      · have hcl : 8 ≤ c.length := by
          have := List.length_pos_iff.2 hc0
          omega
        have h8 : (c.take 8).length = 8 := by rw [List.length_take]; omega
        have hne : c.take 8 ≠ [] := by intro h0; rw [h0] at h8; simp at h8
        obtain ⟨t, v2, r1⟩ := ih hl' ω s1 v1 (c.drop 8) hs1 (by rw [List.length_drop]; omega)
        have ha : k.asLazy = some k := by simp [Live.Key.asLazy, h.isLazy]
        have e2 : Live.ECBSource.read m (fun s n => aside (rd s n)) (.ecb s k) n (ω, v) =
            (.ok (bytesOf64 (decF (f ω) (block64 (c.take 8))), .ecb s1 k), (ω, v1)) := by
          simp only [Live.ECBSource.read]
          rw [if_neg (by omega), Io.bind_run_ok (aside_run _ ω _ _ _ e1)]
          simp only
          rw [if_neg hne, Live_ofBytes_eq h8, Io.lift_ok_bind, ha, Io.bind_run_ok (BlkDecrypted_gives h ω m _ _ _),
            overwrite8_eq h8, Io.lift_ok_bind, bytes32_pair, join32_decP, join32_surj]
          rfl
        refine ⟨t, v2, ?_⟩
        show (Live.ECBSource.read m _ (.ecb s k) n >>= fun x => _) (ω, v) = _
        refine (Io.bind_run_ok e2).trans ?_
        refine (Io.bind_run_ok r1).trans ?_
        have hcc : blocks64 c = block64 (c.take 8) :: blocks64 (c.drop 8) := by
          conv => lhs; rw [← List.take_append_drop 8 c]
          exact blocks64_append h8 _
        rw [hcc, called, List.zip_cons_cons, List.map_cons, unblocks64_cons]
        rfl

end Goost.Rekey
