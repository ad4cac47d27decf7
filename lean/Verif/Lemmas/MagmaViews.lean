import Verif.Spec.MagmaViews
import Verif.Lemmas.LiveAsk
import Verif.Lemmas.Keys
import Verif.Lemmas.KuzToken
import Mathlib.Data.List.Forall2
/-
Helper lemmas for C128: what programs over blocks and keys of the 64-bit cipher read, and when.
-/
namespace Goost.MagmaViews
open Goost.Magma (CachedData SboxR3412 KeyDataNative fwd bwd encP decP)
open Spec Spec.MagmaViews

variable {start : Nat → V} {keys : Nat → Nat → W32} {p : List Step}

/-! ### Calls of keys -/

section
variable {k : Live.Key World} {s s' : World} {f : Fin 8 → W32 → W32}

theorem forward_eq (h1 : ∀ v (i : Fin 8), k.transform v (i.val : Int) s = (.ok (f i v), s'))
    (h2 : ∀ v (i : Fin 8), k.transform v (i.val : Int) s' = (.ok (f i v), s')) (v : V) :
    Live.forwardRounds (some k) v s = (.ok (fwd f v), s') := by
  refine (KuzToken.bind_ok (h1 _ 0)).trans ?_
  refine (KuzToken.bind_ok (h2 _ 1)).trans ?_
  refine (KuzToken.bind_ok (h2 _ 2)).trans ?_
  refine (KuzToken.bind_ok (h2 _ 3)).trans ?_
  refine (KuzToken.bind_ok (h2 _ 4)).trans ?_
  refine (KuzToken.bind_ok (h2 _ 5)).trans ?_
  refine (KuzToken.bind_ok (h2 _ 6)).trans ?_
  exact (KuzToken.bind_ok (h2 _ 7)).trans rfl

theorem backward_eq (h1 : ∀ v (i : Fin 8), k.transform v (i.val : Int) s = (.ok (f i v), s'))
    (h2 : ∀ v (i : Fin 8), k.transform v (i.val : Int) s' = (.ok (f i v), s')) (v : V) :
    Live.backwardRounds (some k) v s = (.ok (bwd f v), s') := by
  refine (KuzToken.bind_ok (h1 _ 7)).trans ?_
  refine (KuzToken.bind_ok (h2 _ 6)).trans ?_
  refine (KuzToken.bind_ok (h2 _ 5)).trans ?_
  refine (KuzToken.bind_ok (h2 _ 4)).trans ?_
  refine (KuzToken.bind_ok (h2 _ 3)).trans ?_
  refine (KuzToken.bind_ok (h2 _ 2)).trans ?_
  refine (KuzToken.bind_ok (h2 _ 1)).trans ?_
  exact (KuzToken.bind_ok (h2 _ 0)).trans rfl

theorem encrypted_eq (h1 : ∀ v (i : Fin 8), k.transform v (i.val : Int) s = (.ok (f i v), s'))
    (h2 : ∀ v (i : Fin 8), k.transform v (i.val : Int) s' = (.ok (f i v), s')) {b : Blk} {w : World} {v : V}
    (hb : b.value w = (.ok v, s)) : (BlkEncrypted b k).value w = (.ok (encP f v), s') := by
  have e1 : (Blk.forwarded b k).value w = (.ok (fwd f v), s') := (KuzToken.bind_ok hb).trans (forward_eq h1 h2 v)
  have e2 : (Blk.forwarded (.forwarded b k) k).value w = _ := (KuzToken.bind_ok e1).trans (forward_eq h2 h2 _)
  have e3 : (Blk.forwarded (.forwarded (.forwarded b k) k) k).value w = _ := (KuzToken.bind_ok e2).trans (forward_eq h2 h2 _)
  have e4 : (Blk.backwarded (.forwarded (.forwarded (.forwarded b k) k) k) k).value w = _ :=
    (KuzToken.bind_ok e3).trans (backward_eq h2 h2 _)
  exact (KuzToken.bind_ok e4).trans rfl

theorem decrypted_eq (h1 : ∀ v (i : Fin 8), k.transform v (i.val : Int) s = (.ok (f i v), s'))
    (h2 : ∀ v (i : Fin 8), k.transform v (i.val : Int) s' = (.ok (f i v), s')) {b : Blk} {w : World} {v : V}
    (hb : b.value w = (.ok v, s)) : (BlkDecrypted b k).value w = (.ok (decP f v), s') := by
  have e1 : (Blk.forwarded b k).value w = (.ok (fwd f v), s') := (KuzToken.bind_ok hb).trans (forward_eq h1 h2 v)
  have e2 : (Blk.backwarded (.forwarded b k) k).value w = _ := (KuzToken.bind_ok e1).trans (backward_eq h2 h2 _)
  have e3 : (Blk.backwarded (.backwarded (.forwarded b k) k) k).value w = _ := (KuzToken.bind_ok e2).trans (backward_eq h2 h2 _)
  have e4 : (Blk.backwarded (.backwarded (.backwarded (.forwarded b k) k) k) k).value w = _ :=
    (KuzToken.bind_ok e3).trans (backward_eq h2 h2 _)
  exact (KuzToken.bind_ok e4).trans rfl

theorem transform_eq (h1 : ∀ v (i : Fin 8), k.transform v (i.val : Int) s = (.ok (f i v), s'))
    (h2 : ∀ v (i : Fin 8), k.transform v (i.val : Int) s' = (.ok (f i v), s')) (x : W64) :
    Live.EncryptionBase.transform k x s = (.ok (Spec.Magma.encF f x), s') := by
  have e2 : Magma.EncryptionBase.transform (plainKey f) x = .ok (Spec.Magma.encF f x) :=
    Magma.EncryptionBase_eq (plainKey_computes f) x
  unfold Magma.EncryptionBase.transform at e2
  simp only [(plainKey_computes f).c0, (plainKey_computes f).c1, (plainKey_computes f).c2,
    (plainKey_computes f).c3, (plainKey_computes f).c4, (plainKey_computes f).c5, (plainKey_computes f).c6,
    (plainKey_computes f).c7, Exec.ok_bind, Exec.pure_eq, Exec.ok.injEq] at e2
  rw [← e2]
  unfold Live.EncryptionBase.transform
  refine (KuzToken.bind_ok (h1 _ 0)).trans ?_
  refine (KuzToken.bind_ok (h2 _ 1)).trans ?_
  refine (KuzToken.bind_ok (h2 _ 2)).trans ?_
  refine (KuzToken.bind_ok (h2 _ 3)).trans ?_
  refine (KuzToken.bind_ok (h2 _ 4)).trans ?_
  refine (KuzToken.bind_ok (h2 _ 5)).trans ?_
  refine (KuzToken.bind_ok (h2 _ 6)).trans ?_
  refine (KuzToken.bind_ok (h2 _ 7)).trans ?_
  refine (KuzToken.bind_ok (h2 _ 0)).trans ?_
  refine (KuzToken.bind_ok (h2 _ 1)).trans ?_
  refine (KuzToken.bind_ok (h2 _ 2)).trans ?_
  refine (KuzToken.bind_ok (h2 _ 3)).trans ?_
  refine (KuzToken.bind_ok (h2 _ 4)).trans ?_
  refine (KuzToken.bind_ok (h2 _ 5)).trans ?_
  refine (KuzToken.bind_ok (h2 _ 6)).trans ?_
  refine (KuzToken.bind_ok (h2 _ 7)).trans ?_
  refine (KuzToken.bind_ok (h2 _ 0)).trans ?_
  refine (KuzToken.bind_ok (h2 _ 1)).trans ?_
  refine (KuzToken.bind_ok (h2 _ 2)).trans ?_
  refine (KuzToken.bind_ok (h2 _ 3)).trans ?_
  refine (KuzToken.bind_ok (h2 _ 4)).trans ?_
  refine (KuzToken.bind_ok (h2 _ 5)).trans ?_
  refine (KuzToken.bind_ok (h2 _ 6)).trans ?_
  refine (KuzToken.bind_ok (h2 _ 7)).trans ?_
  refine (KuzToken.bind_ok (h2 _ 7)).trans ?_
  refine (KuzToken.bind_ok (h2 _ 6)).trans ?_
  refine (KuzToken.bind_ok (h2 _ 5)).trans ?_
  refine (KuzToken.bind_ok (h2 _ 4)).trans ?_
  refine (KuzToken.bind_ok (h2 _ 3)).trans ?_
  refine (KuzToken.bind_ok (h2 _ 2)).trans ?_
  refine (KuzToken.bind_ok (h2 _ 1)).trans ?_
  refine (KuzToken.bind_ok (h2 _ 0)).trans ?_
  rfl
end

/-! ### Caches -/

open Classical in
/-- The world after the keys `Q` have been used. -/
noncomputable def loaded (p : List Step) (Q : Nat → Prop) (w : World) : World :=
  { w with caches := fun j =>
      match (objects p)[j]? with
      | some (.cachedKey c, _) =>
        if Q j ∧ (w.caches j).cached = false then ⟨true, (List.range 8).map (w.words c)⟩ else w.caches j
      | _ => w.caches j }

theorem loaded_congr {Q R : Nat → Prop} (w : World)
    (h : ∀ j c t, (objects p)[j]? = some (.cachedKey c, t) → (Q j ↔ R j)) : loaded p Q w = loaded p R w := by
  unfold loaded
  congr 1
  funext j
  split
  · next c t e => rw [h j c t e]
  · rfl

theorem loaded_none (w : World) : loaded p (fun _ => False) w = w := by
  unfold loaded
  obtain ⟨a, b, c⟩ := w
  congr 1
  funext j
  split <;> simp

theorem loaded_at {Q : Nat → Prop} {w : World} {j c t : Nat} (e : (objects p)[j]? = some (.cachedKey c, t))
    (h : Q j) (hc : (w.caches j).cached = false) : (loaded p Q w).caches j = ⟨true, (List.range 8).map (w.words c)⟩ := by
  simp only [loaded, e, h, hc, and_self, if_true]

theorem loaded_same {Q : Nat → Prop} {w : World} {j c t : Nat} (e : (objects p)[j]? = some (.cachedKey c, t))
    (h : ¬ (Q j ∧ (w.caches j).cached = false)) : (loaded p Q w).caches j = w.caches j := by
  simp only [loaded, e, h, if_false]

/-- The words of a cached key. -/
def now (w : World) (j c : Nat) : Nat → W32 :=
  if (w.caches j).cached = true then fun i => (w.caches j).key.getD i 0 else w.words c

theorem getD_of_lt {l : List W32} {i : Nat} (h : i < l.length) : l.getD i 0 = l[i] := by
  rw [List.getD_eq_getElem?_getD, List.getElem?_eq_getElem h]; rfl

theorem vgetI_getD {l : List W32} (h : l.length = 8) (i : Fin 8) : vgetI l (i.val : Int) = .ok (l.getD i.val 0) := by
  simp only [vgetI, Int.not_ofNat_neg, if_false, Int.toNat_natCast, vget]
  have : i.val < l.length := by omega
  rw [List.getElem?_eq_getElem this, getD_of_lt this]

theorem range_getD (g : Nat → W32) (i : Fin 8) : ((List.range 8).map g).getD i.val 0 = g i := by
  have : i.val < ((List.range 8).map g).length := by simp
  rw [getD_of_lt this]
  simp

theorem lazy_eq {data : Int → Io World W32} {w w' : World} {ws : Nat → W32} (i : Fin 8)
    (h : data (i.val : Int) w = (.ok (ws i), w')) (v : W32) :
    (Live.LazyKey data substitution).transform v (i.val : Int) w = (.ok (round ws i v), w') := by
  refine (KuzToken.bind_ok h).trans ?_
  show (SboxR3412 _, w') = _
  rw [Magma.SboxR3412_eq, round, Spec.Magma.g, BitVec.add_comm]

theorem plain_eq (c : Nat) (w : World) (v : W32) (i : Fin 8) :
    (Live.LazyKey (shown c) substitution).transform v (i.val : Int) w = (.ok (round (w.words c) i v), w) :=
  lazy_eq i (by simp [shown]) v

theorem native_eq (g : Nat → W32) (w : World) (v : W32) (i : Fin 8) :
    (Live.LazyKey (fun i => Io.lift (KeyDataNative ((List.range 8).map g) i)) substitution).transform v (i.val : Int) w =
      (.ok (round g i v), w) := by
  refine lazy_eq i ?_ v
  show (KeyDataNative _ _, w) = _
  rw [KeyDataNative, vgetI_getD (by simp), range_getD]

theorem eight {l : List W32} (h : l.length = 8) : ∃ a b c d e f g h, l = [a, b, c, d, e, f, g, h] := by
  match l, h with
  | [a, b, c, d, e, f, g, h], _ => exact ⟨a, b, c, d, e, f, g, h, rfl⟩

theorem store_at (n : Nat) (d : CachedData) (w : World) : (store n d w).caches n = d := by simp [store]

theorem store_store (n : Nat) (d d' : CachedData) (w : World) : store n d (store n d' w) = store n d w := by
  unfold store
  congr 1
  funext i
  by_cases h : i = n <;> simp [h]

theorem store_self {n : Nat} {d : CachedData} {w : World} (h : w.caches n = d) : store n d w = w := by
  obtain ⟨a, b, c⟩ := w
  unfold store
  congr 1
  funext i
  by_cases e : i = n
  · simp only [e, if_true, ← h]
  · simp [e]

theorem data_loaded {n c : Nat} {w : World} (hl : (w.caches n).key.length = 8) (hc : (w.caches n).cached = true) (i : Fin 8) :
    cachedData n c (i.val : Int) w = (.ok ((w.caches n).key.getD i 0), w) := by
  unfold cachedData Live.KeyCachedData
  rw [if_pos hc]
  refine (KuzToken.bind_ok (a := ()) (w' := w) rfl).trans ?_
  simp only [vgetI_getD hl]

theorem fill_step {n c : Nat} {w : World} {k i : Nat} (b : Bool) (l : List W32) :
    Live.KeyCachedData.fill (fun w => w.caches n) (store n) (shown c) (k + 1) i (store n ⟨b, l⟩ w) =
    Live.KeyCachedData.fill (fun w => w.caches n) (store n) (shown c) k (i + 1) (store n ⟨b, l.set i (w.words c i)⟩ w) := by
  conv => lhs; unfold Live.KeyCachedData.fill
  refine (KuzToken.bind_ok (a := w.words c i) (w' := store n ⟨b, l⟩ w) ?_).trans ?_
  · simp [shown, store]
  · refine (KuzToken.bind_ok (a := ()) (w' := store n ⟨b, l.set i (w.words c i)⟩ w) ?_).trans rfl
    simp only [store_at, store_store]

theorem fill_eq {n c : Nat} {w : World} {l : List W32} (hl : l.length = 8) :
    Live.KeyCachedData.fill (fun w => w.caches n) (store n) (shown c) 8 0 (store n ⟨false, l⟩ w) =
      (.ok (), store n ⟨false, (List.range 8).map (w.words c)⟩ w) := by
  obtain ⟨a0, a1, a2, a3, a4, a5, a6, a7, rfl⟩ := eight hl
  iterate 8 rw [fill_step]
  rfl

theorem data_fresh {n c : Nat} {w : World} (hl : (w.caches n).key.length = 8) (hc : (w.caches n).cached = false) (i : Fin 8) :
    cachedData n c (i.val : Int) w = (.ok (w.words c i), store n ⟨true, (List.range 8).map (w.words c)⟩ w) := by
  have hw : store n ⟨false, (w.caches n).key⟩ w = w := store_self (by rw [← hc])
  have hf := fill_eq (n := n) (c := c) (w := w) hl
  rw [hw] at hf
  unfold cachedData Live.KeyCachedData
  rw [if_neg (by simp [hc])]
  simp only [hl]
  refine (KuzToken.bind_ok hf).trans ?_
  refine (KuzToken.bind_ok (a := ()) (w' := store n ⟨true, (List.range 8).map (w.words c)⟩ w) ?_).trans ?_
  · simp only [store_at, store_store]
  · simp only [store_at]
    rw [vgetI_getD (by simp), range_getD]

/-- A call of a cached key. -/
theorem cached_eq {j c t : Nat} (e : (objects p)[j]? = some (.cachedKey c, t)) {w : World} (hl : (w.caches j).key.length = 8)
    (Q : Nat → Prop) (v : W32) (i : Fin 8) :
    (cachedKey j c).transform v (i.val : Int) (loaded p Q w) =
      (.ok (round (now w j c) i v), loaded p (fun n => Q n ∨ n = j) w) := by
  refine lazy_eq i ?_ v
  by_cases hc : (w.caches j).cached = true
  · have e1 : (loaded p Q w).caches j = w.caches j := loaded_same e (by simp [hc])
    have e2 : loaded p (fun n => Q n ∨ n = j) w = loaded p Q w := by
      unfold loaded
      congr 1
      funext n
      split
      · by_cases hn : n = j
        · subst hn; simp [hc]
        · by_cases hq : Q n <;> simp [hn, hq]
      · rfl
    rw [e2]
    refine (data_loaded (by rw [e1]; exact hl) (by rw [e1]; exact hc) i).trans ?_
    rw [e1, now, if_pos hc]
  · have hf : (w.caches j).cached = false := by simpa using hc
    by_cases hq : Q j
    · have e1 := loaded_at (w := w) e hq hf
      have e2 : loaded p (fun n => Q n ∨ n = j) w = loaded p Q w :=
        loaded_congr w fun n _ _ _ => ⟨fun h => h.elim id fun h => h ▸ hq, .inl⟩
      rw [e2]
      refine (data_loaded (by rw [e1]; simp) (by rw [e1]) i).trans ?_
      rw [e1, range_getD, now, if_neg hc]
    · have e1 : (loaded p Q w).caches j = w.caches j := loaded_same e (by simp [hq])
      refine (data_fresh (by rw [e1]; exact hl) (by rw [e1]; exact hf) i).trans ?_
      rw [now, if_neg hc]
      congr 1
      simp only [loaded, store]
      congr 1
      funext n
      by_cases hn : n = j
      · subst hn; simp [e, hf]
      · simp only [hn, if_false]
        split
        · by_cases hq : Q n <;> simp [hn, hq]
        · rfl

end Goost.MagmaViews
