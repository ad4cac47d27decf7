import Verif.Spec.StreamViews
import Verif.Lemmas.Views
import Verif.Lemmas.KuzStream
/-
Helper lemmas for C130: what a call on an iterator or on an `Imit` gives, and which keys it uses.
-/
namespace Goost.StreamViews
open Goost.KuzToken (Blk Key outside)
open Goost.Kuz (Caches ItMemory StMemory.iter StMemory.nextIter)
open Goost.Views (V Cells look In Good frozen frozenKey Holds Since Closed member inner)
open Spec Spec.Modes

variable {m : Machine}

/-! ### Keys -/

/-- The key number `n`, over variables. -/
def keyOf (ks : List (Nat × Nat)) (n : Nat) : Key Cells := makeKey n (ks.getD n (0, 0)).1 (ks.getD n (0, 0)).2

/-- The blocks behind the caches of keys. -/
def ownOf (ks : List (Nat × Nat)) (id : Nat) : Blk Cells := inner (member (keyOf ks (id / 16)) (id % 16))

/-- The keys that have been used. -/
abbrev Used := Nat → Option (BitVec 256)

/-- The caches are those of the used keys. -/
structure State (ks : List (Nat × Nat)) (c : Caches) (st : Used) : Prop where
  loaded : ∀ id, (c id).isSome ↔ 1 ≤ id % 16 ∧ id % 16 ≤ 10 ∧ (st (id / 16)).isSome
  holds : ∀ n K, st n = some K → Holds c (16 * n) (roundKey K)

/-- What the variables of a key are. -/
def halves (ks : List (Nat × Nat)) (w : Cells) (n : Nat) : BitVec 256 :=
  join64 (w (ks.getD n (0, 0)).1) ++ join64 (w (ks.getD n (0, 0)).2)

/-- What a key is now. -/
def keyNow (ks : List (Nat × Nat)) (w : Cells) (st : Used) (n : Nat) : BitVec 256 := (st n).getD (halves ks w n)

/-- Some keys are used. -/
def load (ks : List (Nat × Nat)) (w : Cells) (st : Used) (U : List Nat) : Used := fun n =>
  if n ∈ U then some (keyNow ks w st n) else st n

variable {ks : List (Nat × Nat)} {w : Cells} {c : Caches} {st : Used}

theorem keyNow_load (U : List Nat) : keyNow ks w (load ks w st U) = keyNow ks w st := by
  funext n
  simp only [keyNow, load]
  split <;> simp

theorem load_load (U V : List Nat) : load ks w (load ks w st U) V = load ks w st (U ++ V) := by
  funext n
  have := congrFun (keyNow_load (ks := ks) (w := w) (st := st) U) n
  simp only [load] at this ⊢
  rw [this]
  by_cases h1 : n ∈ U <;> by_cases h2 : n ∈ V <;> simp [h1, h2]

theorem load_congr {U V : List Nat} (h : ∀ n, n ∈ U ↔ n ∈ V) : load ks w st U = load ks w st V := by
  funext n
  simp only [load, h n]

theorem load_twice (U : List Nat) : load ks w (load ks w st U) U = load ks w st U := by
  rw [load_load]
  exact load_congr fun n => by simp

theorem load_nil : load ks w st [] = st := by
  funext n
  simp [load]

theorem good_keyOf (n r : Nat) (h1 : 1 ≤ r) (h10 : r ≤ 10) : Good (ownOf ks) (member (keyOf ks n) r) := by
  refine Views.good_key (own := ownOf ks) (h := .user (look (ks.getD n (0, 0)).1)) (l := .user (look (ks.getD n (0, 0)).2))
    (base := 16 * n) ⟨_, rfl⟩ ⟨_, rfl⟩ (fun r h1 h10 => ?_) r h1 h10
  have e1 : (16 * n + r) / 16 = n := by omega
  have e2 : (16 * n + r) % 16 = r := by omega
  rw [ownOf, e1, e2]; rfl

theorem State.closed (h : State ks c st) : Closed (ownOf ks) c := by
  intro id hid j hj
  obtain ⟨h1, h10, hs⟩ := (h.loaded id).1 hid
  have hin : In (member (keyOf ks (id / 16)) (id % 16)) j := by
    rw [keyOf, makeKey, Views.member_cached _ _ _ _ h1 h10]
    exact .inr hj
  rcases Views.in_key _ _ _ _ j h1 h10 hin with ⟨q, q1, q10, rfl⟩ | hin | hin
  · have e1 : (16 * (id / 16) + q) / 16 = id / 16 := by omega
    exact (h.loaded _).2 ⟨by omega, by omega, by rw [e1]; exact hs⟩
  · exact hin.elim
  · exact hin.elim

/-- A key that has not been used is what its variables are, one that has been used is what it was. -/
theorem State.keyValues (hm : m.unalignedLoad = true) (h : State ks c st) (w : Cells) (n : Nat) :
    Goost.KeyValues m (frozenKey c w (keyOf ks n)) (roundKey (keyNow ks w st n)) := by
  cases e : st n with
  | some K =>
    have : keyNow ks w st n = K := by rw [keyNow, e]; rfl
    rw [this]
    exact Views.frozenKey_used (h.holds n K e)
  | none =>
    have : keyNow ks w st n = halves ks w n := by rw [keyNow, e]; rfl
    rw [this, keyOf, makeKey, Views.frozenKey_fresh]
    · exact ofBlocks_values hm ⟨_, rfl, rfl⟩ ⟨_, rfl, rfl⟩ _
    · intro r h1 h10
      have e1 : (16 * n + r) / 16 = n := by omega
      cases hc : c (16 * n + r) with
      | none => rfl
      | some v =>
        have := ((h.loaded (16 * n + r)).1 (by rw [hc]; rfl)).2.2
        rw [e1, e] at this
        cases this

theorem State.encrypts (hm : m.unalignedLoad = true) (h : State ks c st) (w : Cells) (n : Nat) :
    Encrypts m (frozenKey c w (keyOf ks n)) (keyNow ks w st n) :=
  fun _ v hb => (h.keyValues hm w n).encrypt hm ⟨v, hb, rfl⟩

/-- An evaluation of a tree whose caches are those of the keys `U`. -/
theorem State.evaluated (hm : m.unalignedLoad = true) (h : State ks c st) {b : Blk Cells} (hg : Good (ownOf ks) b)
    (U : List Nat) (hin : ∀ j, In b j ↔ 1 ≤ j % 16 ∧ j % 16 ≤ 10 ∧ j / 16 ∈ U) :
    ∃ v c', b.value m (c, w) = (.ok v, (c', w)) ∧ (frozen c w b).value m = .ok v ∧ State ks c' (load ks w st U) := by
  obtain ⟨v, c', e1, e2, e3, -, e5⟩ := Views.evaluates hm (ownOf ks) w c b hg c (fun id => .inl rfl) h.closed
  have hl : ∀ id, (c' id).isSome ↔ 1 ≤ id % 16 ∧ id % 16 ≤ 10 ∧ (load ks w st U (id / 16)).isSome := by
    intro id
    rw [e5, h.loaded, hin, ← and_or_left, ← and_or_left]
    by_cases hu : id / 16 ∈ U <;> simp [load, hu]
  refine ⟨v, c', e1, e2, hl, fun n K hK r => ?_⟩
  have hr := r.isLt
  have hkv := Views.keyValues_member (h.keyValues hm w n) r
  have hd : (16 * n + (r.val + 1)) / 16 = n := by omega
  have hmod : (16 * n + (r.val + 1)) % 16 = r.val + 1 := by omega
  have hsome := (hl (16 * n + (r.val + 1))).2 ⟨by omega, by omega, by rw [hd, hK]; rfl⟩
  have hKn : K = keyNow ks w st n := by
    rw [load] at hK
    split at hK
    · exact (Option.some.inj hK).symm
    · rw [keyNow, hK]; rfl
  rw [hKn]
  rcases e3 (16 * n + (r.val + 1)) with hc | ⟨hc, v', hv', hv''⟩
  · rw [hc] at hsome ⊢
    have := ((h.loaded _).1 hsome).2.2
    rw [hd] at this
    obtain ⟨K', hK'⟩ := Option.isSome_iff_exists.1 this
    have : keyNow ks w st n = K' := by rw [keyNow, hK']; rfl
    rw [this]
    exact h.holds n K' hK' r
  · refine ⟨v', hv', ?_⟩
    rw [keyOf, makeKey, Views.member_cached _ _ _ _ (by omega) (by omega)] at hkv
    rw [ownOf, hd, hmod] at hv''
    obtain ⟨v3, h3, h4⟩ := hkv
    simp only [frozen, hc, Kuz.Blk.value] at h3
    rw [keyOf, makeKey, h3] at hv''
    cases hv''
    exact h4

/-! ### Trees of blocks -/

/-- A tree that has no caches but those of the key `k` and shows `x` of the key. -/
structure Tree (m : Machine) (ks : List (Nat × Nat)) (w : Cells) (k : Nat) (b : Blk Cells)
    (x : BitVec 256 → BitVec 128) : Prop where
  good : Good (ownOf ks) b
  caches : ∀ j, In b j → 1 ≤ j % 16 ∧ j % 16 ≤ 10 ∧ j / 16 = k
  value : ∀ c st, State ks c st → HasValue m (frozen c w b) (x (keyNow ks w st k))

variable {k : Nat} {b b' : Blk Cells} {x x' : BitVec 256 → BitVec 128}

theorem Tree.raw (lo hi : W64) : Tree m ks w k (.raw lo hi) (fun _ => hi ++ lo) :=
  ⟨trivial, fun _ h => h.elim, fun _ _ _ => HasValue.raw m lo hi⟩

theorem Tree.incremented (h : Tree m ks w k b x) : Tree m ks w k (.incremented b) (fun K => x K + 1) :=
  ⟨h.good, h.caches, fun c st hs => (h.value c st hs).incremented⟩

theorem Tree.xored (h : Tree m ks w k b x) (h' : Tree m ks w k b' x') : Tree m ks w k (.xored b b') (fun K => x K ^^^ x' K) :=
  ⟨⟨h.good, h'.good⟩, fun j hj => hj.elim (h.caches j) (h'.caches j), fun c st hs => (h.value c st hs).xored (h'.value c st hs)⟩

theorem Tree.double (h : Tree m ks w k b x) :
    Tree m ks w k (.xoredIfHighBit b (KuzToken.BlkRaw.ofU64 0x87)) (fun K => Modes.double 0x87 (x K)) :=
  ⟨⟨h.good, _, _, rfl⟩, fun j hj => hj.elim (h.caches j) False.elim, fun c st hs => (h.value c st hs).double⟩

theorem in_encrypted (h : Tree m ks w k b x) (j : Nat) :
    In (KuzToken.BlkEncrypted b (keyOf ks k)) j ↔ 1 ≤ j % 16 ∧ j % 16 ≤ 10 ∧ j / 16 = k := by
  rw [keyOf, makeKey, Views.in_encryption]
  constructor
  · rintro (h' | ⟨q, q1, q10, rfl⟩ | h' | h')
    · exact h.caches j h'
    · omega
    · exact h'.elim
    · exact h'.elim
  · exact fun ⟨h1, h10, e⟩ => .inr (.inl ⟨j % 16, h1, h10, by omega⟩)

theorem Tree.encrypted (hm : m.unalignedLoad = true) (h : Tree m ks w k b x) :
    Tree m ks w k (KuzToken.BlkEncrypted b (keyOf ks k)) (fun K => Spec.Kuz.enc K (x K)) where
  good := Views.good_encrypted h.good fun r h1 h10 => good_keyOf k r h1 h10
  caches j hj := (in_encrypted h j).1 hj
  value c st hs := by
    rw [Views.frozen_encrypted]
    exact (hs.encrypts hm w k).has (h.value c st hs)

/-- An encryption. -/
theorem State.encrypted (hm : m.unalignedLoad = true) (h : State ks c st) (ht : Tree m ks w k b x) :
    ∃ v c', (KuzToken.BlkEncrypted b (keyOf ks k)).value m (c, w) = (.ok v, (c', w)) ∧
      join64 v = Spec.Kuz.enc (keyNow ks w st k) (x (keyNow ks w st k)) ∧ State ks c' (load ks w st [k]) := by
  obtain ⟨v, c', e1, e2, e3⟩ := h.evaluated hm (w := w) (ht.encrypted hm).good [k] (fun j => by simp [in_encrypted ht])
  obtain ⟨v', e4, e5⟩ := (ht.encrypted hm).value c st h
  rw [e2] at e4; cases e4
  exact ⟨v, c', e1, e5, e3⟩

/-! ### Streams -/

/-- What a stream rests on. -/
inductive Desc where
  | own (cells : List Nat) (size : Nat)
  | memory (vals : List V)
  | ctr (d : Desc) (k : Nat) (iv : W64)
  deriving Inhabited

/-- The words of a stream in memory. -/
def words (vals : List V) : List W64 := vals.flatMap fun v => [v.1, v.2]

def stepped (iv : W64) : Nat → Blk Cells
  | 0 => .raw 0 iv
  | n + 1 => .incremented (stepped iv n)

def Desc.stream (ks : List (Nat × Nat)) : Desc → St
  | .own cells size => .own cells size
  | .memory vals => .memory (words vals)
  | .ctr d k iv => .ctr (d.stream ks) (keyOf ks k) iv

def Desc.it (ks : List (Nat × Nat)) (j : Nat) : Desc → It
  | .own cells size => .own (cells.drop j) size
  | .memory vals => .memory (words vals) ⟨16 * j, vals.getD j (0, 0)⟩
  | .ctr d k iv => .ctr (d.it ks j) (keyOf ks k) (stepped iv j)

def Desc.len : Desc → Nat
  | .own cells _ => cells.length
  | .memory vals => vals.length
  | .ctr d _ _ => d.len

def Desc.size : Desc → Nat
  | .own _ size => size
  | .memory _ => 16
  | .ctr d _ _ => d.size

def Desc.keys : Desc → List Nat
  | .own _ _ => []
  | .memory _ => []
  | .ctr d k _ => d.keys ++ [k]

def Desc.blocks (w : Cells) (K : Nat → BitVec 256) : Desc → List (BitVec 128)
  | .own cells _ => cells.map fun c => join64 (w c)
  | .memory vals => vals.map join64
  | .ctr d k iv => Modes.ctr (k := 64) (Spec.Kuz.enc (K k)) iv (d.blocks w K)

theorem Desc.blocks_length (w : Cells) (K : Nat → BitVec 256) (d : Desc) : (d.blocks w K).length = d.len := by
  induction d with
  | own cells size => simp [blocks, len]
  | memory vals => simp [blocks, len]
  | ctr d k iv ih => simp [blocks, len, Modes.ctr, ih]

theorem stepped_tree (iv : W64) (j : Nat) : Tree m ks w k (stepped iv j) (fun _ => counter iv j) := by
  induction j with
  | zero =>
    have : (fun _ : BitVec 256 => counter iv 0) = fun _ => iv ++ (0 : W64) := by
      funext _; simp [counter]
    rw [this]
    exact Tree.raw 0 iv
  | succ j ih =>
    have e : (fun _ : BitVec 256 => counter iv (j + 1)) = fun _ => counter iv j + 1 := funext fun _ => counter_succ iv j
    rw [e]
    exact ih.incremented

theorem words_length (vals : List V) : (words vals).length = 2 * vals.length := by
  induction vals with
  | nil => rfl
  | cons v r ih => simp only [words, List.flatMap_cons, List.length_append, List.length_cons, List.length_nil] at ih ⊢; omega

theorem words_next (vals : List V) (j : Nat) (h : j < vals.length) :
    StMemory.nextIter (words vals) (16 * j) = .ok (some ⟨16 * j, vals.getD j (0, 0)⟩) := by
  have e : words vals = words (vals.take j) ++ (vals.getD j (0, 0)).1 :: (vals.getD j (0, 0)).2 :: words (vals.drop (j + 1)) := by
    have : vals = vals.take j ++ vals.getD j (0, 0) :: vals.drop (j + 1) := by
      simp [h]
    conv => lhs; rw [this]
    simp [words]
  have hl : (words (vals.take j)).length = 2 * j := by rw [words_length, List.length_take]; omega
  have := nextIter_pair (words (vals.take j)) (words (vals.drop (j + 1))) (vals.getD j (0, 0)).1 (vals.getD j (0, 0)).2
    (by omega)
  rw [← e, hl, show 8 * (2 * j) = 16 * j by omega] at this
  exact this

theorem words_end (vals : List V) : StMemory.nextIter (words vals) (16 * vals.length) = .ok none := by
  have := nextIter_end (words vals)
  rwa [words_length, show 8 * (2 * vals.length) = 16 * vals.length by omega] at this

/-- `value()` of an iterator. -/
theorem State.value (hm : m.unalignedLoad = true) (h : State ks c st) (d : Desc) (j : Nat) (hj : j < d.len) :
    ∃ v c', (d.it ks j).value m (c, w) = (.ok v, (c', w)) ∧
      (d.blocks w (keyNow ks w st))[j]? = some (join64 v) ∧ State ks c' (load ks w st d.keys) := by
  induction d generalizing c st with
  | own cells size =>
    simp only [Desc.len] at hj
    refine ⟨w cells[j], c, ?_, ?_, by rw [Desc.keys, load_nil]; exact h⟩
    · simp only [Desc.it]
      rw [List.drop_eq_getElem_cons hj]
      show outside (look cells[j]) (c, w) = _
      rfl
    · simp [Desc.blocks, hj]
  | memory vals =>
    simp only [Desc.len] at hj
    refine ⟨vals.getD j (0, 0), c, rfl, ?_, by rw [Desc.keys, load_nil]; exact h⟩
    simp [Desc.blocks, hj]
  | ctr d k iv ih =>
    obtain ⟨v, c', e1, e2, e3⟩ := ih h hj
    obtain ⟨g, c'', f1, f2, f3⟩ := e3.encrypted hm (w := w) (stepped_tree (m := m) (k := k) iv j)
    rw [keyNow_load] at f2
    rw [load_load] at f3
    refine ⟨(v.1 ^^^ g.1, v.2 ^^^ g.2), c'', ?_, ?_, f3⟩
    · simp only [Desc.it, It.value]
      rw [KuzToken.bind_ok e1, KuzToken.bind_ok f1]; rfl
    · have e : join64 v ^^^ Spec.Kuz.enc (keyNow ks w st k) (counter iv j) = join64 (v.1 ^^^ g.1, v.2 ^^^ g.2) := by
        rw [← f2]
        exact BitVec.xor_append
      simp only [Desc.blocks, Modes.ctr, List.getElem?_mapIdx, e2, Option.map_some]
      exact congrArg some e

theorem memory_last (vals : List V) (i : ItMemory) (j : Nat) (hi : i.offset = 16 * j) (hj : j < vals.length) :
    (ItMemory.impl (words vals)).last i = .ok (decide (j + 1 = vals.length)) := by
  simp only [ItMemory.impl, ItMemory.next, if_true, hi]
  rw [show 16 * j + 16 = 16 * (j + 1) by omega]
  by_cases e : j + 1 = vals.length
  · rw [e, words_end, decide_eq_true rfl]; rfl
  · rw [words_next _ _ (by omega), decide_eq_false e]; rfl

theorem it_last (d : Desc) (j : Nat) (hj : j < d.len) (s : Caches × Cells) :
    (d.it ks j).last s = (.ok (decide (j + 1 = d.len)), s) := by
  induction d with
  | own cells size =>
    simp only [Desc.len] at hj ⊢
    have : decide ((cells.drop j).length ≤ 1) = decide (j + 1 = cells.length) := by
      rw [List.length_drop]; exact decide_eq_decide.2 (by omega)
    simp only [Desc.it, It.last, this]; rfl
  | memory vals =>
    simp only [Desc.it, It.last, memory_last vals ⟨16 * j, vals.getD j (0, 0)⟩ j rfl hj]; rfl
  | ctr d k iv ih => exact ih hj

theorem it_size (d : Desc) (j : Nat) (hj : j < d.len) (s : Caches × Cells) :
    (d.it ks j).size s = (.ok (if j + 1 = d.len then d.size else 16), s) := by
  induction d with
  | own cells size =>
    simp only [Desc.len] at hj
    show (Exec.ok (if (cells.drop j).length ≤ 1 then size else 16), s) = (Exec.ok (if j + 1 = cells.length then size else 16), s)
    rw [List.length_drop]
    by_cases e : j + 1 = cells.length
    · rw [if_pos e, if_pos (by omega)]
    · rw [if_neg e, if_neg (by omega)]
  | memory vals => simp only [Desc.it, It.size, Desc.size, ite_self]; rfl
  | ctr d k iv ih => exact ih hj

theorem it_next (d : Desc) (j : Nat) (hj : j + 1 < d.len) (s : Caches × Cells) :
    (d.it ks j).next s = (.ok (some (d.it ks (j + 1))), s) := by
  induction d with
  | own cells size =>
    simp only [Desc.len] at hj
    simp only [Desc.it, It.next, List.length_drop, List.tail_drop]
    rw [if_neg (by omega)]; rfl
  | memory vals =>
    simp only [Desc.len] at hj
    simp only [Desc.it, It.next, ItMemory.impl, ItMemory.next, if_true]
    rw [show 16 * j + 16 = 16 * (j + 1) by omega, words_next _ _ hj]; rfl
  | ctr d k iv ih =>
    simp only [Desc.it, It.next]
    rw [KuzToken.bind_ok (ih hj)]; rfl

theorem st_iter (d : Desc) (hd : 0 < d.len) (s : Caches × Cells) :
    (d.stream ks).iter s = (.ok (some (d.it ks 0)), s) := by
  induction d with
  | own cells size =>
    have : cells ≠ [] := fun e => by subst e; exact absurd hd (by simp [Desc.len])
    simp only [Desc.stream, Desc.it, St.iter, if_neg this, List.drop_zero]; rfl
  | memory vals =>
    simp only [Desc.stream, Desc.it, St.iter, StMemory.iter]
    have := words_next vals 0 hd
    rw [Nat.mul_zero] at this
    rw [this]; rfl
  | ctr d k iv ih =>
    simp only [Desc.stream, Desc.it, St.iter]
    rw [KuzToken.bind_ok (ih hd)]; rfl

/-! ### The MAC -/

theorem chain_congr_take {E : BitVec 128 → BitVec 128} {a : BitVec 128} {l : List (BitVec 128)} {j n : Nat} {y : BitVec 128}
    (hy : l[j]? = some y) : chain E a ((l.drop j).take (n + 1)) = chain E (E (y ^^^ a)) ((l.drop (j + 1)).take n) := by
  obtain ⟨hl, rfl⟩ := List.getElem?_eq_some_iff.1 hy
  rw [List.drop_eq_getElem_cons hl, List.take_succ_cons, chain_cons]

/-- The loop. -/
theorem State.loop (hm : m.unalignedLoad = true) (d : Desc) (k : Nat) (n : Nat) {j fuel : Nat} {c : Caches} {st : Used}
    (h : State ks c st) (hj : j + n + 1 = d.len) (hf : n < fuel) {b : Blk Cells} {x : BitVec 256 → BitVec 128}
    (ht : Tree m ks w k b x) : ∃ b' c' st', Imit.loop m (keyOf ks k) fuel (some (d.it ks j)) b (c, w) =
      (.ok (b', some (d.it ks (d.len - 1))), (c', w)) ∧
      Tree m ks w k b' (fun K => chain (Spec.Kuz.enc K) (x K) (((d.blocks w (keyNow ks w st)).drop j).take n)) ∧
      State ks c' st' ∧ keyNow ks w st' = keyNow ks w st ∧ load ks w st' d.keys = load ks w st d.keys := by
  induction n generalizing j fuel c st b x with
  | zero =>
    obtain ⟨f, rfl⟩ : ∃ f, fuel = f + 1 := ⟨fuel - 1, by omega⟩
    refine ⟨b, c, st, ?_, ?_, h, rfl, rfl⟩
    · simp only [Imit.loop, deref]
      rw [KuzToken.bind_ok (it_last d j (by omega) (c, w)), decide_eq_true (by omega : j + 1 = d.len)]
      simp only [Bool.not_true, Bool.false_eq_true, if_false]
      rw [show d.len - 1 = j by omega]; rfl
    · simp only [List.take_zero, chain_nil]
      exact ht
  | succ n ih =>
    obtain ⟨f, rfl⟩ : ∃ f, fuel = f + 1 := ⟨fuel - 1, by omega⟩
    obtain ⟨v, c1, e1, e2, e3⟩ := h.value hm (w := w) d j (by omega)
    have ht' := (ht.xored (Tree.raw (m := m) (ks := ks) (w := w) (k := k) v.1 v.2)).encrypted hm
    obtain ⟨b', c', st', f1, f2, f3, f4, f5⟩ := ih e3 (by omega : j + 1 + n + 1 = d.len) (by omega : n < f) ht'
    refine ⟨b', c', st', ?_, ?_, f3, by rw [f4, keyNow_load], by rw [f5, load_twice]⟩
    · simp only [Imit.loop, deref]
      rw [KuzToken.bind_ok (it_last d j (by omega) (c, w)), decide_eq_false (by omega : ¬ j + 1 = d.len)]
      simp only [Bool.not_false, if_true]
      rw [KuzToken.bind_ok e1, KuzToken.bind_ok (it_next d j (by omega) (c1, w))]
      exact f1
    · rw [keyNow_load] at f2
      have : ∀ K, chain (Spec.Kuz.enc K) (x K) (((d.blocks w (keyNow ks w st)).drop j).take (n + 1)) =
          chain (Spec.Kuz.enc K) (Spec.Kuz.enc K (x K ^^^ (v.2 ++ v.1)))
            (((d.blocks w (keyNow ks w st)).drop (j + 1)).take n) := fun K => by
        rw [chain_congr_take e2, BitVec.xor_comm]; rfl
      simp only [this]
      exact f2

/-- `Imit::value`. -/
theorem State.mac (hm : m.unalignedLoad = true) (h : State ks c st) (d : Desc) (hd : 0 < d.len) (k fuel : Nat)
    (hf : d.len ≤ fuel) : ∃ v c' xs y, Imit.value m (d.stream ks) fuel (keyOf ks k) (c, w) = (.ok v, (c', w)) ∧
      d.blocks w (keyNow ks w st) = xs ++ [y] ∧
      join64 v = omac (Spec.Kuz.enc (keyNow ks w st k)) (if d.size = 16 then macK1 (Spec.Kuz.enc (keyNow ks w st k)) 0x87
        else macK2 (Spec.Kuz.enc (keyNow ks w st k)) 0x87) xs y ∧
      State ks c' (load ks w st (d.keys ++ [k])) := by
  have hz : Tree m ks w k KuzToken.BlkRaw.zero (fun _ => 0) := Tree.raw (m := m) 0 0
  obtain ⟨b, c1, st1, e1, e2, e3, e4, e5⟩ := h.loop hm (w := w) d k (d.len - 1) (j := 0) (fuel := fuel) (by omega) (by omega) hz
  obtain ⟨v, c2, f1, f2, f3⟩ := e3.value hm (w := w) d (d.len - 1) (by omega)
  rw [e4] at f2
  rw [e5] at f3
  have hb : d.blocks w (keyNow ks w st) = (d.blocks w (keyNow ks w st)).take (d.len - 1) ++ [join64 v] := by
    obtain ⟨hl, hv⟩ := List.getElem?_eq_some_iff.1 f2
    rw [← hv, List.take_append_getElem]
    rw [show d.len - 1 + 1 = d.len by omega, ← Desc.blocks_length w (keyNow ks w st) d, List.take_length]
  rw [List.drop_zero] at e2
  have ht := e2.xored (Tree.raw (m := m) (ks := ks) (w := w) (k := k) v.1 v.2)
  have k1 := (hz.encrypted hm).double
  have fin : ∀ (B : Blk Cells) (y : BitVec 256 → BitVec 128), Tree m ks w k B y → ∃ r c3,
      (KuzToken.BlkEncrypted (.xored (.xored b (KuzToken.BlkRaw.ofPair v)) B) (keyOf ks k)).value m (c2, w) = (.ok r, (c3, w)) ∧
      join64 r = omac (Spec.Kuz.enc (keyNow ks w st k)) (y (keyNow ks w st k))
        ((d.blocks w (keyNow ks w st)).take (d.len - 1)) (join64 v) ∧ State ks c3 (load ks w st (d.keys ++ [k])) := by
    intro B y hB
    obtain ⟨r, c3, g1, g2, g3⟩ := f3.encrypted hm (w := w) (ht.xored hB)
    rw [load_load] at g3
    rw [keyNow_load] at g2
    refine ⟨r, c3, g1, ?_, g3⟩
    rw [g2, omac, BitVec.xor_comm (join64 v)]
    rfl
  by_cases hn : d.size = 16
  · obtain ⟨r, c3, g1, g2, g3⟩ := fin _ _ k1
    refine ⟨r, c3, _, _, ?_, hb, by rw [if_pos hn]; exact g2, g3⟩
    simp only [Imit.value, deref]
    rw [KuzToken.bind_ok (st_iter d hd (c, w)), KuzToken.bind_ok e1]
    simp only
    rw [KuzToken.bind_ok f1, KuzToken.bind_ok (it_size d _ (by omega) (c2, w))]
    rw [if_pos (by omega : d.len - 1 + 1 = d.len), if_pos hn]
    exact g1
  · obtain ⟨r, c3, g1, g2, g3⟩ := fin _ _ k1.double
    refine ⟨r, c3, _, _, ?_, hb, by rw [if_neg hn]; exact g2, g3⟩
    simp only [Imit.value, deref]
    rw [KuzToken.bind_ok (st_iter d hd (c, w)), KuzToken.bind_ok e1]
    simp only
    rw [KuzToken.bind_ok f1, KuzToken.bind_ok (it_size d _ (by omega) (c2, w))]
    rw [if_pos (by omega : d.len - 1 + 1 = d.len), if_neg hn]
    exact g1

end Goost.StreamViews
