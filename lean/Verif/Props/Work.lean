import Verif.Model.Work
import Verif.Lemmas.Reads
import Verif.Props.KuzStream
import Verif.Props.Kuznyechik
import Verif.Props.Mac
/-
Property C88: how much work the modes are.
-/
namespace Goost.Props
open Spec Spec.Modes
variable {W σ ι : Type}

/-! ### Lemmas -/

section
open Kuz

/-- The number of calls if no cache is ever loaded and no test saves one. -/
private def worst : Blk → Nat
  | .raw _ _ => 1
  | .str _ => 1
  | .xored a b => 1 + worst a + worst b
  | .blkS b => 1 + worst b
  | .blkR b => 1 + worst b
  | .incremented b => 1 + worst b
  | .shifted b _ => 1 + worst b
  | .xoredIfHighBit a b => 1 + 2 * worst a + worst b
  | .cached _ b => 1 + worst b
  | .user _ => 1

private theorem calls_xored_le (m : Machine) (a b : Blk) (c : Caches) (n : Nat) (h : ∀ c, b.calls m c ≤ n) :
    (Blk.xored a b).calls m c ≤ 1 + a.calls m c + n := by
  simp only [Blk.calls]
  split
  · have := h ‹_›; omega
  · omega

private theorem calls_high_le (m : Machine) (a b : Blk) (c : Caches) (n k : Nat) (h : ∀ c, a.calls m c ≤ n)
    (h' : ∀ c, b.calls m c ≤ k) :
    (Blk.xoredIfHighBit a b).calls m c ≤ 1 + 2 * n + k := by
  simp only [Blk.calls]
  have h0 := h c
  refine Nat.le_trans (Nat.add_le_add_left (m := n + k) ?_ _) (by omega)
  split
  · refine Nat.add_le_add (h _) ?_
    split
    · split
      · exact Nat.zero_le _
      · exact h' _
    · exact Nat.zero_le _
  · exact Nat.zero_le _

private theorem calls_le_worst (m : Machine) (b : Blk) : ∀ c, b.calls m c ≤ worst b := by
  induction b with
  | raw _ _ => intro c; exact Nat.le_refl _
  | str _ => intro c; exact Nat.le_refl _
  | user _ => intro c; exact Nat.le_refl _
  | xored a b iha ihb =>
    intro c
    have h1 := calls_xored_le m a b c _ ihb
    have h2 := iha c
    simp only [worst]; omega
  | blkS b ih => intro c; have := ih c; simp only [Blk.calls, worst]; omega
  | blkR b ih => intro c; have := ih c; simp only [Blk.calls, worst]; omega
  | incremented b ih => intro c; have := ih c; simp only [Blk.calls, worst]; omega
  | shifted b _ ih => intro c; have := ih c; simp only [Blk.calls, worst]; omega
  | xoredIfHighBit a b iha ihb => intro c; exact calls_high_le m a b c _ _ iha ihb
  | cached id b ih =>
    intro c
    have := ih c
    simp only [Blk.calls, worst]
    split <;> omega

private theorem transform_calls (m : Machine) (b : Blk) (c : Caches) (n : Nat) :
    (BlkL.transform b n).calls m c = b.calls m c + n := by
  induction n generalizing b with
  | zero => rfl
  | succ n ih => rw [BlkL.transform, ih]; simp only [Blk.calls]; omega

private theorem step_calls_le (m : Machine) (b k : Blk) (c : Caches) (n : Nat) (h : ∀ c, k.calls m c ≤ n) :
    (Key.encryptStep b k).calls m c ≤ b.calls m c + 18 + n := by
  have := calls_xored_le m b k c n h
  rw [Key.encryptStep, BlkL, transform_calls]
  simp only [Blk.calls] at this ⊢
  omega

private theorem step_calls_ge (m : Machine) (b k : Blk) (c : Caches) :
    b.calls m c ≤ (Key.encryptStep b k).calls m c := by
  rw [Key.encryptStep, BlkL, transform_calls]
  simp only [Blk.calls]
  omega

/-- What the round keys and the rounds cost at most. -/
private def keyWork (key : Key) : Nat :=
  worst key.k1 + worst key.k2 + worst key.k3 + worst key.k4 + worst key.k5 + worst key.k6 +
    worst key.k7 + worst key.k8 + worst key.k9 + worst key.k10 + 163

private theorem encrypted_calls_le (m : Machine) (b : Blk) (key : Key) (c : Caches) :
    (BlkEncrypted b key).calls m c ≤ b.calls m c + keyWork key := by
  simp only [BlkEncrypted, Key.encrypt, keyWork]
  have h1 := step_calls_le m b key.k1 c _ (calls_le_worst m _)
  have h2 := step_calls_le m (Key.encryptStep b key.k1) key.k2 c _ (calls_le_worst m _)
  generalize Key.encryptStep b key.k1 = t1 at *
  have h3 := step_calls_le m (Key.encryptStep t1 key.k2) key.k3 c _ (calls_le_worst m _)
  generalize Key.encryptStep t1 key.k2 = t2 at *
  have h4 := step_calls_le m (Key.encryptStep t2 key.k3) key.k4 c _ (calls_le_worst m _)
  generalize Key.encryptStep t2 key.k3 = t3 at *
  have h5 := step_calls_le m (Key.encryptStep t3 key.k4) key.k5 c _ (calls_le_worst m _)
  generalize Key.encryptStep t3 key.k4 = t4 at *
  have h6 := step_calls_le m (Key.encryptStep t4 key.k5) key.k6 c _ (calls_le_worst m _)
  generalize Key.encryptStep t4 key.k5 = t5 at *
  have h7 := step_calls_le m (Key.encryptStep t5 key.k6) key.k7 c _ (calls_le_worst m _)
  generalize Key.encryptStep t5 key.k6 = t6 at *
  have h8 := step_calls_le m (Key.encryptStep t6 key.k7) key.k8 c _ (calls_le_worst m _)
  generalize Key.encryptStep t6 key.k7 = t7 at *
  have h9 := step_calls_le m (Key.encryptStep t7 key.k8) key.k9 c _ (calls_le_worst m _)
  generalize Key.encryptStep t7 key.k8 = t8 at *
  have h10 := calls_xored_le m (Key.encryptStep t8 key.k9) key.k10 c _ (calls_le_worst m _)
  omega

private theorem encrypted_calls_ge (m : Machine) (b : Blk) (key : Key) (c : Caches) :
    b.calls m c ≤ (BlkEncrypted b key).calls m c := by
  simp only [BlkEncrypted, Key.encrypt]
  have h : ∀ a k : Blk, a.calls m c ≤ (Blk.xored a k).calls m c := by
    intro a k; simp only [Blk.calls]; omega
  exact Nat.le_trans (step_calls_ge m b key.k1 c) <| Nat.le_trans (step_calls_ge m _ key.k2 c) <|
    Nat.le_trans (step_calls_ge m _ key.k3 c) <| Nat.le_trans (step_calls_ge m _ key.k4 c) <|
    Nat.le_trans (step_calls_ge m _ key.k5 c) <| Nat.le_trans (step_calls_ge m _ key.k6 c) <|
    Nat.le_trans (step_calls_ge m _ key.k7 c) <| Nat.le_trans (step_calls_ge m _ key.k8 c) <|
    Nat.le_trans (step_calls_ge m _ key.k9 c) (h _ _)

private theorem counter_calls (m : Machine) (iv : W64) (c : Caches) (n : Nat) :
    (Nat.repeat Blk.incremented n (.raw 0 iv)).calls m c = n + 1 := by
  induction n with
  | zero => rfl
  | succ n ih => simp only [Nat.repeat, Blk.calls, ih]; omega

/-- Evaluating the block leaves the caches as they are. -/
private def Quiet (m : Machine) (c : Caches) (b : Blk) : Prop := (b.valueS m c).2 = c

private theorem Quiet.cached {m : Machine} {c : Caches} {id : Nat} {b : Blk} {v : W64 × W64}
    (h : c id = some v) : Quiet m c (.cached id b) := by
  simp only [Quiet, Blk.valueS, h]

private theorem Quiet.xored {m : Machine} {c : Caches} {a b : Blk} (ha : Quiet m c a)
    (hb : Quiet m c b) : Quiet m c (.xored a b) := by
  unfold Quiet at *
  simp only [Blk.valueS]
  generalize a.valueS m c = r at *
  obtain ⟨x, c'⟩ := r
  simp only at ha
  subst ha
  cases x with
  | ok va =>
    simp only
    generalize b.valueS m c' = r at *
    obtain ⟨x, c''⟩ := r
    simp only at hb
    subst hb
    cases x <;> rfl
  | _ => rfl

private theorem Quiet.blkS {m : Machine} {c : Caches} {b : Blk} (h : Quiet m c b) :
    Quiet m c (.blkS b) := h

private theorem Quiet.transform {m : Machine} {c : Caches} {b : Blk} (h : Quiet m c b) (n : Nat) :
    Quiet m c (BlkL.transform b n) := by
  induction n generalizing b with
  | zero => exact h
  | succ n ih => exact ih (b := .blkR b) h

private theorem Quiet.step {m : Machine} {c : Caches} {b k : Blk} (h : Quiet m c b)
    (hk : Quiet m c k) : Quiet m c (Key.encryptStep b k) := Quiet.transform (h.xored hk).blkS 16

private theorem calls_xored_quiet {m : Machine} {c : Caches} {a b : Blk} (h : Quiet m c a) :
    (Blk.xored a b).calls m c ≤ 1 + a.calls m c + b.calls m c := by
  unfold Quiet at h
  simp only [Blk.calls]
  generalize a.valueS m c = r at *
  obtain ⟨x, c'⟩ := r
  simp only at h
  subst h
  cases x <;> simp

private theorem step_calls_quiet {m : Machine} {c : Caches} {b k : Blk} (h : Quiet m c b) {n : Nat}
    (hk : k.calls m c = 1) (hn : b.calls m c ≤ n) :
    (Key.encryptStep b k).calls m c ≤ n + 19 := by
  have := calls_xored_quiet (b := k) h
  rw [Key.encryptStep, BlkL, transform_calls]
  simp only [Blk.calls] at this ⊢
  omega

/-- A loaded cache stays loaded. -/
private theorem stays (m : Machine) (id : Nat) (b : Blk) :
    ∀ c, (∃ v, c id = some v) → ∃ v, (b.valueS m c).2 id = some v := by
  induction b with
  | raw _ _ => exact fun c h => h
  | str _ => exact fun c h => h
  | user _ => exact fun c h => h
  | blkS b ih => exact ih
  | blkR b ih => exact ih
  | incremented b ih => exact ih
  | shifted b _ ih => exact ih
  | xored a b iha ihb =>
    intro c h
    have h1 := iha c h
    simp only [Blk.valueS]
    generalize a.valueS m c = r at *
    obtain ⟨x, c'⟩ := r
    cases x with
    | ok va =>
      have h2 := ihb c' h1
      simp only
      generalize b.valueS m c' = r at *
      obtain ⟨x, c''⟩ := r
      cases x <;> exact h2
    | _ => exact h1
  | xoredIfHighBit a b iha ihb =>
    intro c h
    have h1 := iha c h
    simp only [Blk.valueS]
    generalize a.valueS m c = r at *
    obtain ⟨x, c'⟩ := r
    cases x with
    | ok va =>
      have h2 := iha c' h1
      simp only
      generalize a.valueS m c' = r at *
      obtain ⟨x, c2⟩ := r
      cases x with
      | ok va' =>
        have h3 := ihb c2 h2
        simp only
        split
        · exact h2
        · split
          · generalize b.valueS m c2 = r at *
            obtain ⟨x, c3⟩ := r
            cases x <;> exact h3
          · exact h2
      | _ => exact h2
    | _ => exact h1
  | cached id' b ih =>
    intro c h
    have h1 := ih c h
    simp only [Blk.valueS]
    split
    · exact h
    · generalize b.valueS m c = r at *
      obtain ⟨x, c'⟩ := r
      cases x with
      | ok v =>
        simp only
        by_cases e : id = id'
        · exact ⟨v, by simp [e]⟩
        · simp only [e, if_false]; exact h1
      | _ => exact h1

/-- If the evaluation of the block succeeds, the cache `id` is loaded afterwards. -/
private def Loads (m : Machine) (id : Nat) (b : Blk) : Prop :=
  ∀ c v c', b.valueS m c = (.ok v, c') → ∃ w, c' id = some w

private theorem Loads.cached (m : Machine) (id : Nat) (b : Blk) : Loads m id (.cached id b) := by
  intro c v c' h
  simp only [Blk.valueS] at h
  split at h
  · rename_i w hw
    simp only [Prod.mk.injEq] at h
    exact ⟨w, by rw [← h.2]; exact hw⟩
  · generalize b.valueS m c = r at *
    obtain ⟨x, c2⟩ := r
    cases x with
    | ok w =>
      simp only [Prod.mk.injEq] at h
      exact ⟨w, by rw [← h.2]; simp⟩
    | _ => simp at h

private theorem xored_ok {m : Machine} {a b : Blk} {c c' : Caches} {v : W64 × W64}
    (h : (Blk.xored a b).valueS m c = (.ok v, c')) :
    ∃ va vb c1, a.valueS m c = (.ok va, c1) ∧ b.valueS m c1 = (.ok vb, c') := by
  simp only [Blk.valueS] at h
  generalize a.valueS m c = r at *
  obtain ⟨x, c1⟩ := r
  cases x with
  | ok va =>
    simp only at h
    generalize hb : b.valueS m c1 = r at *
    obtain ⟨x, c2⟩ := r
    cases x with
    | ok vb =>
      simp only [Prod.mk.injEq] at h
      exact ⟨va, vb, c1, rfl, by rw [hb, h.2]⟩
    | _ => simp at h
  | _ => simp at h

private theorem Loads.left {m : Machine} {id : Nat} {a : Blk} (h : Loads m id a) (b : Blk) :
    Loads m id (.xored a b) := by
  intro c v c' e
  obtain ⟨va, vb, c1, e1, e2⟩ := xored_ok e
  have := stays m id b c1 (h c va c1 e1)
  rwa [e2] at this

private theorem Loads.right {m : Machine} {id : Nat} {b : Blk} (h : Loads m id b) (a : Blk) :
    Loads m id (.xored a b) := by
  intro c v c' e
  obtain ⟨va, vb, c1, -, e2⟩ := xored_ok e
  exact h c1 vb c' e2

private theorem Loads.blkS {m : Machine} {id : Nat} {b : Blk} (h : Loads m id b) :
    Loads m id (.blkS b) := by
  intro c v c' e
  simp only [Blk.valueS] at e
  generalize hb : b.valueS m c = r at *
  obtain ⟨x, c1⟩ := r
  cases x with
  | ok vb =>
    simp only [Prod.mk.injEq] at e
    exact h c vb c' (by rw [hb, e.2])
  | _ => simp at e

private theorem Loads.transform {m : Machine} {id : Nat} {b : Blk} (h : Loads m id b) (n : Nat) :
    Loads m id (BlkL.transform b n) := by
  induction n generalizing b with
  | zero => exact h
  | succ n ih =>
    refine ih (b := .blkR b) ?_
    intro c v c' e
    simp only [Blk.valueS] at e
    generalize hb : b.valueS m c = r at *
    obtain ⟨x, c1⟩ := r
    cases x with
    | ok vb =>
      simp only [Prod.mk.injEq] at e
      exact h c vb c' (by rw [hb, e.2])
    | _ => simp at e

private theorem Loads.step_left {m : Machine} {id : Nat} {a : Blk} (h : Loads m id a) (k : Blk) :
    Loads m id (Key.encryptStep a k) := (h.left k).blkS.transform 16

private theorem Loads.step_right {m : Machine} {id : Nat} {k : Blk} (h : Loads m id k) (a : Blk) :
    Loads m id (Key.encryptStep a k) := (h.right a).blkS.transform 16

/-! ### C88 -/

/-- What the caches are for: once the ten round keys of a key are in their caches, encrypting a block is at
most 174 calls, whatever the halves of the key are (evaluating one of them may be any amount of work)
and however they were made. -/
theorem C88_cached_key_partial (m : Machine) (high low : Blk) (base : Nat) (c : Caches)
    (hc : ∀ i, 1 ≤ i → i ≤ 10 → ∃ v, c (base + i) = some v) (lo hi : W64) :
    (BlkEncrypted (.raw lo hi) (Key.ofBlocks high low base)).calls m c ≤ 174 := by
  obtain ⟨v1, e1⟩ := hc 1 (by decide) (by decide)
  obtain ⟨v2, e2⟩ := hc 2 (by decide) (by decide)
  obtain ⟨v3, e3⟩ := hc 3 (by decide) (by decide)
  obtain ⟨v4, e4⟩ := hc 4 (by decide) (by decide)
  obtain ⟨v5, e5⟩ := hc 5 (by decide) (by decide)
  obtain ⟨v6, e6⟩ := hc 6 (by decide) (by decide)
  obtain ⟨v7, e7⟩ := hc 7 (by decide) (by decide)
  obtain ⟨v8, e8⟩ := hc 8 (by decide) (by decide)
  obtain ⟨v9, e9⟩ := hc 9 (by decide) (by decide)
  obtain ⟨v10, e10⟩ := hc 10 (by decide) (by decide)
  have one : ∀ {id : Nat} {v : W64 × W64} (b : Blk), c id = some v →
      (Blk.cached id b).calls m c = 1 := by
    intro id v b h; simp only [Blk.calls, h]
  have q0 : Quiet m c (.raw lo hi) := rfl
  simp only [BlkEncrypted, Key.encrypt, Key.ofBlocks]
  generalize BlkIterKey _ _ 25 32 = b9
  generalize BlkIterKey _ _ 25 31 = b10
  generalize BlkIterKey _ _ 17 24 = b7
  generalize BlkIterKey _ _ 17 23 = b8
  generalize BlkIterKey _ _ 9 16 = b5
  generalize BlkIterKey _ _ 9 15 = b6
  generalize BlkIterKey _ _ 1 8 = b3
  generalize BlkIterKey _ _ 1 7 = b4
  have n0 : (Blk.raw lo hi).calls m c ≤ 1 := Nat.le_refl _
  have n1 := step_calls_quiet q0 (one high e1) n0
  have q1 := q0.step (Quiet.cached (b := high) e1)
  have n2 := step_calls_quiet q1 (one low e2) n1
  have q2 := q1.step (Quiet.cached (b := low) e2)
  have n3 := step_calls_quiet q2 (one b3 e3) n2
  have q3 := q2.step (Quiet.cached (b := b3) e3)
  have n4 := step_calls_quiet q3 (one b4 e4) n3
  have q4 := q3.step (Quiet.cached (b := b4) e4)
  have n5 := step_calls_quiet q4 (one b5 e5) n4
  have q5 := q4.step (Quiet.cached (b := b5) e5)
  have n6 := step_calls_quiet q5 (one b6 e6) n5
  have q6 := q5.step (Quiet.cached (b := b6) e6)
  have n7 := step_calls_quiet q6 (one b7 e7) n6
  have q7 := q6.step (Quiet.cached (b := b7) e7)
  have n8 := step_calls_quiet q7 (one b8 e8) n7
  have q8 := q7.step (Quiet.cached (b := b8) e8)
  have n9 := step_calls_quiet q8 (one b9 e9) n8
  have q9 := q8.step (Quiet.cached (b := b9) e9)
  have n10 := calls_xored_quiet (b := .cached (base + 10) b10) q9
  have h10 := one b10 e10
  omega

example : ∀ i, 1 ≤ i → i ≤ 10 → ∃ v, (fun j : Nat => if j ≤ 10 then some ((7 : W64), (9 : W64)) else
    none) (0 + i) = some v := by
  intro i _ h; exact ⟨(7, 9), by simp [h]⟩

/-- The same in terms of calls: after any successful encryption of any block with the key, from any state
of the caches, every further encryption is at most 174 calls. -/
theorem C88_after_first_encryption_partial (m : Machine) (high low : Blk) (base : Nat) (c c' : Caches)
    (b : Blk) (v : W64 × W64)
    (h : (BlkEncrypted b (Key.ofBlocks high low base)).valueS m c = (.ok v, c')) (lo hi : W64) :
    (BlkEncrypted (.raw lo hi) (Key.ofBlocks high low base)).calls m c' ≤ 174 := by
  refine C88_cached_key_partial m high low base c' ?_ lo hi
  simp only [BlkEncrypted, Key.encrypt, Key.ofBlocks] at h
  revert h
  generalize BlkIterKey _ _ 25 32 = b9
  generalize BlkIterKey _ _ 25 31 = b10
  generalize BlkIterKey _ _ 17 24 = b7
  generalize BlkIterKey _ _ 17 23 = b8
  generalize BlkIterKey _ _ 9 16 = b5
  generalize BlkIterKey _ _ 9 15 = b6
  generalize BlkIterKey _ _ 1 8 = b3
  generalize BlkIterKey _ _ 1 7 = b4
  intro h i h1 h10
  match i, h1, h10 with
  | 1, _, _ => exact (((((((((((Loads.cached m (base + 1) high).step_right b).step_left _).step_left
      _).step_left _).step_left _).step_left _).step_left _).step_left _).step_left _).left _) c v c' h
  | 2, _, _ => exact ((((((((((Loads.cached m (base + 2) low).step_right _).step_left _).step_left
      _).step_left _).step_left _).step_left _).step_left _).step_left _).left _) c v c' h
  | 3, _, _ => exact (((((((((Loads.cached m (base + 3) b3).step_right _).step_left _).step_left
      _).step_left _).step_left _).step_left _).step_left _).left _) c v c' h
  | 4, _, _ => exact ((((((((Loads.cached m (base + 4) b4).step_right _).step_left _).step_left
      _).step_left _).step_left _).step_left _).left _) c v c' h
  | 5, _, _ => exact (((((((Loads.cached m (base + 5) b5).step_right _).step_left _).step_left
      _).step_left _).step_left _).left _) c v c' h
  | 6, _, _ => exact ((((((Loads.cached m (base + 6) b6).step_right _).step_left _).step_left
      _).step_left _).left _) c v c' h
  | 7, _, _ => exact (((((Loads.cached m (base + 7) b7).step_right _).step_left _).step_left
      _).left _) c v c' h
  | 8, _, _ => exact ((((Loads.cached m (base + 8) b8).step_right _).step_left _).left _) c v c' h
  | 9, _, _ => exact (((Loads.cached m (base + 9) b9).step_right _).left _) c v c' h
  | 10, _, _ => exact ((Loads.cached m (base + 10) b10).right _) c v c' h

private theorem ok_of_first {x : Exec (W64 × W64) × Caches} {r} (h : x.1 = .ok r) :
    ∃ v c', x = (.ok v, c') := ⟨r, x.2, Prod.ext h rfl⟩

/-- A first encryption with a fresh key succeeds. -/
example : ∃ v c', (BlkEncrypted (.raw 1 2) (Key.ofBlocks (.raw 3 4) (.raw 5 6))).valueS .x86 noneLoaded =
    (.ok v, c') := by
  have ho : Owned (keyOwn (Key.ofBlocks (.raw 3 4) (.raw 5 6)) 0 fun _ => .raw 0 0)
      (BlkEncrypted (.raw 1 2) (Key.ofBlocks (.raw 3 4) (.raw 5 6))) :=
    Owned.encrypted 0 trivial trivial trivial
  obtain ⟨r, e, -⟩ := C37_conforms_any_key_data .x86 rfl (.raw 3 4) (.raw 5 6) _ _ rfl rfl (.raw 1 2) _ rfl
  exact ok_of_first ((C41_value_is_cached_value .x86 _ _ ho).trans e)

/-- What is true of C88 for CTR: the work for block number `n` of an encrypted stream (from 0) is at
most `n` calls and a constant that does not depend on the stream, the initialization vector, the block or
the state of the caches. Missing: a bound for a block that does not grow, see `C88_ctr_not_linear`. -/
theorem C88_ctr_block_partial (m : Machine) (key : Key) :
    ∃ C, ∀ (ι : Type) (it : IterImpl ι) (size : Nat) (i : ι) (p : List (W64 × W64)),
      Shows it size i p → ∀ (iv : BitVec 64) (n : Nat), n < p.length →
      ∃ j0 j, StCTREncrypted.iter (.ok (some i)) key iv = .ok (some j0) ∧
        advance (ItCTR.impl m it) n j0 = .ok (some j) ∧
        ∀ c, (BlkEncrypted j.ctr j.key).calls m c ≤ n + C := by
  refine ⟨1 + keyWork key, fun ι it size i p h iv n hn => ?_⟩
  obtain ⟨j, -, e⟩ := ctr_advance (m := m) h hn key (.raw 0 iv)
  refine ⟨_, _, rfl, e, fun c => ?_⟩
  have h1 := encrypted_calls_le m (Nat.repeat Blk.incremented n (.raw 0 iv)) key c
  have h2 := counter_calls m iv c n
  show (BlkEncrypted (Nat.repeat Blk.incremented n (.raw 0 iv)) key).calls m c ≤ _
  omega

/-- C88 is false of the code for CTR: the work for block number `n` grows with `n`, even if all round
keys are in the caches, and the work for all blocks together exceeds any multiple of their number. -/
theorem C88_ctr_not_linear (m : Machine) (key : Key) (it : IterImpl ι) (size : Nat) (i : ι)
    (p : List (W64 × W64)) (h : Shows it size i p) (iv : BitVec 64) (caches : Nat → Caches) :
    ∃ j0 work, StCTREncrypted.iter (.ok (some i)) key iv = .ok (some j0) ∧
      (∀ n, n < p.length → ∃ j, advance (ItCTR.impl m it) n j0 = .ok (some j) ∧
        work n = (BlkEncrypted j.ctr j.key).calls m (caches n)) ∧
      (∀ n, n < p.length → n < work n) ∧
      ∀ a, 2 * a < p.length → a * p.length < ((List.range p.length).map work).sum := by
  refine ⟨⟨some i, key, .raw 0 iv⟩,
    fun n => (BlkEncrypted (Nat.repeat Blk.incremented n (.raw 0 iv)) key).calls m (caches n), rfl,
    ?_, ?_, ?_⟩
  · intro n hn
    obtain ⟨j, -, e⟩ := ctr_advance (m := m) h hn key (.raw 0 iv)
    exact ⟨_, e, rfl⟩
  · intro n _
    have h1 := encrypted_calls_ge m (Nat.repeat Blk.incremented n (.raw 0 iv)) key (caches n)
    have h2 := counter_calls m iv (caches n) n
    show n < (BlkEncrypted _ _).calls m _
    omega
  · intro a ha
    have low : ∀ (k : Nat) (f : Nat → Nat), (∀ n, n < k → n < f n) →
        k * (k + 1) ≤ 2 * ((List.range k).map f).sum := by
      intro k f hf
      induction k with
      | zero => simp
      | succ k ih =>
        have := ih fun n hn => hf n (by omega)
        have h1 := hf k (by omega)
        rw [List.range_succ, List.map_append, List.sum_append]
        simp only [List.map_cons, List.map_nil, List.sum_cons, List.sum_nil]
        have e : (k + 1) * (k + 1 + 1) = k * (k + 1) + 2 * (k + 1) := by
          rw [show k + 1 + 1 = k + 2 from rfl, Nat.mul_comm, Nat.add_mul]
        omega
    have h1 := low p.length
      (fun n => (BlkEncrypted (Nat.repeat Blk.incremented n (.raw 0 iv)) key).calls m (caches n))
      (fun n _ => by
        have h1 := encrypted_calls_ge m (Nat.repeat Blk.incremented n (.raw 0 iv)) key (caches n)
        have h2 := counter_calls m iv (caches n) n
        show n < (BlkEncrypted _ _).calls m _
        omega)
    have h2 : 2 * a * p.length < p.length * p.length := Nat.mul_lt_mul_of_pos_right ha (by omega)
    rw [Nat.mul_add, Nat.mul_one] at h1
    rw [Nat.mul_assoc] at h2
    generalize ((List.range p.length).map
      (fun n => (BlkEncrypted (Nat.repeat Blk.incremented n (.raw 0 iv)) key).calls m (caches n))).sum = S at *
    omega

example : (∃ i, StMemory.iter [1, 2, 3, 4] = .ok (some i) ∧
    Shows (ItMemory.impl [1, 2, 3, 4]) 16 i [(1, 2), (3, 4)]) ∧ 2 * 0 < [((1 : W64), (2 : W64)), (3, 4)].length :=
  ⟨Shows_memory [1, 2, 3, 4] rfl (by simp), by decide⟩

/-- What is true of C88 for the Kuznyechik MAC: the work is at most proportional to the number of blocks;
the factor does not depend on the stream, the data or the state of the caches. -/
theorem C88_kuznyechik_mac_partial (m : Machine) (key : Key) :
    ∃ C, ∀ (ι : Type) (it : IterImpl ι) (size : Nat) (i : ι) (p : List (W64 × W64)),
      Shows it size i p → ∀ fuel, p.length ≤ fuel →
      ∃ b, Imit.build it (.ok (some i)) fuel key = .ok b ∧ ∀ c, b.calls m c ≤ C * p.length := by
  have one : ∀ (b : Blk) (v : W64 × W64) (n : Nat), (∀ c, b.calls m c ≤ n) →
      ∀ c, (BlkEncrypted (.xored b (BlkRaw.ofPair v)) key).calls m c ≤ n + (keyWork key + 2) := by
    intro b v n h c
    have h1 := encrypted_calls_le m (.xored b (BlkRaw.ofPair v)) key c
    have h2 := calls_xored_le m b (BlkRaw.ofPair v) c 1 (fun _ => Nat.le_refl _)
    have h3 := h c
    omega
  have loop : ∀ (ι : Type) (it : IterImpl ι) (size : Nat) (p : List (W64 × W64)) (i : ι),
      Shows it size i p → ∀ fuel, p.length ≤ fuel → ∀ (block : Blk) (n : Nat), (∀ c, block.calls m c ≤ n) →
      ∃ b j v, Imit.loop it key fuel (some i) block = .ok (b, some j) ∧ it.value j = .ok v ∧
        it.size j = .ok size ∧ ∀ c, b.calls m c + (keyWork key + 2) ≤ n + (keyWork key + 2) * p.length := by
    intro ι it size p
    induction p with
    | nil => intro i h; exact h.elim
    | cons x p ih =>
      intro i h fuel hf block n hn
      obtain ⟨fuel, rfl⟩ : ∃ k, fuel = k + 1 := ⟨fuel - 1, by simp at hf; omega⟩
      cases p with
      | nil =>
        obtain ⟨h1, h2, h3⟩ := h
        refine ⟨block, i, x, by simp [Imit.loop, deref, h2], h1, h3, fun c => ?_⟩
        have := hn c
        simp only [List.length_cons, List.length_nil, Nat.zero_add, Nat.mul_one]
        omega
      | cons y p =>
        obtain ⟨h1, h2, h3, j, h4, h5⟩ := h
        obtain ⟨b, j', v, e1, e2, e3, e4⟩ := ih j h5 fuel (by simp at hf ⊢; omega) _ _ (one block x n hn)
        refine ⟨b, j', v, ?_, e2, e3, fun c => ?_⟩
        · simp only [Imit.loop, deref, h2, h1, h4, Exec.ok_bind, Bool.not_false, if_true]
          exact e1
        · have := e4 c
          rw [List.length_cons, Nat.mul_add, Nat.mul_one]
          omega
  refine ⟨10 * (keyWork key + 2), fun ι it size i p h fuel hf => ?_⟩
  have hp : 0 < p.length := by
    cases p with
    | nil => exact h.elim
    | cons _ _ => simp
  obtain ⟨b, j, v, e1, e2, e3, e4⟩ := loop ι it size p i h fuel hf BlkRaw.zero 1 (fun _ => Nat.le_refl _)
  have one : ∀ (x : W64) c, (BlkRaw.ofU64 x).calls m c ≤ 1 := fun _ _ => Nat.le_refl _
  have z : ∀ c, (BlkEncrypted BlkRaw.zero key).calls m c ≤ 1 + keyWork key :=
    fun c => encrypted_calls_le m BlkRaw.zero key c
  have k1 := fun c => calls_high_le m _ _ c _ _ z (one 0x87)
  have k2 := fun c => calls_high_le m _ _ c _ _ k1 (one 0x87)
  have ge : keyWork key + 2 ≤ (keyWork key + 2) * p.length := Nat.le_mul_of_pos_right _ hp
  have fin : ∀ (k : Blk) (n : Nat), (∀ c, k.calls m c ≤ n) → n ≤ 4 * keyWork key + 11 → ∀ c,
      (BlkEncrypted (.xored (.xored b (BlkRaw.ofPair v)) k) key).calls m c ≤
        10 * (keyWork key + 2) * p.length := by
    intro k n hk hn c
    have h1 := encrypted_calls_le m (.xored (.xored b (BlkRaw.ofPair v)) k) key c
    have h2 := calls_xored_le m (.xored b (BlkRaw.ofPair v)) k c n hk
    have h3 := calls_xored_le m b (BlkRaw.ofPair v) c 1 (fun _ => Nat.le_refl _)
    have h4 := e4 c
    rw [Nat.mul_assoc]
    generalize (keyWork key + 2) * p.length = X at *
    generalize (BlkEncrypted (.xored (.xored b (BlkRaw.ofPair v)) k) key).calls m c = Y at *
    omega
  by_cases hn : size = 16
  · refine ⟨_, ?_, fin _ _ k1 (by omega)⟩
    simp only [Imit.build, Exec.ok_bind, e1, deref, e2, e3]
    rw [if_pos hn]
    rfl
  · refine ⟨_, ?_, fin _ _ k2 (by omega)⟩
    simp only [Imit.build, Exec.ok_bind, e1, deref, e2, e3]
    rw [if_neg hn]
    rfl

end

section
open Magma

/-- What is true of C88 for the Magma MAC: the work is at most seven calls for every block of the message
and a constant. -/
theorem C88_magma_mac_partial (key : Key)
    (rd : σ → Nat → Io W (List Byte × σ)) (s : σ) (w : W) (d : List Byte) (hd : d ≠ [])
    (hs : SuppliesBlocks rd s w d) (fuel : Nat) (hf : d.length / 8 < fuel) :
    ∃ b w', Imit.build rd fuel s (some key) w = (.ok b, w') ∧ b.calls ≤ 7 * (d.length / 8) + 36 := by
  obtain ⟨R, h0, hR⟩ := hs
  obtain ⟨p, tail, rfl, ht, ht8⟩ : ∃ (p : List (BitVec 64)) (tail : List Byte), d = unblocks64 p ++ tail ∧
      tail ≠ [] ∧ tail.length ≤ 8 := by
    obtain ⟨p, tail, e1, e2, e3, -⟩ := split_message hd
    exact ⟨p, tail, e1, e2, e3⟩
  have enc : ∀ b : Blk, (BlkEncrypted b (some key)).calls = b.calls + 5 := by
    intro b; simp only [BlkEncrypted, Blk.calls]; omega
  have loop : ∀ (p : List W64) (fuel : Nat), p.length < fuel → ∀ (s : σ) (w : W) (block : Blk),
      R s w ((unblocks64 p ++ tail).drop 8) →
      ∃ b w', Imit.loop rd (some key) fuel s ((unblocks64 p ++ tail).take 8) block w =
        (.ok (b, BlkImitFinalKey (some key) tail.length), w') ∧ b.calls = 7 * p.length + block.calls + 2 := by
    intro p
    induction p with
    | nil =>
      intro fuel hf s w block hs
      obtain ⟨fuel, rfl⟩ : ∃ k, fuel = k + 1 := ⟨fuel - 1, by simp at hf; omega⟩
      rw [unblocks64_nil, List.nil_append] at hs ⊢
      rw [List.drop_of_length_le ht8] at hs
      rw [List.take_of_length_le ht8]
      unfold Imit.loop
      rw [loadPartial_eq ht ht8, Io.lift_ok_bind]
      simp only
      by_cases h8 : tail.length < 8
      · rw [if_pos h8]
        exact ⟨_, w, rfl, by simp only [Blk.calls, BlkRaw.ofU64, List.length_nil]; omega⟩
      · rw [if_neg h8]
        obtain ⟨s1, w1, e1, -⟩ := hR s w _ hs
        rw [Io.bind_run_ok e1]
        exact ⟨_, w1, rfl, by simp only [Blk.calls, BlkRaw.ofU64, List.length_nil]; omega⟩
    | cons x p ih =>
      intro fuel hf s w block hs
      obtain ⟨fuel, rfl⟩ : ∃ k, fuel = k + 1 := ⟨fuel - 1, by simp at hf; omega⟩
      rw [unblocks64_cons, List.append_assoc, List.drop_left' (by simp)] at hs
      rw [unblocks64_cons, List.append_assoc, List.take_left' (by simp)]
      obtain ⟨s1, w1, e1, r1⟩ := hR s w _ hs
      obtain ⟨b, w', g1, g2⟩ := ih fuel (by simp at hf; omega) s1 w1
        (BlkEncrypted (.xored block (BlkRaw.ofU64 (block64 (bytesOf64 x)))) (some key)) r1
      have hne : (unblocks64 p ++ tail).take 8 ≠ [] := by
        intro e
        have := congrArg List.length e
        have htl : 0 < tail.length := List.length_pos_iff.2 ht
        simp only [List.length_take, List.length_append, List.length_nil] at this
        omega
      refine ⟨b, w', ?_, ?_⟩
      · unfold Imit.loop
        rw [loadPartial_eq (bytesOf64_ne x) (by simp), Io.lift_ok_bind]
        simp only
        rw [if_neg (by simp), Io.bind_run_ok e1]
        simp only
        rw [if_neg hne]
        exact g1
      · rw [g2, enc]
        simp only [Blk.calls, BlkRaw.ofU64, List.length_cons]
        omega
  have hl : (unblocks64 p ++ tail).length = 8 * p.length + tail.length := by
    rw [List.length_append, unblocks64_length]
  have htl : 0 < tail.length := List.length_pos_iff.2 ht
  obtain ⟨s1, w1, e1, r1⟩ := hR s w _ h0
  obtain ⟨b, w', g1, g2⟩ := loop p fuel (by omega) s1 w1 BlkRaw.zero r1
  refine ⟨BlkEncrypted (.xored b (BlkImitFinalKey (some key) tail.length)) (some key), w', ?_, ?_⟩
  · unfold Imit.build
    rw [Io.bind_run_ok e1]
    simp only
    rw [Io.bind_run_ok g1]
    rfl
  · have k : (BlkImitFinalKey (some key) tail.length).calls ≤ 27 := by
      unfold BlkImitFinalKey
      have := enc BlkRaw.zero
      have z : BlkRaw.zero.calls = 1 := rfl
      simp only
      split <;> simp only [Blk.calls] <;> omega
    rw [enc]
    have z : BlkRaw.zero.calls = 1 := rfl
    simp only [Blk.calls]
    omega

example : SuppliesBlocks (memRead (W := Unit)) [1, 2, 3, 4, 5, 6, 7, 8, 9, 10] ()
    [1, 2, 3, 4, 5, 6, 7, 8, 9, 10] := (memRead_supplies _ ()).blocks

end

end Goost.Props
