import Verif.Model.Leak
import Verif.Lemmas.Kuz
import Verif.Lemmas.KuzCache
/-
Logs of accesses of Kuznyechik blocks.
-/
namespace Goost.Kuz
open Spec

theorem bytes64_inj {x y : W64} (h : bytes64 x = bytes64 y) : x = y := by
  rw [bytes64_eq_spec, bytes64_eq_spec] at h
  rw [← block64_bytesOf64 x, ← block64_bytesOf64 y, h]

theorem sLog_length (v : W64 × W64) : (sLog v).length = 16 := rfl

theorem bytes_inj {v u : W64 × W64} (h : bytes64 v.1 ++ bytes64 v.2 = bytes64 u.1 ++ bytes64 u.2) :
    v = u := by
  obtain ⟨h1, h2⟩ := List.append_inj h rfl
  exact Prod.ext (bytes64_inj h1) (bytes64_inj h2)

theorem sLog_inj {v u : W64 × W64} (h : sLog v = sLog u) : v = u := by
  refine bytes_inj ?_
  refine List.map_inj_right ?_ |>.1 h
  intro x y hxy
  exact BitVec.eq_of_toNat_eq (by simpa using hxy)

theorem gmulLog_length (n : Nat) (a b : Byte) : (gmulLog n a b).length = 2 * n := by
  induction n generalizing a b with
  | zero => rfl
  | succ n ih => simp only [gmulLog, List.length_cons, ih]; omega

theorem flatten_length {α : Type} {n : Nat} (l : List (List α)) (h : ∀ x ∈ l, x.length = n) :
    l.flatten.length = n * l.length := by
  induction l with
  | nil => rfl
  | cons x xs ih =>
    rw [List.flatten_cons, List.length_append, ih (fun y hy => h y (by simp [hy])), h x (by simp),
      List.length_cons, Nat.mul_add]
    omega

/-! ### The steps are those of the code -/

theorem mapM_vgetL {α : Type} (t : List α) (ht : t.length = 256) (l : List Byte) (w : List Access) :
    (l.mapM (fun b => vgetL 0 t b.toNat) : Logged (List α)) w =
      (l.mapM (fun b => vget t b.toNat), w ++ l.map fun b => .table 0 b.toNat) := by
  induction l generalizing w with
  | nil => simp [List.mapM_nil, Io.pure_def, Io.lift, Exec.pure_eq]
  | cons b bs ih =>
    have hb : b.toNat < t.length := by rw [ht]; exact b.isLt
    have e : vgetL 0 t b.toNat w = (.ok t[b.toNat], w ++ [.table 0 b.toNat]) := by
      simp only [vgetL, vget, List.getElem?_eq_getElem hb]
    have e' : vget t b.toNat = .ok t[b.toNat] := by simp only [vget, List.getElem?_eq_getElem hb]
    have ih' := ih (w ++ [.table 0 b.toNat])
    rw [List.mapM_cons, List.mapM_cons, Io.bind_run_ok e, e', Exec.ok_bind]
    rcases hr : (bs.mapM (fun b => vget t b.toNat) : Exec (List α)) with r | x | x | -
    · rw [hr] at ih'
      rw [Io.bind_run_ok ih', hr]
      simp [Io.pure_def, Io.lift, Exec.pure_eq]
    all_goals
      rw [hr] at ih'
      simp [Io.bind_def, Io.bind, ih', hr]

theorem sValueL_eq (v : W64 × W64) (w : List Access) : sValueL v w = (sValue v, w ++ sLog v) := by
  have e := mapM_vgetL BlkS.sbox (by decide +kernel) (bytes64 v.1 ++ bytes64 v.2) w
  obtain ⟨r, hr, -⟩ := sValue_eq v
  have hs := hr
  rw [sValue] at hr
  rw [sValueL]
  rcases h1 : ((bytes64 v.1 ++ bytes64 v.2).mapM (fun b => vget BlkS.sbox b.toNat) : Exec _) with d | x | x | -
  · rw [h1] at e hr
    rw [Exec.ok_bind] at hr
    rw [Io.bind_run_ok e, hs]
    rcases h2 : load64 d 0 with y | x | x | -
    · rw [h2, Exec.ok_bind] at hr
      rcases h3 : load64 d 8 with z | x | x | -
      · rw [h3, Exec.ok_bind] at hr
        rw [← hr]
        rfl
      all_goals rw [h3] at hr; cases hr
    all_goals rw [h2] at hr; cases hr
  all_goals rw [h1] at hr; cases hr

theorem gmulLoopL_eq (n : Nat) (p a b : Byte) (w : List Access) :
    gmulLoopL n p a b w = (.ok (gmulLoop n p a b), w ++ gmulLog n a b) := by
  induction n generalizing p a b w with
  | zero => simp [gmulLoopL, gmulLoop, gmulLog, Io.pure_def, Io.lift]
  | succ n ih =>
    rw [gmulLoopL, Io.bind_run_ok (show branchL _ w = (.ok _, _) from rfl),
      Io.bind_run_ok (show branchL _ _ = (.ok _, _) from rfl), ih]
    simp only [gmulLoop, gmulLog, decide_eq_true_eq, List.append_assoc, List.cons_append, List.nil_append]

theorem rSumL_eq (as ks : List Byte) (sum : Byte) (w : List Access) :
    rSumL as ks sum w = (.ok ((List.zipWith gmul as ks).foldl (· ^^^ ·) sum),
      w ++ (List.zipWith (gmulLog 8) as ks).flatten) := by
  induction as generalizing ks sum w with
  | nil => simp [rSumL, Io.pure_def, Io.lift]
  | cons a as ih =>
    cases ks with
    | nil => simp [rSumL, Io.pure_def, Io.lift]
    | cons k ks =>
      rw [rSumL, Io.bind_run_ok (gmulLoopL_eq 8 0 a k w), ih]
      simp only [List.zipWith_cons_cons, List.foldl_cons, List.flatten_cons, List.append_assoc, gmul]

theorem rValueL_eq (m : Machine) (v : W64 × W64) (w : List Access) :
    rValueL m v w = (rValue m v, w ++ rLog v) := by
  rw [rValueL, Io.bind_run_ok (rSumL_eq _ _ _ w), rValue, rLog]
  split
  · rfl
  · rfl

theorem rLog_length (v : W64 × W64) : (rLog v).length = 256 := by
  have : ∀ (as bs : List Byte), ∀ x ∈ List.zipWith (gmulLog 8) as bs, x.length = 16 := by
    intro as
    induction as with
    | nil => intro bs x hx; simp at hx
    | cons a as ih =>
      intro bs x hx
      cases bs with
      | nil => simp at hx
      | cons b bs =>
        rw [List.zipWith_cons_cons, List.mem_cons] at hx
        rcases hx with rfl | hx
        · rw [gmulLog_length]
        · exact ih bs x hx
  rw [rLog, flatten_length _ (this _ _), List.length_zipWith]
  rfl

/-- The branches of `n` applications of `BlkR`, beginning with the value `v`. -/
def rLogs (m : Machine) : Nat → W64 × W64 → List Access
  | 0, _ => []
  | n + 1, v => rLog v ++
    match rValue m v with
    | .ok u => rLogs m n u
    | _ => []

theorem rLogs_length {m : Machine} (hm : m.unalignedLoad = true) (n : Nat) (v : W64 × W64) :
    (rLogs m n v).length = 256 * n := by
  induction n generalizing v with
  | zero => rfl
  | succ n ih =>
    obtain ⟨u, e, -⟩ := rValue_eq hm v
    rw [rLogs, e, List.length_append, rLog_length, ih]
    omega

/-- `n` applications of `BlkR` to a value. -/
def rValues (m : Machine) : Nat → W64 × W64 → Exec (W64 × W64)
  | 0, v => .ok v
  | n + 1, v => rValue m v >>= rValues m n

theorem rValues_ok {m : Machine} (hm : m.unalignedLoad = true) (n : Nat) (v : W64 × W64) :
    ∃ u, rValues m n v = .ok u := by
  induction n generalizing v with
  | zero => exact ⟨v, rfl⟩
  | succ n ih =>
    obtain ⟨u, e, -⟩ := rValue_eq hm v
    obtain ⟨r, hr⟩ := ih u
    exact ⟨r, by rw [rValues, e, Exec.ok_bind, hr]⟩

theorem transform_run {m : Machine} (n : Nat) {b : Blk} {c d : Caches} {v : W64 × W64}
    (hm : m.unalignedLoad = true) (h : b.valueS m c = (.ok v, d)) :
    (BlkL.transform b n).valueS m c = (rValues m n v, d) ∧
    (BlkL.transform b n).log m c = b.log m c ++ rLogs m n v := by
  induction n generalizing b v with
  | zero => exact ⟨h, by rw [BlkL.transform, rLogs, List.append_nil]⟩
  | succ n ih =>
    obtain ⟨u, e, -⟩ := rValue_eq hm v
    have h1 : (Blk.blkR b).valueS m c = (.ok u, d) := by
      simp only [Blk.valueS, h, Exec.ok_bind, e]
    obtain ⟨i1, i2⟩ := ih h1
    refine ⟨?_, ?_⟩
    · rw [BlkL.transform, i1, rValues, e, Exec.ok_bind]
    · rw [BlkL.transform, i2, rLogs, e, Blk.log, h]
      simp only [List.append_assoc]

theorem xored_run {m : Machine} {a b : Blk} {c d e : Caches} {x y : W64 × W64}
    (ha : a.valueS m c = (.ok x, d)) (hb : b.valueS m d = (.ok y, e)) :
    (Blk.xored a b).valueS m c = (.ok (x.1 ^^^ y.1, x.2 ^^^ y.2), e) ∧
    (Blk.xored a b).log m c = a.log m c ++ b.log m d := by
  refine ⟨?_, ?_⟩
  · simp only [Blk.valueS, ha, hb]
  · simp only [Blk.log, ha]

theorem blkS_run {m : Machine} {a : Blk} {c d : Caches} {x : W64 × W64}
    (ha : a.valueS m c = (.ok x, d)) :
    (Blk.blkS a).valueS m c = (sValue x, d) ∧ (Blk.blkS a).log m c = a.log m c ++ sLog x := by
  refine ⟨?_, ?_⟩
  · simp only [Blk.valueS, ha, Exec.ok_bind]
  · simp only [Blk.log, ha]

/-- What an encryption step observes after the sum of its operands is known, and its value. -/
theorem step_run {m : Machine} (hm : m.unalignedLoad = true) {a k : Blk} {c d e : Caches}
    {x y : W64 × W64} (ha : a.valueS m c = (.ok x, d)) (hk : k.valueS m d = (.ok y, e)) :
    ∃ s r, sValue (x.1 ^^^ y.1, x.2 ^^^ y.2) = .ok s ∧ rValues m 16 s = .ok r ∧
      (Key.encryptStep a k).valueS m c = (.ok r, e) ∧
      (Key.encryptStep a k).log m c =
        a.log m c ++ k.log m d ++ (sLog (x.1 ^^^ y.1, x.2 ^^^ y.2) ++ rLogs m 16 s) := by
  obtain ⟨h1, h2⟩ := xored_run ha hk
  obtain ⟨h3, h4⟩ := blkS_run h1
  obtain ⟨s, es, -⟩ := sValue_eq (x.1 ^^^ y.1, x.2 ^^^ y.2)
  obtain ⟨r, er⟩ := rValues_ok hm 16 s
  rw [es] at h3
  obtain ⟨h5, h6⟩ := transform_run 16 hm h3
  refine ⟨s, r, es, er, ?_, ?_⟩
  · rw [Key.encryptStep, BlkL, h5, er]
  · rw [Key.encryptStep, BlkL, h6, h4, h2]
    simp only [List.append_assoc]

theorem step_prefix (m : Machine) (a k : Blk) (c : Caches) :
    a.log m c <+: (Key.encryptStep a k).log m c := by
  have tr : ∀ n b, b.log m c <+: (BlkL.transform b n).log m c := by
    intro n
    induction n with
    | zero => exact fun b => List.prefix_refl _
    | succ n ih => exact fun b => (List.prefix_append _ _).trans (ih (.blkR b))
  refine List.IsPrefix.trans ?_ (tr 16 _)
  refine List.IsPrefix.trans ?_ (List.prefix_append _ _)
  exact List.prefix_append _ _

/-- The log of an encryption begins with that of its first two steps. -/
theorem encrypt_prefix (m : Machine) (key : Key) (b : Blk) (c : Caches) :
    (Key.encryptStep (Key.encryptStep b key.k1) key.k2).log m c <+: (BlkEncrypted b key).log m c := by
  rw [BlkEncrypted, Key.encrypt]
  refine List.IsPrefix.trans ?_ (List.prefix_append _ _)
  refine List.IsPrefix.trans ?_ (step_prefix _ _ _ _)
  refine List.IsPrefix.trans ?_ (step_prefix _ _ _ _)
  refine List.IsPrefix.trans ?_ (step_prefix _ _ _ _)
  refine List.IsPrefix.trans ?_ (step_prefix _ _ _ _)
  refine List.IsPrefix.trans ?_ (step_prefix _ _ _ _)
  refine List.IsPrefix.trans ?_ (step_prefix _ _ _ _)
  exact step_prefix _ _ _ _

/-- A block without accesses whose evaluation does not touch the caches. -/
def Silent (m : Machine) (b : Blk) (v : W64 × W64) : Prop :=
  ∀ c, b.valueS m c = (.ok v, c) ∧ b.log m c = []

theorem Silent.raw (m : Machine) (v : W64 × W64) : Silent m (BlkRaw.ofPair v) v := fun _ => ⟨rfl, rfl⟩

theorem Silent.str {m : Machine} {s : List Char} {v : W64 × W64} (h : (Blk.str s).value m = .ok v) :
    Silent m (.str s) v := fun c => ⟨by rw [Blk.valueS, h], rfl⟩

theorem Silent.cached {m : Machine} {b : Blk} {v : W64 × W64} (h : Silent m b v) (id : Nat) {c : Caches}
    (hc : c id = none ∨ c id = some v) :
    (Blk.cached id b).valueS m c = (.ok v, fun i => if i = id then some v else c i) ∧
      (Blk.cached id b).log m c = [] := by
  rcases hc with hc | hc
  · simp only [Blk.valueS, Blk.log, hc, (h c).1, (h c).2, and_self]
  · simp only [Blk.valueS, Blk.log, hc, and_true, Prod.mk.injEq, true_and]
    funext i
    split
    · rename_i hi; rw [hi, hc]
    · rfl

theorem first_steps {m : Machine} (hm : m.unalignedLoad = true) {high low : Blk} {h l : W64 × W64}
    (hh : Silent m high h) (hl : Silent m low l) (base : Nat) (v : W64 × W64) {c : Caches}
    (h1 : c (base + 1) = none ∨ c (base + 1) = some h)
    (h2 : c (base + 2) = none ∨ c (base + 2) = some l) :
    ∃ s r s', sValue (v.1 ^^^ h.1, v.2 ^^^ h.2) = .ok s ∧ rValues m 16 s = .ok r ∧
      sValue (r.1 ^^^ l.1, r.2 ^^^ l.2) = .ok s' ∧
      (Key.encryptStep (Key.encryptStep (BlkRaw.ofPair v) (Key.ofBlocks high low base).k1)
        (Key.ofBlocks high low base).k2).log m c =
      sLog (v.1 ^^^ h.1, v.2 ^^^ h.2) ++ rLogs m 16 s ++
        (sLog (r.1 ^^^ l.1, r.2 ^^^ l.2) ++ rLogs m 16 s') := by
  have e0 : (BlkRaw.ofPair v).valueS m c = (.ok v, c) := rfl
  obtain ⟨e1, g1⟩ := hh.cached (base + 1) h1
  obtain ⟨s, r, es, er, e2, g2⟩ := step_run hm e0 e1
  have h2' : (fun i => if i = base + 1 then some h else c i) (base + 2) = none ∨
      (fun i => if i = base + 1 then some h else c i) (base + 2) = some l := by
    simpa using h2
  obtain ⟨e3, g3⟩ := hl.cached (base + 2) (c := fun i => if i = base + 1 then some h else c i) h2'
  obtain ⟨s', r', es', er', e4, g4⟩ := step_run hm e2 e3
  refine ⟨s, r, s', es, er, es', ?_⟩
  show (Key.encryptStep (Key.encryptStep (BlkRaw.ofPair v) (.cached (base + 1) high))
    (.cached (base + 2) low)).log m c = _
  rw [g4, g2, g3, g1]
  simp only [List.append_assoc, List.append_nil]
  rfl

theorem xor_pair_cancel {v h h' : W64 × W64}
    (e : (v.1 ^^^ h.1, v.2 ^^^ h.2) = (v.1 ^^^ h'.1, v.2 ^^^ h'.2)) : h = h' := by
  have e1 := congrArg (v.1 ^^^ ·) (congrArg Prod.fst e)
  have e2 := congrArg (v.2 ^^^ ·) (congrArg Prod.snd e)
  simp only [← BitVec.xor_assoc, BitVec.xor_self, BitVec.zero_xor] at e1 e2
  exact Prod.ext e1 e2

theorem gmulLog_reveals (n : Nat) (hn : n ≤ 8) (a a' b : Byte) (h : gmulLog n a b = gmulLog n a' b) :
    (a ^^^ a') >>> (8 - n) = 0 := by
  have step : ∀ n : Fin 8, ∀ d : Byte, (d <<< 1) >>> (8 - n.val) = 0 → d &&& 0x80 = 0 →
      d >>> (8 - (n.val + 1)) = 0 := by decide +kernel
  have next : ∀ a a' : Byte, decide (a &&& 0x80 = 0x80) = decide (a' &&& 0x80 = 0x80) →
      (a ^^^ a') &&& 0x80 = 0 ∧
      ((if a &&& 0x80 = 0x80 then (a <<< 1) ^^^ 0xc3 else a <<< 1) ^^^
        (if a' &&& 0x80 = 0x80 then (a' <<< 1) ^^^ 0xc3 else a' <<< 1)) = (a ^^^ a') <<< 1 := by
    have top : ∀ a : Byte, a &&& 0x80 = 0x80 ∨ a &&& 0x80 = 0 := by decide +kernel
    intro a a' h
    have e1 : (a ^^^ a') &&& 0x80 = (a &&& 0x80) ^^^ (a' &&& 0x80) := by
      ext i hi; simp [Bool.and_xor_distrib_right]
    rw [e1, BitVec.shiftLeft_xor_distrib]
    rcases top a with ha | ha <;> rcases top a' with ha' | ha' <;> rw [ha, ha'] at h ⊢ <;>
      first
      | exact absurd h (by decide)
      | refine ⟨by decide, ?_⟩
    · rw [if_pos rfl, if_pos rfl]
      ext i hi
      simp only [BitVec.getElem_xor]
      cases (a <<< 1)[i] <;> cases (a' <<< 1)[i] <;> cases (0xc3 : Byte)[i] <;> rfl
    · rfl
  induction n generalizing a a' b with
  | zero =>
    have : ∀ d : Byte, d >>> 8 = 0 := by decide +kernel
    exact this _
  | succ n ih =>
    simp only [gmulLog, List.cons.injEq, Access.branch.injEq, true_and] at h
    obtain ⟨h1, h2⟩ := next a a' h.1
    have := ih (by omega) _ _ _ h.2
    rw [h2] at this
    exact step ⟨n, by omega⟩ _ this h1

theorem gmulLog_inj {a a' b : Byte} (h : gmulLog 8 a b = gmulLog 8 a' b) : a = a' := by
  have := gmulLog_reveals 8 (Nat.le_refl _) a a' b h
  have z : ∀ d : Byte, d >>> (8 - 8) = 0 → d = 0 := by decide +kernel
  have e := congrArg (a ^^^ ·) (z _ this)
  simpa [← BitVec.xor_assoc] using e.symm

theorem zip_gmul_inj (as as' ks : List Byte) (hl : as.length = as'.length) (hk : as.length = ks.length)
    (h : (List.zipWith (gmulLog 8) as ks).flatten = (List.zipWith (gmulLog 8) as' ks).flatten) :
    as = as' := by
  induction as generalizing as' ks with
  | nil => exact (List.length_eq_zero_iff.1 hl.symm).symm
  | cons a as ih =>
    match as', ks with
    | a' :: as', k :: ks =>
      rw [List.zipWith_cons_cons, List.zipWith_cons_cons, List.flatten_cons, List.flatten_cons] at h
      obtain ⟨h1, h2⟩ := List.append_inj h (by rw [gmulLog_length, gmulLog_length])
      rw [gmulLog_inj h1, ih as' ks (by simpa using hl) (by simpa using hk) h2]

theorem rLog_inj {v u : W64 × W64} (h : rLog v = rLog u) : v = u :=
  bytes_inj (zip_gmul_inj _ _ BlkR.k rfl rfl h)

theorem sValue_inj {v u s : W64 × W64} (h : sValue v = .ok s) (g : sValue u = .ok s) : v = u := by
  obtain ⟨r, hr, er⟩ := sValue_eq v
  obtain ⟨t, ht, et⟩ := sValue_eq u
  rw [h, Exec.ok.injEq] at hr
  rw [g, Exec.ok.injEq] at ht
  subst hr ht
  apply join64_inj
  rw [← Goost.Sinv_S (join64 v), ← er, et, Goost.Sinv_S]

/-- An observer that sees the steps in `p` learns the value from one round. -/
def Sees (m : Machine) (p : Access → Bool) : Prop :=
  (∃ n, ∀ v s, ((sLog v ++ rLogs m 16 s).filter p).length = n) ∧
  ∀ v u s t, sValue v = .ok s → sValue u = .ok t →
    (sLog v ++ rLogs m 16 s).filter p = (sLog u ++ rLogs m 16 t).filter p → v = u

theorem sLog_tables (v : W64 × W64) : ∀ x ∈ sLog v, x.isTable = true := by
  intro x hx
  obtain ⟨b, -, rfl⟩ := List.mem_map.1 hx
  rfl

theorem gmulLog_branches (n : Nat) (a b : Byte) : ∀ x ∈ gmulLog n a b, x.isTable = false := by
  induction n generalizing a b with
  | zero => intro x hx; cases hx
  | succ n ih =>
    intro x hx
    simp only [gmulLog, List.mem_cons] at hx
    rcases hx with rfl | rfl | hx
    · rfl
    · rfl
    · exact ih _ _ x hx

theorem rLog_branches (v : W64 × W64) : ∀ x ∈ rLog v, x.isTable = false := by
  intro x hx
  obtain ⟨l, hl, hx⟩ := List.mem_flatten.1 hx
  obtain ⟨i, hi, rfl⟩ := List.mem_iff_getElem.1 hl
  rw [List.getElem_zipWith] at hx
  exact gmulLog_branches _ _ _ x hx

theorem rLogs_branches (m : Machine) (n : Nat) (v : W64 × W64) : ∀ x ∈ rLogs m n v, x.isTable = false := by
  induction n generalizing v with
  | zero => intro x hx; cases hx
  | succ n ih =>
    intro x hx
    rw [rLogs] at hx
    rcases List.mem_append.1 hx with hx | hx
    · exact rLog_branches v x hx
    · split at hx
      · exact ih _ x hx
      · cases hx

theorem tables_only (m : Machine) (v s : W64 × W64) :
    (sLog v ++ rLogs m 16 s).filter (·.isTable) = sLog v := by
  rw [List.filter_append, List.filter_eq_self.2 (sLog_tables v),
    List.filter_eq_nil_iff.2 (fun x hx => by rw [rLogs_branches m 16 s x hx]; exact Bool.false_ne_true),
    List.append_nil]

theorem branches_only (m : Machine) (v s : W64 × W64) :
    (sLog v ++ rLogs m 16 s).filter (!·.isTable) = rLogs m 16 s := by
  rw [List.filter_append,
    (List.filter_eq_nil_iff (l := sLog v)).2 (fun x hx => by rw [sLog_tables v x hx]; exact Bool.false_ne_true),
    List.filter_eq_self.2 (fun x hx => by rw [rLogs_branches m 16 s x hx]; rfl), List.nil_append]

theorem Sees.tables (m : Machine) : Sees m (·.isTable) := by
  refine ⟨⟨16, fun v s => by rw [tables_only]; rfl⟩, fun v u s t _ _ h => ?_⟩
  rw [tables_only, tables_only] at h
  exact sLog_inj h

theorem Sees.branches {m : Machine} (hm : m.unalignedLoad = true) : Sees m (!·.isTable) := by
  refine ⟨⟨256 * 16, fun v s => by rw [branches_only, rLogs_length hm]⟩, fun v u s t hs ht h => ?_⟩
  rw [branches_only, branches_only, rLogs, rLogs] at h
  have := rLog_inj (List.append_inj h (by rw [rLog_length, rLog_length])).1
  subst this
  exact sValue_inj hs ht

/-- Equal observations of the encryption of one block come from equal keys. -/
theorem keys_from_log {m : Machine} (hm : m.unalignedLoad = true) {p : Access → Bool} (hp : Sees m p)
    {high low high' low' : Blk}
    {h l h' l' : W64 × W64} (hh : Silent m high h) (hl : Silent m low l) (hh' : Silent m high' h')
    (hl' : Silent m low' l') (base base' : Nat) (v : W64 × W64) {c c' : Caches}
    (h1 : c (base + 1) = none ∨ c (base + 1) = some h)
    (h2 : c (base + 2) = none ∨ c (base + 2) = some l)
    (h1' : c' (base' + 1) = none ∨ c' (base' + 1) = some h')
    (h2' : c' (base' + 2) = none ∨ c' (base' + 2) = some l')
    (he : ((BlkEncrypted (BlkRaw.ofPair v) (Key.ofBlocks high low base)).log m c).filter p =
      ((BlkEncrypted (BlkRaw.ofPair v) (Key.ofBlocks high' low' base')).log m c').filter p) :
    h = h' ∧ l = l' := by
  have hp : ∃ (f : W64 × W64 → W64 × W64 → List Access) (n : Nat),
      (∀ v s, (sLog v ++ rLogs m 16 s).filter p = f v s) ∧ (∀ v s, (f v s).length = n) ∧
      ∀ v u s t, sValue v = .ok s → sValue u = .ok t → f v s = f u t → v = u :=
    ⟨fun v s => (sLog v ++ rLogs m 16 s).filter p, hp.1.choose, fun _ _ => rfl, hp.1.choose_spec, hp.2⟩
  obtain ⟨f, n, hf, hn, hi⟩ := hp
  obtain ⟨s, r, s1, es, er, es1, e⟩ := first_steps hm hh hl base v h1 h2
  obtain ⟨s', r', s1', es', er', es1', e'⟩ := first_steps hm hh' hl' base' v h1' h2'
  obtain ⟨t, ht⟩ := encrypt_prefix m (Key.ofBlocks high low base) (BlkRaw.ofPair v) c
  obtain ⟨t', ht'⟩ := encrypt_prefix m (Key.ofBlocks high' low' base') (BlkRaw.ofPair v) c'
  rw [e] at ht
  rw [e'] at ht'
  have three : ∀ a b c d t, ((sLog a ++ rLogs m 16 b) ++ (sLog c ++ rLogs m 16 d) ++ t).filter p =
      f a b ++ (f c d ++ t.filter p) := fun a b c d t =>
    (List.filter_append ..).trans ((congrArg (· ++ _) ((List.filter_append ..).trans
      (congr (congrArg (· ++ ·) (hf a b)) (hf c d)))).trans (List.append_assoc ..))
  rw [← ht, ← ht', three, three] at he
  have i1 := List.append_inj he ((hn _ _).trans (hn _ _).symm)
  have := xor_pair_cancel (hi _ _ _ _ es es' i1.1)
  subst this
  rw [es, Exec.ok.injEq] at es'
  subst es'
  rw [er, Exec.ok.injEq] at er'
  subst er'
  have i3 := List.append_inj i1.2 ((hn _ _).trans (hn _ _).symm)
  exact ⟨rfl, xor_pair_cancel (hi _ _ _ _ es1 es1' i3.1)⟩

theorem cached_run {m : Machine} {b : Blk} {id : Nat} {c : Caches} {v : W64 × W64} (h : c id = some v) :
    (Blk.cached id b).valueS m c = (.ok v, c) ∧ (Blk.cached id b).log m c = [] := by
  simp only [Blk.valueS, Blk.log, h, and_self]

theorem loaded_step {m : Machine} (hm : m.unalignedLoad = true) {a b : Blk} {c : Caches} {id n : Nat}
    (ha : ∃ x, a.valueS m c = (.ok x, c) ∧ (a.log m c).length = n) {v : W64 × W64}
    (h : c id = some v) :
    ∃ x, (Key.encryptStep a (.cached id b)).valueS m c = (.ok x, c) ∧
      ((Key.encryptStep a (.cached id b)).log m c).length = n + 4112 := by
  obtain ⟨x, hx, hn⟩ := ha
  obtain ⟨hk, gk⟩ := cached_run (m := m) (b := b) h
  obtain ⟨s, r, -, -, hv, hl⟩ := step_run hm hx hk
  refine ⟨r, hv, ?_⟩
  rw [hl, gk, List.append_nil, List.length_append, List.length_append, sLog_length, rLogs_length hm, hn]

theorem loaded_length {m : Machine} (hm : m.unalignedLoad = true) (high low : Blk) (base : Nat)
    (v : W64 × W64) {c : Caches} (h : ∀ i, 1 ≤ i → i ≤ 10 → ∃ k, c (base + i) = some k) :
    ((BlkEncrypted (BlkRaw.ofPair v) (Key.ofBlocks high low base)).log m c).length = 37008 := by
  have h0 : ∃ x, (BlkRaw.ofPair v).valueS m c = (.ok x, c) ∧ ((BlkRaw.ofPair v).log m c).length = 0 :=
    ⟨v, rfl, rfl⟩
  have g := fun (i : Nat) (h1 : 1 ≤ i) (h2 : i ≤ 10) => (h i h1 h2).choose_spec
  have s1 := loaded_step (b := high) hm h0 (g 1 (by omega) (by omega))
  have s2 := loaded_step (b := low) hm s1 (g 2 (by omega) (by omega))
  have s3 := loaded_step (b := BlkIterKey (Key.ofBlocks high low base).k1 (Key.ofBlocks high low base).k2 1 8)
    hm s2 (g 3 (by omega) (by omega))
  have s4 := loaded_step (b := BlkIterKey (Key.ofBlocks high low base).k1 (Key.ofBlocks high low base).k2 1 7)
    hm s3 (g 4 (by omega) (by omega))
  have s5 := loaded_step (b := BlkIterKey (Key.ofBlocks high low base).k3 (Key.ofBlocks high low base).k4 9 16)
    hm s4 (g 5 (by omega) (by omega))
  have s6 := loaded_step (b := BlkIterKey (Key.ofBlocks high low base).k3 (Key.ofBlocks high low base).k4 9 15)
    hm s5 (g 6 (by omega) (by omega))
  have s7 := loaded_step (b := BlkIterKey (Key.ofBlocks high low base).k5 (Key.ofBlocks high low base).k6 17 24)
    hm s6 (g 7 (by omega) (by omega))
  have s8 := loaded_step (b := BlkIterKey (Key.ofBlocks high low base).k5 (Key.ofBlocks high low base).k6 17 23)
    hm s7 (g 8 (by omega) (by omega))
  have s9 := loaded_step (b := BlkIterKey (Key.ofBlocks high low base).k7 (Key.ofBlocks high low base).k8 25 32)
    hm s8 (g 9 (by omega) (by omega))
  obtain ⟨x, hx, hn⟩ := s9
  obtain ⟨hk, gk⟩ := cached_run (m := m)
    (b := BlkIterKey (Key.ofBlocks high low base).k7 (Key.ofBlocks high low base).k8 25 31)
    (g 10 (by omega) (by omega))
  obtain ⟨-, hl⟩ := xored_run hx hk
  rw [gk, List.append_nil] at hl
  exact (congrArg List.length hl).trans hn

end Goost.Kuz
