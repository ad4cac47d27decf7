import Verif.Model.Leak
import Verif.Lemmas.Sbox
import Verif.Lemmas.Keys
/-
Logs of accesses.
-/
namespace Goost
open Spec Spec.Magma Goost.Magma

/-- Without its log, the call is `y`. -/
def Erases {α : Type} (x : Logged α) (y : Exec α) : Prop := ∀ w, (x w).1 = y

theorem Erases.bind {α β : Type} {x : Logged α} {y : Exec α} {f : α → Logged β} {g : α → Exec β}
    (h : Erases x y) (hf : ∀ a, Erases (f a) (g a)) : Erases (x >>= f) (y >>= g) := by
  intro w
  have := h w
  rcases hx : x w with ⟨r, w'⟩
  rw [hx] at this
  subst this
  cases r with
  | ok a => rw [Io.bind_run_ok hx, Exec.ok_bind]; exact hf a w'
  | throw e => simp [Io.bind_def, Io.bind, hx]
  | ub e => simp [Io.bind_def, Io.bind, hx]
  | diverge => simp [Io.bind_def, Io.bind, hx]

theorem Erases.pure {α : Type} (a : α) : Erases (pure a) (pure a) := fun _ => rfl
theorem Erases.lift {α : Type} (x : Exec α) : Erases (Io.lift x) x := fun _ => rfl
theorem Erases.vget {α : Type} (t : Nat) (v : List α) (i : Nat) : Erases (vgetL t v i) (vget v i) :=
  fun _ => rfl

theorem Erases.nibble (p : Fin 8 → List Int) (x : W32) : Erases (SboxNibbleL p x) (SboxNibble p x) := by
  unfold SboxNibbleL SboxNibble
  refine .bind (.bind (.vget _ _ _) fun _ => .pure _) fun _ => ?_
  refine .bind (.bind (.vget _ _ _) fun _ => .pure _) fun _ => ?_
  refine .bind (.bind (.vget _ _ _) fun _ => .pure _) fun _ => ?_
  refine .bind (.bind (.vget _ _ _) fun _ => .pure _) fun _ => ?_
  refine .bind (.bind (.vget _ _ _) fun _ => .pure _) fun _ => ?_
  refine .bind (.bind (.vget _ _ _) fun _ => .pure _) fun _ => ?_
  refine .bind (.bind (.vget _ _ _) fun _ => .pure _) fun _ => ?_
  exact .bind (.bind (.vget _ _ _) fun _ => .pure _) fun _ => .pure _

theorem Erases.twisted {sb : SboxL} {s : Sbox} (h : ∀ x, Erases (sb x) (s x)) (x : W32) :
    Erases (SboxTwistedL sb x) (SboxTwisted s x) := .bind (h x) fun _ => .pure _

theorem Erases.r3412 (x : W32) : Erases (SboxR3412L x) (SboxR3412 x) :=
  Erases.twisted (Erases.nibble _) x

theorem Erases.tab (uz : List Byte) (o : Nat) (x : W32) :
    Erases (SboxByte64TabL uz o x) (SboxByte64Tab uz o x) :=
  .bind (.vget _ _ _) fun _ => .bind (.vget _ _ _) fun _ => .pure _

theorem Erases.byte (uz : List Byte) (x : W32) : Erases (SboxByteL uz x) (SboxByte uz x) :=
  .bind (.tab _ _ _) fun _ => .bind (.tab _ _ _) fun _ => .bind (.tab _ _ _) fun _ =>
    .bind (.tab _ _ _) fun _ => .pure _

theorem Erases.lazyKey (kd : KeyData) {sb : SboxL} {s : Sbox} (h : ∀ x, Erases (sb x) (s x)) (v : W32)
    (i : Int) : Erases (LazyKeyL kd sb v i) ((LazyKey kd s).transform v i) :=
  .bind (.lift _) fun _ => h _

theorem Erases.forward {T : W32 → Int → Logged W32} {key : Key}
    (h : ∀ v i, Erases (T v i) (key.transform v i)) (v : W32 × W32) :
    Erases (forwardRoundsL T v) (forwardRounds (some key) v) := by
  unfold forwardRoundsL forwardRounds
  refine .bind (h _ _) fun _ => .bind (h _ _) fun _ => .bind (h _ _) fun _ => .bind (h _ _) fun _ => ?_
  exact .bind (h _ _) fun _ => .bind (h _ _) fun _ => .bind (h _ _) fun _ => .bind (h _ _) fun _ =>
    .pure _

theorem Erases.backward {T : W32 → Int → Logged W32} {key : Key}
    (h : ∀ v i, Erases (T v i) (key.transform v i)) (v : W32 × W32) :
    Erases (backwardRoundsL T v) (backwardRounds (some key) v) := by
  unfold backwardRoundsL backwardRounds
  refine .bind (h _ _) fun _ => .bind (h _ _) fun _ => .bind (h _ _) fun _ => .bind (h _ _) fun _ => ?_
  exact .bind (h _ _) fun _ => .bind (h _ _) fun _ => .bind (h _ _) fun _ => .bind (h _ _) fun _ =>
    .pure _

theorem Erases.encrypted {T : W32 → Int → Logged W32} {key : Key}
    (h : ∀ v i, Erases (T v i) (key.transform v i)) (m : Machine) (v : W32 × W32) :
    Erases (BlkEncryptedL T v) ((Magma.BlkEncrypted (.raw v.1 v.2) (some key)).value m) := by
  have : (Magma.BlkEncrypted (.raw v.1 v.2) (some key)).value m =
      (do let v ← forwardRounds (some key) v
          let v ← forwardRounds (some key) v
          let v ← forwardRounds (some key) v
          let v ← backwardRounds (some key) v
          return (v.2, v.1)) := by
    simp only [Magma.BlkEncrypted, Magma.Blk.value, bind_assoc, Exec.ok_bind]
  rw [this]
  exact .bind (.forward h _) fun _ => .bind (.forward h _) fun _ => .bind (.forward h _) fun _ =>
    .bind (.backward h _) fun _ => .pure _

theorem Erases.decrypted {T : W32 → Int → Logged W32} {key : Key}
    (h : ∀ v i, Erases (T v i) (key.transform v i)) (m : Machine) (v : W32 × W32) :
    Erases (BlkDecryptedL T v) ((Magma.BlkDecrypted (.raw v.1 v.2) (some key)).value m) := by
  have : (Magma.BlkDecrypted (.raw v.1 v.2) (some key)).value m =
      (do let v ← forwardRounds (some key) v
          let v ← backwardRounds (some key) v
          let v ← backwardRounds (some key) v
          let v ← backwardRounds (some key) v
          return (v.2, v.1)) := by
    simp only [Magma.BlkDecrypted, Magma.Blk.value, bind_assoc, Exec.ok_bind]
  rw [this]
  exact .bind (.forward h _) fun _ => .bind (.backward h _) fun _ => .bind (.backward h _) fun _ =>
    .bind (.backward h _) fun _ => .pure _

/-- The substitution always answers, `s`, and leaves the log `a`. -/
def LogsAs (sb : SboxL) (s : W32 → W32) (a : W32 → List Access) : Prop :=
  ∀ x w, sb x w = (.ok (s x), w ++ a x)

def nibbleLog (x : W32) : List Access :=
  [.table 0 (nibble x 0).toNat, .table 1 (nibble x 1).toNat, .table 2 (nibble x 2).toNat,
   .table 3 (nibble x 3).toNat, .table 4 (nibble x 4).toNat, .table 5 (nibble x 5).toNat,
   .table 6 (nibble x 6).toNat, .table 7 (nibble x 7).toNat]

theorem eight {P : Fin 8 → Prop} (h0 : P 0) (h1 : P 1) (h2 : P 2) (h3 : P 3) (h4 : P 4) (h5 : P 5)
    (h6 : P 6) (h7 : P 7) (i : Fin 8) : P i := by
  match i with
  | 0 => exact h0
  | 1 => exact h1
  | 2 => exact h2
  | 3 => exact h3
  | 4 => exact h4
  | 5 => exact h5
  | 6 => exact h6
  | 7 => exact h7

theorem nibbleLog_inj {x y : W32} (h : nibbleLog x = nibbleLog y) : x = y := by
  simp only [nibbleLog, List.cons.injEq, Access.table.injEq, true_and, and_true] at h
  obtain ⟨h0, h1, h2, h3, h4, h5, h6, h7⟩ := h
  refine nibble_ext (eight ?_ ?_ ?_ ?_ ?_ ?_ ?_ ?_) <;> exact BitVec.eq_of_toNat_eq (by assumption)

theorem transformNL_logs {p : List Int} (hp : p.length = 16) (x : W32) (i : Fin 8) (w : List Access) :
    ∃ r, SboxNibble.transformNL x p i.val w = (.ok r, w ++ [.table i.val (nibble x i).toNat]) := by
  have hi : ((x >>> (i.val * 4)) &&& 0xf).toNat = (nibble x i).toNat := by
    rw [nibble_index, nibble, Nat.mul_comm]
  have hl : (nibble x i).toNat < p.length := by rw [hp]; exact (nibble x i).isLt
  have e : vgetL i.val p ((x >>> (i.val * 4)) &&& 0xf).toNat w =
      (.ok p[(nibble x i).toNat], w ++ [.table i.val (nibble x i).toNat]) := by
    simp only [vgetL, vget, hi, List.getElem?_eq_getElem hl]
  exact ⟨_, by rw [SboxNibble.transformNL, Io.bind_run_ok e]; rfl⟩

theorem nibble_logs {p : Fin 8 → List Int} (hp : ∀ i, (p i).length = 16) :
    ∃ s, LogsAs (SboxNibbleL p) s nibbleLog := by
  have : ∀ x, ∃ r, ∀ w, SboxNibbleL p x w = (.ok r, w ++ nibbleLog x) := by
    intro x
    have key : ∀ w, ∃ r, SboxNibbleL p x w = (.ok r, w ++ nibbleLog x) := by
      intro w
      obtain ⟨r0, e0⟩ := transformNL_logs (hp 0) x 0 w
      obtain ⟨r1, e1⟩ := transformNL_logs (hp 1) x 1 (w ++ [.table 0 (nibble x 0).toNat])
      obtain ⟨r2, e2⟩ := transformNL_logs (hp 2) x 2 _
      obtain ⟨r3, e3⟩ := transformNL_logs (hp 3) x 3 _
      obtain ⟨r4, e4⟩ := transformNL_logs (hp 4) x 4 _
      obtain ⟨r5, e5⟩ := transformNL_logs (hp 5) x 5 _
      obtain ⟨r6, e6⟩ := transformNL_logs (hp 6) x 6 _
      obtain ⟨r7, e7⟩ := transformNL_logs (hp 7) x 7 _
      refine ⟨r0 ||| r1 ||| r2 ||| r3 ||| r4 ||| r5 ||| r6 ||| r7, ?_⟩
      unfold SboxNibbleL
      erw [Io.bind_run_ok e0, Io.bind_run_ok e1, Io.bind_run_ok e2, Io.bind_run_ok e3, Io.bind_run_ok e4,
        Io.bind_run_ok e5, Io.bind_run_ok e6, Io.bind_run_ok e7]
      simp only [nibbleLog, Io.pure_def, Io.lift, List.append_assoc, List.cons_append, List.nil_append]
      rfl
    obtain ⟨r, e⟩ := key []
    refine ⟨r, fun w => ?_⟩
    obtain ⟨r', e'⟩ := key w
    have h1 := Erases.nibble p x []
    have h2 := Erases.nibble p x w
    rw [e] at h1
    rw [e'] at h2
    rw [e', (Exec.ok.inj (h2.trans h1.symm))]
  exact ⟨fun x => (this x).choose, fun x => (this x).choose_spec⟩

theorem shift_extract (x : W32) (s a : Nat) : (x >>> s).extractLsb' a 4 = x.extractLsb' (s + a) 4 := by
  apply BitVec.eq_of_getLsbD_eq
  intro n hn
  simp only [BitVec.getLsbD_extractLsb', BitVec.getLsbD_ushiftRight, hn, decide_true, Bool.true_and,
    Nat.add_assoc]

theorem tab_logs {uz : List Byte} (h : uz.length = 64) (j : Nat) (hj : j < 4) (x : W32)
    (w : List Access) :
    ∃ r, SboxByte64TabL uz j x w = (.ok r, w ++ [.table 0 ((x.extractLsb' 4 4).toNat * 4 + j),
      .table 0 ((x.extractLsb' 0 4).toNat * 4 + j)]) := by
  have get : ∀ (y : BitVec 4) (w : List Access), ∃ b, vgetL 0 uz (y.toNat * 4 + j) w =
      (.ok b, w ++ [.table 0 (y.toNat * 4 + j)]) := by
    intro y w
    have hy := y.isLt
    have hlt : y.toNat * 4 + j < uz.length := by omega
    exact ⟨uz[y.toNat * 4 + j], by simp only [vgetL, vget, List.getElem?_eq_getElem hlt]⟩
  obtain ⟨hi, e1⟩ := get (x.extractLsb' 4 4) w
  obtain ⟨lo, e2⟩ := get (x.extractLsb' 0 4) (w ++ [.table 0 ((x.extractLsb' 4 4).toNat * 4 + j)])
  refine ⟨((hi &&& 0xf0).setWidth 32) + ((lo &&& 0x0f).setWidth 32), ?_⟩
  rw [SboxByte64TabL]
  simp only [low_nibble, sar_extract]
  rw [Io.bind_run_ok e1, Io.bind_run_ok e2]
  simp only [Io.pure_def, Io.lift, List.append_assoc, List.cons_append, List.nil_append]

def byteLog (x : W32) : List Access :=
  [.table 0 ((nibble x 1).toNat * 4 + 0), .table 0 ((nibble x 0).toNat * 4 + 0),
   .table 0 ((nibble x 3).toNat * 4 + 1), .table 0 ((nibble x 2).toNat * 4 + 1),
   .table 0 ((nibble x 5).toNat * 4 + 2), .table 0 ((nibble x 4).toNat * 4 + 2),
   .table 0 ((nibble x 7).toNat * 4 + 3), .table 0 ((nibble x 6).toNat * 4 + 3)]

theorem byteLog_inj {x y : W32} (h : byteLog x = byteLog y) : x = y := by
  simp only [byteLog, List.cons.injEq, Access.table.injEq, true_and, and_true] at h
  obtain ⟨h1, h0, h3, h2, h5, h4, h7, h6⟩ := h
  refine nibble_ext (eight ?_ ?_ ?_ ?_ ?_ ?_ ?_ ?_) <;> exact BitVec.eq_of_toNat_eq (by omega)

theorem byte_logs {uz : List Byte} (h : uz.length = 64) : ∃ s, LogsAs (SboxByteL uz) s byteLog := by
  have : ∀ x, ∃ r, ∀ w, SboxByteL uz x w = (.ok r, w ++ byteLog x) := by
    intro x
    have key : ∀ w, ∃ r, SboxByteL uz x w = (.ok r, w ++ byteLog x) := by
      intro w
      obtain ⟨r0, e0⟩ := tab_logs h 0 (by decide) x w
      obtain ⟨r1, e1⟩ := tab_logs h 1 (by decide) (x >>> 8) _
      obtain ⟨r2, e2⟩ := tab_logs h 2 (by decide) (x >>> 16) _
      obtain ⟨r3, e3⟩ := tab_logs h 3 (by decide) (x >>> 24) _
      refine ⟨r0 ||| (r1 <<< 8) ||| (r2 <<< 16) ||| (r3 <<< 24), ?_⟩
      unfold SboxByteL
      rw [Io.bind_run_ok e0, Io.bind_run_ok e1, Io.bind_run_ok e2, Io.bind_run_ok e3]
      simp only [byteLog, nibble, shift_extract, Io.pure_def, Io.lift, List.append_assoc,
        List.cons_append, List.nil_append]
      rfl
    obtain ⟨r, e⟩ := key []
    refine ⟨r, fun w => ?_⟩
    obtain ⟨r', e'⟩ := key w
    have h1 := Erases.byte uz x []
    have h2 := Erases.byte uz x w
    rw [e] at h1
    rw [e'] at h2
    rw [e', (Exec.ok.inj (h2.trans h1.symm))]
  exact ⟨fun x => (this x).choose, fun x => (this x).choose_spec⟩

theorem LogsAs.twisted {sb : SboxL} {s : W32 → W32} {a : W32 → List Access} (h : LogsAs sb s a) :
    LogsAs (SboxTwistedL sb) (fun x => ((s x) <<< 11) ||| (((s x) >>> 21) &&& 0x7ff)) a := by
  intro x w
  rw [SboxTwistedL, Io.bind_run_ok (h x w)]
  rfl

/-- Rounds with the keys of the given indices; the halves change places after every round. -/
def roundsL (T : W32 → Int → Logged W32) : List Int → W32 × W32 → Logged (W32 × W32)
  | [], v => pure v
  | i :: is, v => do
    let t ← T v.1 i
    roundsL T is (v.2 ^^^ t, v.1)

/-- The inputs of the substitution in these rounds. -/
def roundInputs (K : Int → W32) (s : W32 → W32) : List Int → W32 × W32 → List W32
  | [], _ => []
  | i :: is, v => (K i + v.1) :: roundInputs K s is (v.2 ^^^ s (K i + v.1), v.1)

theorem roundInputs_length (K : Int → W32) (s : W32 → W32) (is : List Int) (v : W32 × W32) :
    (roundInputs K s is v).length = is.length := by
  induction is generalizing v with
  | nil => rfl
  | cons i is ih => simp only [roundInputs, List.length_cons, ih]

theorem roundsL_append (T : W32 → Int → Logged W32) (is js : List Int) (v : W32 × W32) :
    roundsL T (is ++ js) v = roundsL T is v >>= roundsL T js := by
  induction is generalizing v with
  | nil => rfl
  | cons i is ih =>
    simp only [List.cons_append, roundsL, bind_assoc]
    congr 1
    funext t
    rw [ih]

theorem forwardRoundsL_eq (T : W32 → Int → Logged W32) (v : W32 × W32) :
    forwardRoundsL T v = roundsL T [0, 1, 2, 3, 4, 5, 6, 7] v := by
  simp only [forwardRoundsL, roundsL]

theorem backwardRoundsL_eq (T : W32 → Int → Logged W32) (v : W32 × W32) :
    backwardRoundsL T v = roundsL T [7, 6, 5, 4, 3, 2, 1, 0] v := by
  simp only [backwardRoundsL, roundsL]

theorem roundsL_run {sb : SboxL} {s : W32 → W32} {a : W32 → List Access} (h : LogsAs sb s a)
    {kd : KeyData} {K : Int → W32} (is : List Int) (hk : ∀ i ∈ is, kd i = .ok (K i)) (v : W32 × W32)
    (w : List Access) :
    ∃ r, roundsL (LazyKeyL kd sb) is v w = (.ok r, w ++ (roundInputs K s is v).flatMap a) := by
  induction is generalizing v w with
  | nil => exact ⟨v, by simp [roundsL, roundInputs, Io.pure_def, Io.lift]⟩
  | cons i is ih =>
    have e : LazyKeyL kd sb v.1 i w = (.ok (s (K i + v.1)), w ++ a (K i + v.1)) := by
      rw [LazyKeyL, hk i (by simp), Io.lift_ok_bind]
      exact h _ _
    obtain ⟨r, hr⟩ := ih (fun j hj => hk j (by simp [hj])) (v.2 ^^^ s (K i + v.1), v.1)
      (w ++ a (K i + v.1))
    refine ⟨r, ?_⟩
    rw [roundsL, Io.bind_run_ok e, hr]
    simp [roundInputs]

/-- What follows the rounds does not matter. -/
theorem rounds_reveal {s : W32 → W32} {a : W32 → List Access} {n : Nat} (hlen : ∀ x, (a x).length = n)
    (hinj : ∀ x y, a x = a y → x = y) {K K' : Int → W32} (is : List Int) (v : W32 × W32)
    {l l' : List Access}
    (h : (roundInputs K s is v).flatMap a ++ l = (roundInputs K' s is v).flatMap a ++ l') :
    ∀ i ∈ is, K i = K' i := by
  induction is generalizing v with
  | nil => simp
  | cons i is ih =>
    simp only [roundInputs, List.flatMap_cons, List.append_assoc] at h
    obtain ⟨h1, h2⟩ := List.append_inj h (by rw [hlen, hlen])
    have hi : K i = K' i := by
      have := hinj _ _ h1
      simpa using this
    intro j hj
    rcases List.mem_cons.1 hj with rfl | hj
    · exact hi
    · rw [hi] at h2
      exact ih _ h2 j hj

end Goost

namespace Goost
open Spec Goost.Magma

theorem BlkEncryptedL_eq (T : W32 → Int → Logged W32) (v : W32 × W32) :
    BlkEncryptedL T v = (do
      let v ← roundsL T ([0, 1, 2, 3, 4, 5, 6, 7] ++ ([0, 1, 2, 3, 4, 5, 6, 7] ++
        ([0, 1, 2, 3, 4, 5, 6, 7] ++ [7, 6, 5, 4, 3, 2, 1, 0]))) v
      return (v.2, v.1)) := by
  simp only [roundsL_append, BlkEncryptedL, forwardRoundsL_eq, backwardRoundsL_eq, bind_assoc]

theorem BlkDecryptedL_eq (T : W32 → Int → Logged W32) (v : W32 × W32) :
    BlkDecryptedL T v = (do
      let v ← roundsL T ([0, 1, 2, 3, 4, 5, 6, 7] ++ ([7, 6, 5, 4, 3, 2, 1, 0] ++
        ([7, 6, 5, 4, 3, 2, 1, 0] ++ [7, 6, 5, 4, 3, 2, 1, 0]))) v
      return (v.2, v.1)) := by
  simp only [roundsL_append, BlkDecryptedL, forwardRoundsL_eq, backwardRoundsL_eq, bind_assoc]

theorem roundInputs_append (K : Int → W32) (s : W32 → W32) (is js : List Int) (v : W32 × W32) :
    ∃ u, roundInputs K s (is ++ js) v = roundInputs K s is v ++ roundInputs K s js u := by
  induction is generalizing v with
  | nil => exact ⟨v, rfl⟩
  | cons i is ih =>
    obtain ⟨u, hu⟩ := ih (v.2 ^^^ s (K i + v.1), v.1)
    exact ⟨u, by simp only [List.cons_append, roundInputs, hu]⟩

theorem flatMap_length {α β : Type} {a : α → List β} {n : Nat} (h : ∀ x, (a x).length = n)
    (l : List α) : (l.flatMap a).length = n * l.length := by
  induction l with
  | nil => rfl
  | cons x xs ih => rw [List.flatMap_cons, List.length_append, ih, h, List.length_cons, Nat.mul_add]; omega

/-- The log of 32 rounds that begin with the eight words of the key in order. -/
theorem rounds_log {sb : SboxL} {s : W32 → W32} {a : W32 → List Access} (h : LogsAs sb s a)
    {kd : KeyData} {K : Int → W32} (hk : ∀ i : Nat, i < 8 → kd i = .ok (K i)) (rest : List Int)
    (hr : ∀ i ∈ rest, ∃ n : Nat, n < 8 ∧ i = n) (v : W32 × W32) :
    ∃ l, ((do let v ← roundsL (LazyKeyL kd sb) ([0, 1, 2, 3, 4, 5, 6, 7] ++ rest) v
              return (v.2, v.1) : Logged (W32 × W32)) []).2 =
      (roundInputs K s [0, 1, 2, 3, 4, 5, 6, 7] v).flatMap a ++ l ∧
      ∃ is : List W32, l = is.flatMap a ∧ is.length = rest.length := by
  have hks : ∀ i ∈ [0, 1, 2, 3, 4, 5, 6, 7] ++ rest, kd i = .ok (K i) := by
    intro i hi
    rcases List.mem_append.1 hi with hi | hi
    · simp only [List.mem_cons, List.not_mem_nil, or_false] at hi
      rcases hi with rfl | rfl | rfl | rfl | rfl | rfl | rfl | rfl
      · exact hk 0 (by decide)
      · exact hk 1 (by decide)
      · exact hk 2 (by decide)
      · exact hk 3 (by decide)
      · exact hk 4 (by decide)
      · exact hk 5 (by decide)
      · exact hk 6 (by decide)
      · exact hk 7 (by decide)
    · obtain ⟨n, hn, rfl⟩ := hr i hi
      exact hk n hn
  obtain ⟨r, e⟩ := roundsL_run h _ hks v []
  obtain ⟨u, hu⟩ := roundInputs_append K s [0, 1, 2, 3, 4, 5, 6, 7] rest v
  refine ⟨(roundInputs K s rest u).flatMap a, ?_, _, rfl, roundInputs_length _ _ _ _⟩
  rw [Io.bind_run_ok e, hu, List.flatMap_append, List.nil_append]
  rfl

theorem enc_rest : ∀ i ∈ ([0, 1, 2, 3, 4, 5, 6, 7] ++ ([0, 1, 2, 3, 4, 5, 6, 7] ++
    [7, 6, 5, 4, 3, 2, 1, 0]) : List Int), ∃ n : Nat, n < 8 ∧ i = n := by
  intro i hi
  refine ⟨i.toNat, ?_⟩
  simp only [List.mem_append, List.mem_cons, List.not_mem_nil, or_false] at hi
  omega

theorem dec_rest : ∀ i ∈ ([7, 6, 5, 4, 3, 2, 1, 0] ++ ([7, 6, 5, 4, 3, 2, 1, 0] ++
    [7, 6, 5, 4, 3, 2, 1, 0]) : List Int), ∃ n : Nat, n < 8 ∧ i = n := by
  intro i hi
  refine ⟨i.toNat, ?_⟩
  simp only [List.mem_append, List.mem_cons, List.not_mem_nil, or_false] at hi
  omega

/-- From equal logs of such rounds follow equal keys. -/
theorem key_from_log {sb : SboxL} {s : W32 → W32} {a : W32 → List Access} (h : LogsAs sb s a) {n : Nat}
    (hlen : ∀ x, (a x).length = n) (hinj : ∀ x y, a x = a y → x = y) {kd kd' : KeyData}
    (hk : ∀ i : Nat, i < 8 → ∃ k, kd i = .ok k) (hk' : ∀ i : Nat, i < 8 → ∃ k, kd' i = .ok k)
    (rest : List Int) (hr : ∀ i ∈ rest, ∃ n : Nat, n < 8 ∧ i = n) (v : W32 × W32)
    (he : ((do let v ← roundsL (LazyKeyL kd sb) ([0, 1, 2, 3, 4, 5, 6, 7] ++ rest) v
               return (v.2, v.1) : Logged (W32 × W32)) []).2 =
      ((do let v ← roundsL (LazyKeyL kd' sb) ([0, 1, 2, 3, 4, 5, 6, 7] ++ rest) v
           return (v.2, v.1) : Logged (W32 × W32)) []).2) (i : Nat) (hi : i < 8) :
    kd i = kd' i := by
  have get : ∀ kd : KeyData, (∀ i : Nat, i < 8 → ∃ k, kd i = .ok k) →
      ∃ K : Int → W32, ∀ i : Nat, i < 8 → kd i = .ok (K i) := by
    intro kd h
    refine ⟨fun i => match kd i with | .ok k => k | _ => 0, fun i hi => ?_⟩
    obtain ⟨k, hk⟩ := h i hi
    simp only [hk]
  obtain ⟨K, hK⟩ := get kd hk
  obtain ⟨K', hK'⟩ := get kd' hk'
  obtain ⟨l, e, -⟩ := rounds_log h hK rest hr v
  obtain ⟨l', e', -⟩ := rounds_log h hK' rest hr v
  rw [e, e'] at he
  have := rounds_reveal hlen hinj _ v he
  rw [hK i hi, hK' i hi, this i (by
    have : i = 0 ∨ i = 1 ∨ i = 2 ∨ i = 3 ∨ i = 4 ∨ i = 5 ∨ i = 6 ∨ i = 7 := by omega
    rcases this with rfl | rfl | rfl | rfl | rfl | rfl | rfl | rfl <;> simp)]

theorem rounds_log_length {sb : SboxL} {s : W32 → W32} {a : W32 → List Access} (h : LogsAs sb s a)
    {n : Nat} (hlen : ∀ x, (a x).length = n) {kd : KeyData}
    (hk : ∀ i : Nat, i < 8 → ∃ k, kd i = .ok k) (rest : List Int)
    (hr : ∀ i ∈ rest, ∃ n : Nat, n < 8 ∧ i = n) (v : W32 × W32) :
    ((do let v ← roundsL (LazyKeyL kd sb) ([0, 1, 2, 3, 4, 5, 6, 7] ++ rest) v
         return (v.2, v.1) : Logged (W32 × W32)) []).2.length = n * (8 + rest.length) := by
  obtain ⟨K, hK⟩ : ∃ K : Int → W32, ∀ i : Nat, i < 8 → kd i = .ok (K i) := by
    refine ⟨fun i => match kd i with | .ok k => k | _ => 0, fun i hi => ?_⟩
    obtain ⟨k, hk⟩ := hk i hi
    simp only [hk]
  obtain ⟨l, e, is, rfl, hl⟩ := rounds_log h hK rest hr v
  rw [e, List.length_append, flatMap_length hlen, flatMap_length hlen, roundInputs_length, hl,
    Nat.mul_add]
  rfl

theorem rounds_log_all {sb : SboxL} {s : W32 → W32} {a : W32 → List Access} (h : LogsAs sb s a)
    {P : Access → Prop} (hp : ∀ x, ∀ y ∈ a x, P y) {kd : KeyData}
    (hk : ∀ i : Nat, i < 8 → ∃ k, kd i = .ok k) (rest : List Int)
    (hr : ∀ i ∈ rest, ∃ n : Nat, n < 8 ∧ i = n) (v : W32 × W32) :
    ∀ y ∈ ((do let v ← roundsL (LazyKeyL kd sb) ([0, 1, 2, 3, 4, 5, 6, 7] ++ rest) v
               return (v.2, v.1) : Logged (W32 × W32)) []).2, P y := by
  obtain ⟨K, hK⟩ : ∃ K : Int → W32, ∀ i : Nat, i < 8 → kd i = .ok (K i) := by
    refine ⟨fun i => match kd i with | .ok k => k | _ => 0, fun i hi => ?_⟩
    obtain ⟨k, hk⟩ := hk i hi
    simp only [hk]
  obtain ⟨l, e, is, rfl, hl⟩ := rounds_log h hK rest hr v
  rw [e]
  intro y hy
  rcases List.mem_append.1 hy with hy | hy <;>
  · obtain ⟨x, -, hx⟩ := List.mem_flatMap.1 hy
    exact hp x y hx

end Goost
