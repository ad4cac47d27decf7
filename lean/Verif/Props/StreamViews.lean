import Verif.Lemmas.StreamViewsRun
/-
C130: when the data behind a stream are read.
-/
namespace Goost.Props
open Goost.StreamViews Spec Spec.Modes Spec.StreamViews
open Goost.Views (V Cells)

/-! ### Programs, for examples -/

/-- The halves of a key are the variables 0 and 1, a stream shows the variables 2 and 3, it is copied to memory, and the
stream and the copy are encrypted; an iterator goes to the second block of each. Some variable `d` is changed before the first
use and some variable `e` after it. -/
def twoStreams (d e : Nat) (x y : V) : List Step :=
  [.key 0 1, .stream (.own [2, 3] 5), .stream (.memory [2, 3]), .stream (.ctr 0 0 7), .stream (.ctr 1 0 7), .iter 2, .iter 3,
    .next 0, .next 1, .change d x, .ask (.value 2), .ask (.value 3), .change e y, .ask (.value 2), .ask (.value 3),
    .ask (.last 0), .ask (.size 2), .ask (.mac 2 0)]

/-- The authentication code of a stream that shows the variables 2 and 3, before and after a variable is changed. -/
def twoCodes (d : Nat) (x : V) : List Step :=
  [.key 0 1, .stream (.own [2, 3] 16), .ask (.mac 0 0), .change d x, .ask (.mac 0 0)]

/-! ### The property -/

/-- C130. Take any program that makes keys, streams of variables, streams in memory and encrypted streams over each other, to
any depth and sharing them in any way, gets iterators of them and moves on in any order, changes its variables whenever it
wants, and asks iterators for values, `last()` and `size()` and streams for authentication codes as often as it wants. Every
call returns, and returns what `Answers` says of the moment of the call: streams and iterators are views of the data, streams
in memory keep what they were made with, and keys keep what they saw when they encrypted for the first time. -/
theorem C130_answers (m : Machine) (hm : m.unalignedLoad = true) (start : Cells) (p : List Step)
    (hp : sound 0 [] [] p = true) :
    List.Forall₂ (fun x q => ∃ a, x = .ok a ∧ Answers start p q.1 q.2 a) (run m p {} (fun _ => none, start)) (asked p) :=
  (Inv.init start p).run hm p [] {} _ _ [] _ rfl hp

/-- A program that nests, shares and changes. -/
example (d e : Nat) (x y : V) : sound 0 [] [] (twoStreams d e x y) = true ∧ (asked (twoStreams d e x y)).length = 7 := ⟨rfl, rfl⟩

/-- C130. `Answers` leaves no choice. -/
theorem C130_unique (start : Cells) (p : List Step) (q : Query) (t : Nat) (a b : Answer) (ha : Answers start p q t a)
    (hb : Answers start p q t b) : a = b := by
  have join_inj : ∀ v v' : V, join64 v = join64 v' → v = v' := fun v v' h => join64_inj h
  cases ha with
  | value e1 e2 e3 =>
    cases hb with
    | value f1 f2 f3 =>
      rw [e1] at f1; cases f1
      cases data_unique e2 f2
      rw [e3] at f3
      rw [join_inj _ _ (Option.some.inj f3)]
  | last e1 e2 =>
    cases hb with
    | last f1 f2 =>
      rw [e1] at f1; cases f1
      cases data_unique e2 f2
      rfl
  | size e1 e2 e3 =>
    cases hb with
    | size f1 f2 f3 =>
      rw [e1] at f1; cases f1
      cases data_unique e2 f2
      cases lastSize_unique e3 f3
      rfl
  | mac e1 e2 e3 e4 =>
    cases hb with
    | mac f1 f2 f3 f4 =>
      obtain ⟨h1, h2⟩ := List.append_inj' (data_unique e1 f1) rfl
      cases h1
      cases h2
      cases lastSize_unique e2 f2
      cases keyAt_unique e3 f3
      rw [join_inj _ _ (e4.trans f4.symm)]

/-- The second block of the copy in memory, whatever has been changed since. -/
example (d e : Nat) (x y : V) (t : Nat) :
    Data (fun _ => (1, 2)) (twoStreams d e x y) 1 t [join64 (1, 2), join64 (1, 2)] :=
  .memory (cells := [2, 3]) (t₀ := 2) rfl

/-- C130. Nothing is read by making keys, streams of variables and encrypted streams, by getting iterators and moving them on,
whatever the objects are; the variables and the keys stay as they are. (A stream in memory reads the data once, when it is
made.) -/
theorem C130_making_reads_nothing (o : Objects) (x : Step) (hc : ∀ c v, x ≠ .change c v)
    (hm : ∀ cells, x ≠ .stream (.memory cells)) : ∃ r, ∀ s, extend o x s = (r, s) := by
  cases x with
  | change c v => exact absurd rfl (hc c v)
  | key h l => exact Still.pure _
  | stream how =>
    cases how with
    | own cells n => exact (Still.pure _ : Still (makeStream o (.own cells n))).bind fun _ => .pure _
    | memory cells => exact absurd rfl (hm cells)
    | ctr s k iv =>
      exact ((Still.lift _).bind fun _ => (Still.lift _).bind fun _ => .pure _ : Still (makeStream o (.ctr s k iv))).bind
        fun _ => .pure _
  | iter i => exact (Still.lift _).bind fun s => (still_iter s).bind fun _ => .pure _
  | next i => exact (Still.lift _).bind fun p => (still_deref still_next p).bind fun _ => .pure _
  | ask q => exact Still.pure _

/-- Moving an iterator of an encrypted stream on. -/
example (o : Objects) (i : Nat) : ∃ r, ∀ s, extend o (.next i) s = (r, s) := C130_making_reads_nothing o _ (by simp) (by simp)

/-- C130. Neither `last()` nor `size()` reads anything. -/
theorem C130_last_size_read_nothing (m : Machine) (o : Objects) (i : Nat) :
    (∃ r, ∀ s, answer m o (.last i) s = (r, s)) ∧ ∃ r, ∀ s, answer m o (.size i) s = (r, s) :=
  ⟨(Still.lift _).bind fun p => (still_deref still_last p).bind fun _ => .pure _,
    (Still.lift _).bind fun p => (still_deref still_size p).bind fun _ => .pure _⟩

/-- An iterator over two variables, at the last. -/
example : ∀ s, answer .x86 { iters := [some (.own [4] 9)] } (.size 0) s = (.ok (.number 9), s) := fun _ => rfl

/-- C130. A stream in memory never changes. -/
theorem C130_memory_keeps (start : Cells) (p : List Step) (s t₀ t t' : Nat) (cells : List Nat) (xs : List (BitVec 128))
    (hs : (streams p)[s]? = some (.memory cells, t₀)) (h : Data start p s t xs) : Data start p s t' xs := by
  cases h with
  | memory e => exact .memory e
  | _ => simp_all

/-- The copy in `twoStreams`. -/
example (d e : Nat) (x y : V) (t : Nat) :
    Data (fun _ => (1, 2)) (twoStreams d e x y) 1 t [join64 (1, 2), join64 (1, 2)] :=
  C130_memory_keeps _ _ 1 2 3 t [2, 3] _ rfl (.memory (cells := [2, 3]) (t₀ := 2) rfl)

/-- C130. A key never changes after its first use. -/
theorem C130_keys_keep (start : Cells) (p : List Step) (k t t' : Nat) (K : BitVec 256) (h : KeyAt start p k t K)
    (hu : Uses p t k) (ht : t ≤ t') : KeyAt start p k t' K := keyAt_later h hu ht

/-- The step number 10 of `twoStreams` uses the key. -/
example (d e : Nat) (x y : V) : Uses (twoStreams d e x y) 10 0 := .inl ⟨2, 2, 1, rfl, rfl, .here (a := 0) (t := 3) rfl⟩

/-- C130. One iterator of an encrypted stream that is asked twice uses the same gamma twice. Who sees two answers, and the data
have been changed in between, sees the sum of the old data and the new. -/
theorem C130_same_gamma (start : Cells) (p : List Step) (i s j a k t₀ t t' : Nat) (iv : W64) (v v' : V)
    (xs xs' : List (BitVec 128)) (hs : (streams p)[s]? = some (.ctr a k iv, t₀)) (hi : (iterators p)[i]? = some (s, j))
    (ht : p[t]? = some (.ask (.value i))) (hle : t ≤ t') (h : Answers start p (.value i) t (.block v))
    (h' : Answers start p (.value i) t' (.block v')) (hx : Data start p a t xs) (hx' : Data start p a t' xs') :
    ∃ x x', xs[j]? = some x ∧ xs'[j]? = some x' ∧ join64 v ^^^ join64 v' = x ^^^ x' := by
  cases h with
  | value e1 e2 e3 =>
    cases h' with
    | value f1 f2 f3 =>
      rw [hi] at e1 f1; cases e1; cases f1
      cases e2 with
      | own g => rw [hs] at g; cases g
      | memory g => rw [hs] at g; cases g
      | ctr g g1 g2 =>
        cases f2 with
        | own q => rw [hs] at q; cases q
        | memory q => rw [hs] at q; cases q
        | ctr q q1 q2 =>
          rw [hs] at g q; cases g; cases q
          cases data_unique hx g1
          cases data_unique hx' q1
          cases keyAt_unique (keyAt_later g2 (.inl ⟨i, s, j, ht, hi, .here hs⟩) hle) q2
          simp only [Modes.ctr, List.getElem?_mapIdx, Option.map_eq_some_iff] at e3 f3
          obtain ⟨x, h1, h2⟩ := e3
          obtain ⟨x', h3, h4⟩ := f3
          refine ⟨x, x', h1, h3, ?_⟩
          rw [← h2, ← h4, BitVec.xor_assoc, BitVec.xor_comm (Spec.Kuz.enc _ _), BitVec.xor_assoc, BitVec.xor_self,
            BitVec.xor_zero]

/-- In `twoStreams`, with the data changed. -/
example (x y : V) : (streams (twoStreams 2 3 x y))[2]? = some (.ctr 0 0 7, 3) ∧
    (iterators (twoStreams 2 3 x y))[2]? = some (2, 1) ∧ (twoStreams 2 3 x y)[10]? = some (.ask (.value 2)) := ⟨rfl, rfl, rfl⟩

/-! ### Two programs -/

theorem not_uses {p : List Step} {t k : Nat} {s : Step} (h : p[t]? = some s) (hq : ∀ q, s ≠ .ask q) : ¬ Uses p t k := by
  rintro (⟨i, _, _, e, -⟩ | ⟨a, _, e, -⟩) <;> (rw [h] at e; cases e; exact hq _ rfl)

theorem answers_value {start : Cells} {p : List Step} {i s j t : Nat} {a : Answer} {xs : List (BitVec 128)}
    (h : Answers start p (.value i) t a) (hi : (iterators p)[i]? = some (s, j)) (hx : Data start p s t xs) :
    ∃ v, a = .block v ∧ xs[j]? = some (join64 v) := by
  cases h with
  | value e1 e2 e3 =>
    rw [hi] at e1; cases e1
    cases data_unique hx e2
    exact ⟨_, rfl, e3⟩

theorem answers_mac {start : Cells} {p : List Step} {s k t n : Nat} {a : Answer} {xs : List (BitVec 128)} {x : BitVec 128}
    {K : BitVec 256} (h : Answers start p (.mac s k) t a) (hx : Data start p s t (xs ++ [x])) (hn : LastSize p s n)
    (hK : KeyAt start p k t K) : ∃ v, a = .block v ∧
      join64 v = omac (Spec.Kuz.enc K) (if n = 16 then macK1 (Spec.Kuz.enc K) 0x87 else macK2 (Spec.Kuz.enc K) 0x87) xs x := by
  cases h with
  | mac e1 e2 e3 e4 =>
    obtain ⟨h1, h2⟩ := List.append_inj' (data_unique hx e1) rfl
    cases h1
    cases h2
    cases lastSize_unique hn e2
    cases keyAt_unique hK e3
    exact ⟨_, rfl, e4⟩

/-- C130. A key is made, a stream of one block is encrypted with it and an iterator is got. Then a variable `d` is changed, the
iterator is asked, a variable `e` is changed, and the iterator is asked again. The first answer is of the data and the key after
the first change, although all objects were there before. The second answer is of the data after the second change, and of the
key as it was at the first answer. -/
theorem C130_two_answers (m : Machine) (hm : m.unalignedLoad = true) (start : Cells) (iv : W64) (d e : Nat) (x y : V)
    (z : Cells) (hz : z = fun i => if i = d then x else start i) :
    ∃ v v', run m [.key 0 1, .stream (.own [2] 16), .stream (.ctr 0 0 iv), .iter 1, .change d x, .ask (.value 0), .change e y,
        .ask (.value 0)] {} (fun _ => none, start) = [.ok (.block v), .ok (.block v')] ∧
      join64 v = join64 (z 2) ^^^ Spec.Kuz.enc (join64 (z 0) ++ join64 (z 1)) (iv ++ (0 : W64)) ∧
      join64 v' = join64 (if e = 2 then y else z 2) ^^^ Spec.Kuz.enc (join64 (z 0) ++ join64 (z 1)) (iv ++ (0 : W64)) := by
  let p : List Step := [.key 0 1, .stream (.own [2] 16), .stream (.ctr 0 0 iv), .iter 1, .change d x, .ask (.value 0), .change e y,
    .ask (.value 0)]
  have hr := C130_answers m hm start p rfl
  have hc : ∀ i, contents start p i 5 = join64 (z i) := fun i => by
    subst hz
    rfl
  have hu : ∀ s, s < 5 → ¬ Uses p s 0 := by
    intro s hs
    match s, hs with
    | 0, _ | 1, _ | 2, _ | 3, _ | 4, _ => exact not_uses (p := p) rfl (by simp)
  have hk : KeyAt start p 0 5 (join64 (z 0) ++ join64 (z 1)) :=
    ⟨0, 1, 5, rfl, ⟨Nat.le_refl _, hu, .inl rfl⟩, by rw [hc, hc]⟩
  have hk' : KeyAt start p 0 7 (join64 (z 0) ++ join64 (z 1)) :=
    C130_keys_keep start p 0 5 7 _ hk (.inl ⟨0, 1, 0, rfl, rfl, .here (a := 0) (t := 2) rfl⟩) (by omega)
  have h1 : Data start p 1 5 (Modes.ctr (k := 64) (Spec.Kuz.enc (join64 (z 0) ++ join64 (z 1))) iv [join64 (z 2)]) := by
    rw [← hc 2]
    exact .ctr (a := 0) (k := 0) (t₀ := 2) rfl (.own (cells := [2]) (t₀ := 1) rfl) hk
  have hc' : contents start p 2 7 = join64 (if e = 2 then y else z 2) := by
    subst hz
    show join64 (if 2 = e then y else if 2 = d then x else start 2) = _
    simp only [eq_comm (a := 2) (b := e)]
  have h2 : Data start p 1 7 (Modes.ctr (k := 64) (Spec.Kuz.enc (join64 (z 0) ++ join64 (z 1))) iv
      [join64 (if e = 2 then y else z 2)]) := by
    rw [← hc']
    exact .ctr (a := 0) (k := 0) (t₀ := 2) rfl (.own (cells := [2]) (t₀ := 1) rfl) hk'
  have ha : asked p = [(.value 0, 5), (.value 0, 7)] := rfl
  rw [ha] at hr
  obtain ⟨R, hR⟩ : ∃ R, run m p {} (fun _ => none, start) = R := ⟨_, rfl⟩
  rw [hR] at hr
  obtain ⟨c₁, R₁, ⟨a, ea, qa⟩, hr₁, rfl⟩ := List.forall₂_cons_right_iff.1 hr
  obtain ⟨c₂, R₂, ⟨b, eb, qb⟩, hr₂, rfl⟩ := List.forall₂_cons_right_iff.1 hr₁
  cases List.forall₂_nil_right_iff.1 hr₂
  obtain ⟨v, rfl, hv⟩ := answers_value qa (s := 1) (j := 0) rfl h1
  obtain ⟨v', rfl, hv'⟩ := answers_value qb (s := 1) (j := 0) rfl h2
  subst ea
  subst eb
  refine ⟨v, v', hR, ?_, ?_⟩
  · have := (Option.some.inj hv).symm
    simpa [counter] using this
  · have := (Option.some.inj hv').symm
    simpa [counter] using this

/-- The key is changed before the first call and the data after it. -/
example (x y : V) := C130_two_answers .x86 rfl (fun _ => (1, 2)) 7 0 2 x y _ rfl

/-- C130. An authentication code that is asked for again is that of the data as they are then, with the key as it was when it
was used for the first time. -/
theorem C130_two_codes (m : Machine) (hm : m.unalignedLoad = true) (start : Cells) (d : Nat) (x : V) (K : BitVec 256)
    (hK : K = join64 (start 0) ++ join64 (start 1)) :
    ∃ v v', run m (twoCodes d x) {} (fun _ => none, start) = [.ok (.block v), .ok (.block v')] ∧
      join64 v = omac (Spec.Kuz.enc K) (macK1 (Spec.Kuz.enc K) 0x87) [join64 (start 2)] (join64 (start 3)) ∧
      join64 v' = omac (Spec.Kuz.enc K) (macK1 (Spec.Kuz.enc K) 0x87) [join64 (if d = 2 then x else start 2)]
        (join64 (if d = 3 then x else start 3)) := by
  subst hK
  have hr := C130_answers m hm start (twoCodes d x) rfl
  have hu : ∀ s, s < 2 → ¬ Uses (twoCodes d x) s 0 := by
    intro s hs
    match s, hs with
    | 0, _ | 1, _ => exact not_uses (p := twoCodes d x) rfl (by simp)
  have hc₂ : ∀ i, contents start (twoCodes d x) i 2 = join64 (start i) := fun _ => rfl
  have hk : KeyAt start (twoCodes d x) 0 2 (join64 (start 0) ++ join64 (start 1)) :=
    ⟨0, 1, 2, rfl, ⟨Nat.le_refl _, hu, .inl rfl⟩, by rw [hc₂, hc₂]⟩
  have hk' : KeyAt start (twoCodes d x) 0 4 (join64 (start 0) ++ join64 (start 1)) :=
    C130_keys_keep start _ 0 2 4 _ hk (.inr ⟨0, 0, rfl, .inl rfl⟩) (by omega)
  have h1 : Data start (twoCodes d x) 0 2 ([join64 (start 2)] ++ [join64 (start 3)]) := by
    rw [← hc₂ 2, ← hc₂ 3]
    exact .own (cells := [2, 3]) (t₀ := 1) rfl
  have hc : ∀ i, contents start (twoCodes d x) i 4 = join64 (if d = i then x else start i) := fun i => by
    show join64 (if i = d then x else start i) = _
    simp only [eq_comm (a := i) (b := d)]
  have h2 : Data start (twoCodes d x) 0 4 ([join64 (if d = 2 then x else start 2)] ++ [join64 (if d = 3 then x else start 3)]) := by
    rw [← hc 2, ← hc 3]
    exact .own (cells := [2, 3]) (t₀ := 1) rfl
  have hl : LastSize (twoCodes d x) 0 16 := .own (cells := [2, 3]) (t := 1) rfl
  have ha : asked (twoCodes d x) = [(.mac 0 0, 2), (.mac 0 0, 4)] := rfl
  rw [ha] at hr
  obtain ⟨R, hR⟩ : ∃ R, run m (twoCodes d x) {} (fun _ => none, start) = R := ⟨_, rfl⟩
  rw [hR] at hr
  obtain ⟨c₁, R₁, ⟨a, ea, qa⟩, hr₁, rfl⟩ := List.forall₂_cons_right_iff.1 hr
  obtain ⟨c₂, R₂, ⟨b, eb, qb⟩, hr₂, rfl⟩ := List.forall₂_cons_right_iff.1 hr₁
  cases List.forall₂_nil_right_iff.1 hr₂
  obtain ⟨v, rfl, hv⟩ := answers_mac qa h1 hl hk
  obtain ⟨v', rfl, hv'⟩ := answers_mac qb h2 hl hk'
  subst ea
  subst eb
  rw [if_pos rfl] at hv hv'
  exact ⟨v, v', hR, hv, hv'⟩

/-- The last block is changed. -/
example (x : V) := C130_two_codes .x86 rfl (fun _ => (1, 2)) 3 x _ rfl

end Goost.Props
