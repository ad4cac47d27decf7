import Verif.Spec.Reenter
import Verif.Lemmas.Reenter
import Verif.Lemmas.LiveAsk
/-
Helper lemmas: keys of the 64-bit cipher that are used again while they are being asked for.
-/
namespace Goost.Reenter
open Goost.Magma (CachedData)
open Spec
variable {W S : Type} {E : Exn → Prop} {D : Prop} {val : Nat → W32}

/-- A call with the expected outcome that keeps `P`. -/
def RightOn {α : Type} (P : S → Prop) (E : Exn → Prop) (D : Prop) (x : Io S α) (ref : Exec α) : Prop :=
  ∀ s, P s → Agrees E D (x s).1 ref ∧ P (x s).2

theorem RightOn.lift {α : Type} {P : S → Prop} (r : Exec α) : RightOn P E D (Io.lift r) r := fun _ h => ⟨.inl rfl, h⟩

theorem RightOn.bind {α β : Type} {P : S → Prop} {x : Io S α} {ref : Exec α} {f : α → Io S β} {g : α → Exec β}
    (h : RightOn P E D x ref) (hf : ∀ a, RightOn P E D (f a) (g a)) : RightOn P E D (x >>= f) (ref >>= g) := by
  intro s hs
  obtain ⟨h1, h2⟩ := h s hs
  rcases hx : x s with ⟨r, s'⟩
  rw [hx] at h1 h2
  simp only at h1 h2
  cases r with
  | ok a =>
    rw [KuzToken.bind_ok hx]
    rcases h1 with h1 | h1 | ⟨e, -, h1⟩
    · subst h1; exact hf a s' h2
    · cases h1.2
    · cases h1
  | throw e =>
    rw [bind_run_throw hx]
    refine ⟨?_, h2⟩
    rcases h1 with h1 | h1 | ⟨e', he, h1⟩
    · subst h1; exact .inl rfl
    · cases h1.2
    · cases h1; exact .inr (.inr ⟨_, he, rfl⟩)
  | ub u =>
    rw [bind_run_ub hx]
    refine ⟨?_, h2⟩
    rcases h1 with h1 | h1 | ⟨e', he, h1⟩
    · subst h1; exact .inl rfl
    · cases h1.2
    · cases h1
  | diverge =>
    rw [KuzToken.bind_diverge hx]
    refine ⟨?_, h2⟩
    rcases h1 with h1 | h1 | ⟨e', he, h1⟩
    · subst h1; exact .inl rfl
    · exact .inr (.inl ⟨h1.1, rfl⟩)
    · cases h1

/-- The cache holds the right words, if it says that it holds any, and at the places `G` in any case. -/
def Words (val : Nat → W32) (G : Nat → Prop) (s : CachedData × W) : Prop :=
  s.1.key.length = 8 ∧ (s.1.cached = true → ∀ j < 8, s.1.key[j]? = some (val j)) ∧ ∀ j < 8, G j → s.1.key[j]? = some (val j)

theorem Words.mono {G G' : Nat → Prop} {s : CachedData × W} (h : Words val G s) (hg : ∀ j < 8, G' j → G j) : Words val G' s :=
  ⟨h.1, h.2.1, fun j hj g => h.2.2 j hj (hg j hj g)⟩

theorem Words.set {G : Nat → Prop} {s : CachedData × W} (h : Words val G s) {i : Nat} (hi : i < 8) :
    Words val (fun j => G j ∨ j = i) ({ s.1 with key := s.1.key.set i (val i) }, s.2) := by
  obtain ⟨h1, h2, h3⟩ := h
  have e : ∀ j, (s.1.key.set i (val i))[j]? = if i = j then some (val i) else s.1.key[j]? := by
    intro j
    rw [List.getElem?_set]
    split
    · next h => subst h; simp [h1, hi]
    · rfl
  refine ⟨by simpa using h1, fun hc j hj => ?_, fun j hj g => ?_⟩
  · rw [e]; split
    · next h => rw [h]
    · exact h2 hc j hj
  · rw [e]; split
    · next h => rw [h]
    · next h => exact h3 j hj (g.resolve_right fun x => h x.symm)

theorem fill_ok {keydata : Int → Io (CachedData × W) W32} {n i : Nat} {s s' : CachedData × W} {k : W32}
    (h : keydata i s = (.ok k, s')) : Live.KeyCachedData.fill (·.1) (fun c s => (c, s.2)) keydata (n + 1) i s =
      Live.KeyCachedData.fill (·.1) (fun c s => (c, s.2)) keydata n (i + 1) ({ s'.1 with key := s'.1.key.set i k }, s'.2) := by
  simp only [Live.KeyCachedData.fill]
  rw [KuzToken.bind_ok h]
  rfl

theorem key_cached (keydata : Int → Io (CachedData × W) W32) (index : Int) {s : CachedData × W} (h : s.1.cached = true) :
    Live.KeyCachedData (·.1) (fun c s => (c, s.2)) keydata index s = (vgetI s.1.key index, s) := by
  unfold Live.KeyCachedData
  simp only [h, if_true]
  rfl

theorem key_fresh (keydata : Int → Io (CachedData × W) W32) (index : Int) {s : CachedData × W} (h : s.1.cached = false) :
    Live.KeyCachedData (·.1) (fun c s => (c, s.2)) keydata index s =
      match Live.KeyCachedData.fill (·.1) (fun c s => (c, s.2)) keydata s.1.key.length 0 s with
      | (.ok _, s') => (vgetI s'.1.key index, ({ s'.1 with cached := true }, s'.2))
      | (.throw e, s') => (.throw e, s')
      | (.ub u, s') => (.ub u, s')
      | (.diverge, s') => (.diverge, s') := by
  unfold Live.KeyCachedData
  simp only [h, Bool.false_eq_true, if_false]
  show Io.bind (Live.KeyCachedData.fill _ _ _ _ _) _ s = _
  unfold Io.bind
  rcases hx : Live.KeyCachedData.fill (·.1) (fun c s => (c, s.2)) keydata s.1.key.length 0 s with ⟨r, s'⟩
  cases r <;> simp only [hx] <;> rfl

/-- What a call does to the cache. -/
def Fills (E : Exn → Prop) (val : Nat → W32) (v : W32) (x : Io (CachedData × W) W32) : Prop :=
  ∀ G, RightOn (Words val G) E True x (.ok v)

theorem fill_right {keydata : Int → Io (CachedData × W) W32} (h : ∀ i : Nat, i < 8 → Fills E val (val i) (keydata i)) (n i : Nat)
    (hn : i + n = 8) (G : Nat → Prop) (s : CachedData × W) (hs : Words val G s) :
    Agrees E True (Live.KeyCachedData.fill (·.1) (fun c s => (c, s.2)) keydata n i s).1 (.ok ()) ∧
      Words val G (Live.KeyCachedData.fill (·.1) (fun c s => (c, s.2)) keydata n i s).2 ∧
      ((Live.KeyCachedData.fill (·.1) (fun c s => (c, s.2)) keydata n i s).1 = .ok () →
        Words val (fun j => G j ∨ i ≤ j) (Live.KeyCachedData.fill (·.1) (fun c s => (c, s.2)) keydata n i s).2) := by
  induction n generalizing i G s with
  | zero =>
    refine ⟨.inl rfl, hs, fun _ => hs.mono fun j hj g => g.resolve_right (by omega)⟩
  | succ n ih =>
    obtain ⟨h1, h2⟩ := h i (by omega) G s hs
    rcases hx : keydata i s with ⟨r, s'⟩
    rw [hx] at h1 h2
    simp only at h1 h2
    cases r with
    | ok k =>
      have hk : k = val i := by
        rcases h1 with h1 | h1 | ⟨e, -, h1⟩
        · exact Exec.ok.inj h1
        · cases h1.2
        · cases h1
      subst hk
      rw [fill_ok hx]
      have hw := h2.set (show i < 8 by omega)
      obtain ⟨k1, k2, k3⟩ := ih (i + 1) (by omega) _ _ hw
      refine ⟨k1, k2.mono fun _ _ => .inl, fun e => (k3 e).mono fun j hj g => ?_⟩
      rcases g with g | g
      · exact .inl (.inl g)
      · by_cases hji : j = i
        · exact .inl (.inr hji)
        · exact .inr (by omega)
    | throw e =>
      simp only [Live.KeyCachedData.fill]
      rw [bind_run_throw hx]
      refine ⟨?_, h2, fun e => by cases e⟩
      rcases h1 with h1 | h1 | ⟨e', he, h1⟩
      · cases h1
      · cases h1.2
      · exact .inr (.inr ⟨e', he, by cases h1; rfl⟩)
    | ub u =>
      rcases h1 with h1 | h1 | ⟨e', he, h1⟩
      · cases h1
      · cases h1.2
      · cases h1
    | diverge =>
      simp only [Live.KeyCachedData.fill]
      rw [KuzToken.bind_diverge hx]
      exact ⟨.inr (.inl ⟨trivial, rfl⟩), h2, fun e => by cases e⟩

theorem Words.get {G : Nat → Prop} {s : CachedData × W} (h : Words val G s) (hc : s.1.cached = true) {i : Nat} (hi : i < 8) :
    vgetI s.1.key (i : Int) = .ok (val i) := by
  simp only [vgetI, Int.not_ofNat_neg, if_false, Int.toNat_natCast, vget, h.2.1 hc i hi]

theorem cached_right {keydata : Int → Io (CachedData × W) W32} (h : ∀ i : Nat, i < 8 → Fills E val (val i) (keydata i)) (i : Nat)
    (hi : i < 8) : Fills E val (val i) (Live.KeyCachedData (·.1) (fun c s => (c, s.2)) keydata i) := by
  intro G s hs
  cases hc : s.1.cached with
  | true =>
    rw [key_cached _ _ hc]
    exact ⟨.inl (hs.get hc hi), hs⟩
  | false =>
    rw [key_fresh _ _ hc, hs.1]
    obtain ⟨k1, k2, k3⟩ := fill_right h 8 0 rfl G s hs
    rcases hx : Live.KeyCachedData.fill (·.1) (fun c s => (c, s.2)) keydata 8 0 s with ⟨r, s'⟩
    rw [hx] at k1 k2 k3
    simp only [hx] at k1 k2 k3 ⊢
    cases r with
    | ok u =>
      have hw := k3 rfl
      have hw' : Words val G ({ s'.1 with cached := true }, s'.2) :=
        ⟨hw.1, fun _ j hj => hw.2.2 j hj (.inr (Nat.zero_le _)), k2.2.2⟩
      exact ⟨.inl (hw'.get rfl hi), hw'⟩
    | throw e =>
      refine ⟨?_, k2⟩
      rcases k1 with h1 | h1 | ⟨e', he, h1⟩
      · cases h1
      · cases h1.2
      · exact .inr (.inr ⟨e', he, by cases h1; rfl⟩)
    | ub u =>
      rcases k1 with h1 | h1 | ⟨e', he, h1⟩
      · cases h1
      · cases h1.2
      · cases h1
    | diverge => exact ⟨.inr (.inl ⟨trivial, rfl⟩), k2⟩

theorem run_right {lib : Int → Io (CachedData × W) W32} (hl : ∀ i : Nat, i < 8 → Fills E val (val i) (lib i)) {v : W32}
    (p : Code W Int W32 W32) (hp : Answers E (fun i => 0 ≤ i ∧ i < 8) v p) : Fills E val v (p.run lib) := by
  intro G
  induction p with
  | done r =>
    intro s hs
    refine ⟨?_, hs⟩
    rcases hp with h | h
    · exact .inl h
    · exact .inr (.inr h)
  | world act next ih => exact fun s hs => ih s.2 (hp s.2) (s.1, act s.2) hs
  | call q next ih =>
    obtain ⟨⟨h0, h8⟩, hn⟩ := hp
    obtain ⟨i, rfl⟩ := Int.eq_ofNat_of_zero_le h0
    intro s hs
    obtain ⟨h1, h2⟩ := hl i (by omega) G s hs
    simp only [Code.run]
    rcases hx : lib i s with ⟨r, s'⟩
    rw [hx] at h1 h2
    cases r with
    | ok a => exact ih _ (hn _) s' h2
    | throw e => exact ih _ (hn _) s' h2
    | ub u =>
      rcases h1 with h1 | h1 | ⟨e, -, h1⟩
      · cases h1
      · cases h1.2
      · cases h1
    | diverge => exact ⟨.inr (.inl ⟨trivial, rfl⟩), h2⟩

theorem cachedKey_right {env : Int → Code W Int W32 W32}
    (he : ∀ i : Nat, i < 8 → Answers E (fun i => 0 ≤ i ∧ i < 8) (val i) (env i)) (depth i : Nat) (hi : i < 8) :
    Fills E val (val i) (cachedKey env depth i) := by
  induction depth generalizing i with
  | zero => exact fun G s hs => ⟨.inr (.inl ⟨trivial, rfl⟩), hs⟩
  | succ d ih => exact cached_right (fun i hi => run_right ih _ (he i hi)) i hi

/-! ### Encryption -/

/-- The key object over the cache. -/
def lazyKey (env : Int → Code W Int W32 W32) (sub : W32 → W32) (depth : Nat) : Live.Key (CachedData × W) :=
  Live.LazyKey (cachedKey env depth) fun x => Io.lift (.ok (sub x))

theorem callKey_right {env : Int → Code W Int W32 W32} {sub : W32 → W32} {P : CachedData × W → Prop} {depth : Nat}
    (h : ∀ i : Nat, i < 8 → RightOn P E D (cachedKey env depth i) (.ok (val i))) (v : W32) (i : Fin 8) :
    RightOn P E D (Live.callKey (some (lazyKey env sub depth)) v (i.val : Int)) (.ok (sub (val i + v))) :=
  (h i i.isLt).bind fun _ => RightOn.lift _

theorem rounds_right {P : CachedData × W → Prop} {key : Live.Key (CachedData × W)} {f : Fin 8 → W32 → W32}
    (h : ∀ v (i : Fin 8), RightOn P E D (Live.callKey (some key) v (i.val : Int)) (.ok (f i v))) (v : W32 × W32) :
    RightOn P E D (Live.forwardRounds (some key) v) (Magma.forwardRounds (some (plainKey f)) v) ∧
    RightOn P E D (Live.backwardRounds (some key) v) (Magma.backwardRounds (some (plainKey f)) v) := by
  constructor
  · exact (h _ 0).bind fun _ => (h _ 1).bind fun _ => (h _ 2).bind fun _ => (h _ 3).bind fun _ => (h _ 4).bind fun _ =>
      (h _ 5).bind fun _ => (h _ 6).bind fun _ => (h _ 7).bind fun _ => RightOn.lift _
  · exact (h _ 7).bind fun _ => (h _ 6).bind fun _ => (h _ 5).bind fun _ => (h _ 4).bind fun _ => (h _ 3).bind fun _ =>
      (h _ 2).bind fun _ => (h _ 1).bind fun _ => (h _ 0).bind fun _ => RightOn.lift _

theorem encrypted_right {P : CachedData × W → Prop} {key : Live.Key (CachedData × W)} {f : Fin 8 → W32 → W32}
    (h : ∀ v (i : Fin 8), RightOn P E D (Live.callKey (some key) v (i.val : Int)) (.ok (f i v))) (m : Machine) (v : W32 × W32) :
    RightOn P E D ((Live.BlkEncrypted (.raw v.1 v.2) (some key)).value m)
      ((Magma.BlkEncrypted (.raw v.1 v.2) (some (plainKey f))).value m) ∧
    RightOn P E D ((Live.BlkDecrypted (.raw v.1 v.2) (some key)).value m)
      ((Magma.BlkDecrypted (.raw v.1 v.2) (some (plainKey f))).value m) := by
  have r := rounds_right h
  constructor
  · exact (((((RightOn.lift _).bind fun v => (r v).1).bind fun v => (r v).1).bind fun v => (r v).1).bind fun v => (r v).2).bind
      fun _ => RightOn.lift _
  · exact (((((RightOn.lift _).bind fun v => (r v).1).bind fun v => (r v).2).bind fun v => (r v).2).bind fun v => (r v).2).bind
      fun _ => RightOn.lift _

/-! ### Two answers -/

theorem fill_add (keydata : Int → Io (CachedData × W) W32) (n k i : Nat) {s s' : CachedData × W}
    (h : Live.KeyCachedData.fill (·.1) (fun c s => (c, s.2)) keydata n i s = (.ok (), s')) :
    Live.KeyCachedData.fill (·.1) (fun c s => (c, s.2)) keydata (n + k) i s =
      Live.KeyCachedData.fill (·.1) (fun c s => (c, s.2)) keydata k (i + n) s' := by
  induction n generalizing i s with
  | zero => cases h; simp
  | succ n ih =>
    rw [show n + 1 + k = n + k + 1 by omega]
    rcases hx : keydata i s with ⟨r, t⟩
    cases r with
    | ok v =>
      rw [fill_ok hx] at h ⊢
      rw [ih _ h, show i + 1 + n = i + (n + 1) by omega]
    | throw e => simp only [Live.KeyCachedData.fill] at h; rw [bind_run_throw hx] at h; cases h
    | ub e => simp only [Live.KeyCachedData.fill] at h; rw [bind_run_ub hx] at h; cases h
    | diverge => simp only [Live.KeyCachedData.fill] at h; rw [KuzToken.bind_diverge hx] at h; cases h

theorem fill_const {keydata : Int → Io (CachedData × W) W32} {b : Nat → W32} {w : W} (n i : Nat)
    (h : ∀ (j : Nat) c, i ≤ j → j < i + n → keydata j (c, w) = (.ok (b j), (c, w))) (c : CachedData) :
    ∃ key, Live.KeyCachedData.fill (·.1) (fun c s => (c, s.2)) keydata n i (c, w) = (.ok (), (⟨c.cached, key⟩, w)) ∧
      key.length = c.key.length ∧
      ∀ j < c.key.length, key[j]? = if i ≤ j ∧ j < i + n then some (b j) else c.key[j]? := by
  induction n generalizing i c with
  | zero => exact ⟨c.key, rfl, rfl, fun j _ => by rw [if_neg (by omega)]⟩
  | succ n ih =>
    rw [fill_ok (h i c (by omega) (by omega))]
    obtain ⟨key, h1, h2, h3⟩ := ih (i + 1) (fun j c h1 h2 => h j c (by omega) (by omega)) ⟨c.cached, c.key.set i (b i)⟩
    refine ⟨key, h1, by simpa using h2, fun j hj => ?_⟩
    rw [h3 j (by simpa using hj)]
    by_cases hji : j = i
    · subst hji
      rw [if_neg (by omega), if_pos (by omega)]
      simp [hj]
    · rw [List.getElem?_set_ne (fun x => hji x.symm)]
      by_cases hr : i ≤ j ∧ j < i + (n + 1)
      · rw [if_pos hr, if_pos (by omega)]
      · rw [if_neg hr, if_neg (by omega)]

theorem dialogWords_one {lib : Int → Io (CachedData × Nat) W32} (p : Nat) (a b : Nat → W32) (j : Nat) (c : CachedData) :
    (dialogWords p a b j).run lib (c, 1) = (.ok (b j), (c, 1)) := by
  simp [dialogWords, Code.run, Io.lift]

theorem dialogWords_two {lib : Int → Io (CachedData × Nat) W32} (p : Nat) (a b : Nat → W32) (j : Nat) (c : CachedData) :
    (dialogWords p a b j).run lib (c, 2) = (.ok (a j), (c, 2)) := by
  simp [dialogWords, Code.run, Io.lift]

theorem dialogWords_zero {lib : Int → Io (CachedData × Nat) W32} (p : Nat) (a b : Nat → W32) (j : Nat) (hj : j ≠ p) (c : CachedData) :
    (dialogWords p a b j).run lib (c, 0) = (.ok (a j), (c, 0)) := by
  have : ¬ ((j : Int) = p) := by omega
  simp [dialogWords, Code.run, Io.lift, this]

theorem dialogWords_nested {lib : Int → Io (CachedData × Nat) W32} (p : Nat) (a b : Nat → W32) (c c' : CachedData) (v : W32)
    (h : lib 0 (c, 1) = (.ok v, (c', 1))) : (dialogWords p a b p).run lib (c, 0) = (.ok (a p), (c', 2)) := by
  simp [dialogWords, Code.run, Io.lift, h]

/-- The words after an interrupted use. -/
theorem dialogWords_mixed (p : Nat) (hp : p < 8) (a b : Nat → W32) (d q : Nat) (hq : q < 8) :
    ∃ key : List W32, key.length = 8 ∧ (∀ j < 8, key[j]? = some (if j < p then b j else a j)) ∧
      cachedKey (dialogWords p a b) (d + 2) q ({}, 0) = (.ok (if q < p then b q else a q), (⟨true, key⟩, 2)) := by
  -- the nested use
  have nested : ∀ c : CachedData, c.cached = false → c.key.length = 8 → ∃ key : List W32, key.length = 8 ∧
      (∀ j < 8, key[j]? = some (b j)) ∧ cachedKey (dialogWords p a b) (d + 1) 0 (c, 1) = (.ok (b 0), (⟨true, key⟩, 1)) := by
    intro c h0 h8
    obtain ⟨key, h1, h2, h3⟩ := fill_const (keydata := fun i => (dialogWords p a b i).run (cachedKey (dialogWords p a b) d))
      (b := b) (w := 1) 8 0 (fun j c _ _ => dialogWords_one p a b j c) c
    have hk : ∀ j < 8, key[j]? = some (b j) := fun j hj => by rw [h3 j (by omega), if_pos (by omega)]
    refine ⟨key, h2.trans h8, hk, ?_⟩
    unfold cachedKey
    rw [key_fresh _ _ h0]
    simp only [h8, h1]
    have : vgetI key 0 = .ok (b 0) := by simp only [vgetI, vget]; rw [if_neg (by omega)]; simp [hk 0 (by omega)]
    rw [this]
  obtain ⟨k1, h1, h2, h3⟩ := fill_const (keydata := fun i => (dialogWords p a b i).run (cachedKey (dialogWords p a b) (d + 1)))
    (b := a) (w := 0) p 0 (fun j c _ h => dialogWords_zero p a b j (by omega) c) {}
  obtain ⟨k2, g1, g2, g3⟩ := nested ⟨false, k1⟩ rfl (by simpa using h2)
  have e1 := dialogWords_nested (lib := cachedKey (dialogWords p a b) (d + 1)) p a b ⟨false, k1⟩ ⟨true, k2⟩ (b 0) g3
  obtain ⟨k3, f1, f2, f3⟩ := fill_const (keydata := fun i => (dialogWords p a b i).run (cachedKey (dialogWords p a b) (d + 1)))
    (b := a) (w := 2) (7 - p) (p + 1) (fun j c _ _ => dialogWords_two p a b j c) ⟨true, k2.set p (a p)⟩
  have hk : ∀ j < 8, k3[j]? = some (if j < p then b j else a j) := by
    intro j hj
    rw [f3 j (by simp [g1, hj])]
    by_cases h : p + 1 ≤ j
    · rw [if_pos (by omega), if_neg (by omega)]
    · rw [if_neg (by omega)]
      by_cases hjp : j = p
      · subst hjp; simp [g1, hp]
      · rw [List.getElem?_set_ne (fun x => hjp x.symm), g2 j hj, if_pos (by omega)]
  refine ⟨k3, by rw [f2]; simp [g1], hk, ?_⟩
  have efill : Live.KeyCachedData.fill (·.1) (fun c s => (c, s.2))
      (fun i => (dialogWords p a b i).run (cachedKey (dialogWords p a b) (d + 1))) 8 0 ({}, 0) = (.ok (), (⟨true, k3⟩, 2)) := by
    have := fill_add _ p (7 - p + 1) 0 h1
    rw [show p + (7 - p + 1) = 8 by omega, Nat.zero_add] at this
    exact this.trans ((fill_ok e1).trans f1)
  have : vgetI k3 (q : Int) = .ok (if q < p then b q else a q) := by
    simp only [vgetI, vget, Int.toNat_natCast]; rw [if_neg (by omega)]; simp [hk q hq]
  have e := key_fresh (fun i => (dialogWords p a b i).run (cachedKey (dialogWords p a b) (d + 1))) (q : Int)
    (s := (({} : CachedData), 0)) rfl
  refine Eq.trans e ?_
  have l : (({} : CachedData), 0).1.key.length = 8 := rfl
  rw [l, efill]
  simp only [this]

/-! ### Uses of the key -/

theorem cipherCall_right {env : Int → Code W Int W32 W32} {P : CachedData × W → Prop} {q : Nat × Bool × W32 × W32}
    (h : ∀ i : Nat, i < 8 → RightOn P E D (cachedKey env q.1 i) (.ok (val i))) (m : Machine) (sub : W32 → W32) :
    RightOn P E D (cipherCall m env sub q) (if q.2.1
      then (Magma.BlkEncrypted (.raw q.2.2.1 q.2.2.2) (some (plainKey fun i x => sub (val i + x)))).value m
      else (Magma.BlkDecrypted (.raw q.2.2.1 q.2.2.2) (some (plainKey fun i x => sub (val i + x)))).value m) := by
  obtain ⟨h1, h2⟩ := encrypted_right (f := fun i x => sub (val i + x)) (fun v i => callKey_right (sub := sub) h v i) m q.2.2
  unfold cipherCall
  split
  · exact h1
  · exact h2

theorem cipher_value (m : Machine) (sub : W32 → W32) (val : Nat → W32) (q : Nat × Bool × W32 × W32) :
    ∃ r, (if q.2.1 then (Magma.BlkEncrypted (.raw q.2.2.1 q.2.2.2) (some (plainKey fun i x => sub (val i + x)))).value m
      else (Magma.BlkDecrypted (.raw q.2.2.1 q.2.2.2) (some (plainKey fun i x => sub (val i + x)))).value m) = .ok r ∧
      join32 r = cipherValue sub val q := by
  unfold cipherValue
  split
  · exact ⟨_, Magma.BlkEncrypted_value (plainKey_computes _) m rfl, Magma.join32_encP _ _⟩
  · exact ⟨_, Magma.BlkDecrypted_value (plainKey_computes _) m rfl, Magma.join32_decP _ _⟩

theorem cachedKey_hit {env : Int → Code W Int W32 W32} {d i : Nat} {s : CachedData × W} {v : W32} (hc : s.1.cached = true)
    (h : s.1.key[i]? = some v) : cachedKey env (d + 1) i s = (.ok v, s) := by
  refine Eq.trans (key_cached _ _ hc) ?_
  simp only [vgetI, Int.not_ofNat_neg, if_false, Int.toNat_natCast, vget, h]

theorem cipherCall_settled {env : Int → Code W Int W32 W32} (m : Machine) (sub : W32 → W32) (q : Nat × Bool × W32 × W32)
    {c : CachedData} {val : Nat → W32} {d : Nat} (hc : c.cached = true) (hk : ∀ j < 8, c.key[j]? = some (val j)) (hd : q.1 = d + 1) (w : W) :
    ∃ r, cipherCall m env sub q (c, w) = (.ok r, (c, w)) ∧ join32 r = cipherValue sub val q := by
  obtain ⟨h1, h2⟩ := cipherCall_right (E := fun _ => False) (D := False) (val := val) (P := fun s => s = (c, w)) (env := env) (q := q)
    (fun i hi s hs => by
      subst hs
      rw [hd, cachedKey_hit hc (hk i hi)]
      exact ⟨.inl rfl, rfl⟩) m sub (c, w) rfl
  obtain ⟨r, e1, e2⟩ := cipher_value m sub val q
  rw [e1] at h1
  refine ⟨r, Prod.ext ?_ h2, e2⟩
  rcases h1 with h1 | h1 | ⟨e, h1, -⟩
  · exact h1
  · exact h1.1.elim
  · exact h1.elim

/-! ### The length of the vector -/

def Sized {α : Type} (x : Io (CachedData × W) α) : Prop := ∀ s, s.1.key.length = 8 → (x s).2.1.key.length = 8

theorem fill_sized {keydata : Int → Io (CachedData × W) W32} (h : ∀ i, Sized (keydata i)) (n i : Nat) :
    Sized (Live.KeyCachedData.fill (·.1) (fun c s => (c, s.2)) keydata n i) := by
  induction n generalizing i with
  | zero => exact fun s hs => hs
  | succ n ih =>
    intro s hs
    have h1 := h i s hs
    rcases e : keydata i s with ⟨r, s'⟩
    rw [e] at h1
    cases r with
    | ok k =>
      rw [fill_ok e]
      exact ih _ _ (by simpa using h1)
    | throw _ => simp only [Live.KeyCachedData.fill]; rw [bind_run_throw e]; exact h1
    | ub _ => simp only [Live.KeyCachedData.fill]; rw [bind_run_ub e]; exact h1
    | diverge => simp only [Live.KeyCachedData.fill]; rw [KuzToken.bind_diverge e]; exact h1

theorem run_sized {lib : Int → Io (CachedData × W) W32} (h : ∀ i, Sized (lib i)) (p : Code W Int W32 W32) : Sized (p.run lib) := by
  induction p with
  | done r => exact fun s hs => hs
  | world act next ih => exact fun s hs => ih s.2 (s.1, act s.2) hs
  | call q next ih =>
    intro s hs
    have h1 := h q s hs
    simp only [Code.run]
    rcases e : lib q s with ⟨r, s'⟩
    rw [e] at h1
    cases r with
    | ok a => exact ih _ s' h1
    | throw _ => exact ih _ s' h1
    | ub _ => exact h1
    | diverge => exact h1

theorem cachedKey_sized (env : Int → Code W Int W32 W32) (depth : Nat) (i : Int) : Sized (cachedKey env depth i) := by
  induction depth generalizing i with
  | zero => exact fun s hs => hs
  | succ d ih =>
    intro s hs
    show (Live.KeyCachedData _ _ _ i s).2.1.key.length = 8
    cases hc : s.1.cached with
    | true => rw [key_cached _ _ hc]; exact hs
    | false =>
      have h1 := fill_sized (fun i => run_sized ih (env i)) s.1.key.length 0 s hs
      rcases e : Live.KeyCachedData.fill (·.1) (fun c s => (c, s.2)) (fun i => (env i).run (cachedKey env d)) s.1.key.length 0 s with ⟨r, s'⟩
      rw [e] at h1
      rw [key_fresh _ _ hc, e]
      cases r <;> exact h1

theorem vgetI_ok {key : List W32} {i : Int} {v : W32} (h : vgetI key i = .ok v) : 0 ≤ i ∧ i < key.length ∧ key[i.toNat]? = some v := by
  unfold vgetI at h
  split at h
  · cases h
  · rename_i hi
    unfold vget at h
    cases hk : key[i.toNat]? with
    | none => rw [hk] at h; cases h
    | some x =>
      rw [hk] at h
      cases h
      have := (List.getElem?_eq_some_iff.mp hk).1
      exact ⟨by omega, by omega, rfl⟩

theorem cachedKey_settles {env : Int → Code W Int W32 W32} {depth : Nat} {i : Int} {v : W32} {s s' : CachedData × W}
    (h : cachedKey env depth i s = (.ok v, s')) (hs : s.1.key.length = 8) :
    s'.1.cached = true ∧ s'.1.key.length = 8 ∧ vgetI s'.1.key i = .ok v := by
  have hl := cachedKey_sized env depth i s hs
  rw [h] at hl
  cases depth with
  | zero => cases h
  | succ d =>
    have h : Live.KeyCachedData (·.1) (fun c s => (c, s.2)) (fun i => (env i).run (cachedKey env d)) i s = (.ok v, s') := h
    cases hc : s.1.cached with
    | true => 
      rw [key_cached _ _ hc] at h
      obtain ⟨h1, rfl⟩ := Prod.ext_iff.mp h
      exact ⟨hc, hl, h1⟩
    | false =>
      rw [key_fresh _ _ hc] at h
      rcases e : Live.KeyCachedData.fill (·.1) (fun c s => (c, s.2)) (fun i => (env i).run (cachedKey env d)) s.1.key.length 0 s with ⟨r, t⟩
      rw [e] at h
      cases r with
      | ok _ =>
        simp only at h
        obtain ⟨h1, rfl⟩ := Prod.ext_iff.mp h
        exact ⟨rfl, hl, h1⟩
      | throw _ => cases h
      | ub _ => cases h
      | diverge => cases h

end Goost.Reenter
