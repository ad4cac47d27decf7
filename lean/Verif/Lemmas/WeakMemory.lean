import Verif.Spec.WeakMemory
import Verif.Lemmas.KuzConc
import Verif.Lemmas.MagmaConc
import Verif.Lemmas.KuzToken
import Verif.Lemmas.Keys
/-
Threads on a machine with store buffers.
-/
namespace Goost.Conc
open Spec Buffered
variable {Loc Val α β : Type} [DecidableEq Loc]

/-! ### Stores in order -/

section
variable {D : Discipline Loc Val}

/-- Final values are kept. -/
def Later (D : Discipline Loc Val) (mem mem' : Loc → Val) : Prop :=
  ∀ l, D.final l = some (mem l) → D.final l = some (mem' l)

theorem later_put {mem : Loc → Val} {e : Loc × Val} (h : D.final e.1 = some e.2) : Later D mem (put mem e) := by
  intro l hl
  unfold put
  split
  · next q => rw [q, h]
  · exact hl

theorem Later.put {mem mem' : Loc → Val} (h : Later D mem mem') (e : Loc × Val) :
    Later D (put mem e) (put mem' e) := by
  intro l hl
  unfold Buffered.put at hl ⊢
  split
  · next q => rwa [if_pos q] at hl
  · next q => rw [if_neg q] at hl; exact h l hl

theorem Later.seen {mem mem' : Loc → Val} (h : Later D mem mem') (es : List (Loc × Val)) :
    Later D (seen mem es) (seen mem' es) := by
  induction es generalizing mem mem' with
  | nil => exact h
  | cons e es ih => exact ih (h.put e)

/-- A buffer that can be brought to memory one store after the other. -/
def BufSafe (D : Discipline Loc Val) : (Loc → Val) → List (Loc × Val) → Prop
  | _, [] => True
  | mem, e :: es => (D.final e.1 = some e.2 ∧ ∀ l, D.guards e.1 l → D.final l = some (mem l)) ∧
      BufSafe D (put mem e) es

theorem BufSafe.later {mem mem' : Loc → Val} (hl : Later D mem mem') {es : List (Loc × Val)}
    (h : BufSafe D mem es) : BufSafe D mem' es := by
  induction es generalizing mem mem' with
  | nil => trivial
  | cons e es ih => exact ⟨⟨h.1.1, fun l hg => hl l (h.1.2 l hg)⟩, ih (hl.put e) h.2⟩

theorem BufSafe.append {mem : Loc → Val} {es : List (Loc × Val)} {e : Loc × Val} (h : BufSafe D mem es)
    (he : D.final e.1 = some e.2) (hg : ∀ l, D.guards e.1 l → D.final l = some (seen mem es l)) :
    BufSafe D mem (es ++ [e]) := by
  induction es generalizing mem with
  | nil => exact ⟨⟨he, hg⟩, trivial⟩
  | cons e' es ih => exact ⟨h.1, ih h.2 hg⟩

theorem Good.put {mem : Loc → Val} (h : Good D mem) {e : Loc × Val} (he : D.final e.1 = some e.2)
    (hg : ∀ l, D.guards e.1 l → D.final l = some (mem l)) : Good D (put mem e) := by
  refine ⟨fun l => ?_, fun l l' hgu hne => ?_⟩
  · by_cases q : l = e.1
    · right; simp only [Buffered.put, q, if_true, he]
    · simp only [Buffered.put, q, if_false]; exact h.value l
  · by_cases q : l = e.1
    · subst q; exact later_put he l' (hg l' hgu)
    · simp only [Buffered.put, q, if_false] at hne
      exact later_put he l' (h.guard l l' hgu hne)

theorem Good.seen {mem : Loc → Val} (h : Good D mem) {es : List (Loc × Val)} (hb : BufSafe D mem es) :
    Good D (seen mem es) := by
  induction es generalizing mem with
  | nil => exact h
  | cons e es ih => exact ih (h.put hb.1.1 hb.1.2) hb.2

theorem seen_append (mem : Loc → Val) (es es' : List (Loc × Val)) :
    seen mem (es ++ es') = seen (seen mem es) es' := by
  induction es generalizing mem with
  | nil => rfl
  | cons e es ih => exact ih _

/-- Everything is by the discipline, thread `t` being about to end with `post t`. -/
def BufferedSafe (D : Discipline Loc Val) (post : Nat → α → Prop) (s : Buffered Loc Val α) : Prop :=
  Good D s.mem ∧ ∀ t, BufSafe D s.mem (s.buffers t) ∧
    ∃ K, (∀ l, K l → D.final l = some (seen s.mem (s.buffers t) l)) ∧ Safe D K (s.threads t) (post t)

theorem BufferedSafe.turn {post : Nat → α → Prop} {s : Buffered Loc Val α} (h : BufferedSafe D post s) (t : Nat) :
    BufferedSafe D post (s.step (.turn t)) := by
  obtain ⟨hg, hall⟩ := h
  obtain ⟨hb, K, hK, hs⟩ := hall t
  have hv := hg.seen hb
  simp only [step]
  match hp : s.threads t with
  | .ret a => exact ⟨hg, hall⟩
  | .op (.load l) k =>
    rw [hp] at hs
    refine ⟨hg, fun u => ⟨(hall u).1, ?_⟩⟩
    by_cases hu : u = t
    · subst hu
      simp only [if_true]
      refine ⟨_, ?_, hs (seen s.mem (s.buffers u) l) ?_⟩
      · rintro l' (h' | ⟨h1, h2⟩)
        · exact hK l' h'
        · exact hv.guard l l' h2 h1
      · by_cases hkl : K l
        · exact .inr (hK l hkl)
        · rcases hv.value l with h1 | h1
          · exact .inl ⟨hkl, h1⟩
          · exact .inr h1
    · simp only [hu, if_false]
      exact (hall u).2
  | .op (.store l x) k =>
    rw [hp] at hs
    obtain ⟨hf, hgd, hs⟩ := hs
    refine ⟨hg, fun u => ?_⟩
    by_cases hu : u = t
    · subst hu
      simp only [if_true]
      refine ⟨hb.append hf fun l' h' => hK l' (hgd l' h'), _, ?_, hs⟩
      rw [seen_append]
      rintro l' (h' | rfl)
      · exact later_put (e := (l, x)) hf l' (hK l' h')
      · simp [seen, Buffered.put, hf]
    · simp only [hu, if_false]
      exact hall u

theorem BufferedSafe.leave {post : Nat → α → Prop} {s : Buffered Loc Val α} (h : BufferedSafe D post s) (t : Nat) :
    BufferedSafe D post (s.step (.leave t 0)) := by
  obtain ⟨hg, hall⟩ := h
  simp only [step]
  match hp : s.buffers t with
  | [] => exact ⟨hg, hall⟩
  | e :: es =>
    have hb := (hall t).1
    rw [hp] at hb
    simp only [List.getElem?_cons_zero, List.take_zero, List.any_nil, Bool.false_eq_true, if_false,
      List.eraseIdx_cons_zero]
    refine ⟨hg.put hb.1.1 hb.1.2, fun u => ?_⟩
    by_cases hu : u = t
    · subst hu
      simp only [if_true]
      obtain ⟨K, hK, hs⟩ := (hall u).2
      rw [hp] at hK
      exact ⟨hb.2, K, hK, hs⟩
    · simp only [hu, if_false]
      obtain ⟨hb', K, hK, hs⟩ := hall u
      exact ⟨hb'.later (later_put hb.1.1), K, fun l hl => (later_put hb.1.1).seen _ l (hK l hl), hs⟩

theorem BufferedSafe.run {post : Nat → α → Prop} {s : Buffered Loc Val α} (h : BufferedSafe D post s)
    (events : List Event) (ho : InOrder events) : BufferedSafe D post (s.run events) := by
  induction events generalizing s with
  | nil => exact h
  | cons e es ih =>
    have ho' : InOrder es := fun t i hi => ho t i (List.mem_cons_of_mem _ hi)
    cases e with
    | turn t => exact ih (h.turn t) ho'
    | leave t i =>
      have : i = 0 := ho t i List.mem_cons_self
      subst this
      exact ih (h.leave t) ho'

theorem BufferedSafe.result {post : Nat → α → Prop} {s : Buffered Loc Val α} (h : BufferedSafe D post s)
    (events : List Event) (ho : InOrder events) {t : Nat} {a : α} (hr : (s.run events).threads t = .ret a) :
    post t a := by
  obtain ⟨-, hall⟩ := h.run events ho
  obtain ⟨-, K, -, hs⟩ := hall t
  rw [hr] at hs
  exact hs

end

/-! ### A thread alone -/

/-- The stores that the program makes when it is alone. -/
def writes : MemProg Loc Val α → (Loc → Val) → List (Loc × Val)
  | .ret _, _ => []
  | .op (.load l) k, mem => writes (k (mem l)) mem
  | .op (.store l v) k, mem => (l, v) :: writes (k v) (put mem (l, v))

theorem seen_writes (p : MemProg Loc Val α) (mem : Loc → Val) : seen mem (writes p mem) = (runAlone p mem).2 := by
  induction p generalizing mem with
  | ret a => rfl
  | op o k ih =>
    cases o with
    | load l => exact ih _ mem
    | store l v => exact ih _ _

theorem run_append_events (s : Buffered Loc Val α) (a b : List Event) : s.run (a ++ b) = (s.run a).run b := by
  simp [Buffered.run]

theorem own_turns (t : Nat) (p : MemProg Loc Val β) (f : β → MemProg Loc Val α) :
    ∀ s : Buffered Loc Val α, s.threads t = p.bind f →
      ∃ n, s.run (List.replicate n (.turn t)) =
        ⟨fun u => if u = t then f (runAlone p (seen s.mem (s.buffers t))).1 else s.threads u,
          fun u => if u = t then s.buffers t ++ writes p (seen s.mem (s.buffers t)) else s.buffers u, s.mem⟩ := by
  induction p with
  | ret a =>
    intro s hs
    refine ⟨0, ?_⟩
    obtain ⟨th, bu, me⟩ := s
    simp only at hs
    simp only [List.replicate_zero, Buffered.run, List.foldl_nil, runAlone, writes, List.append_nil,
      Buffered.mk.injEq, and_true]
    refine ⟨funext fun u => ?_, funext fun u => ?_⟩
    · by_cases q : u = t
      · simp only [q, if_true]; exact hs
      · simp only [q, if_false]
    · by_cases q : u = t
      · simp only [q, if_true]
      · simp only [q, if_false]
  | op o k ih =>
    intro s hs
    cases o with
    | load l =>
      have e : s.step (.turn t) = { s with threads := fun u =>
          if u = t then (k (seen s.mem (s.buffers t) l)).bind f else s.threads u } := by
        simp only [step]; rw [hs]; rfl
      obtain ⟨n, h⟩ := ih (seen s.mem (s.buffers t) l) (s.step (.turn t)) (by simp [e])
      refine ⟨n + 1, ?_⟩
      rw [List.replicate_succ]
      show (s.step (.turn t)).run _ = _
      rw [h, e]
      simp only [runAlone, writes, Buffered.mk.injEq, and_true]
      funext u
      by_cases q : u = t <;> simp [q]
    | store l v =>
      have e : s.step (.turn t) = { s with
          threads := fun u => if u = t then (k v).bind f else s.threads u
          buffers := fun u => if u = t then s.buffers t ++ [(l, v)] else s.buffers u } := by
        simp only [step]; rw [hs]; rfl
      obtain ⟨n, h⟩ := ih v (s.step (.turn t)) (by simp [e])
      refine ⟨n + 1, ?_⟩
      rw [List.replicate_succ]
      show (s.step (.turn t)).run _ = _
      rw [h, e]
      simp only [runAlone, writes, if_true, seen_append, Buffered.mk.injEq, and_true]
      refine ⟨funext fun u => ?_, funext fun u => ?_⟩
      · by_cases q : u = t
        · simp only [q, if_true]; rfl
        · simp [q]
      · by_cases q : u = t
        · simp only [q, if_true, List.append_assoc]; rfl
        · simp [q]

/-! ### Stores out of order -/

/-- Thread `t` runs `p`, whose last store is to a location it has not stored to before, and that store becomes visible
alone. -/
theorem last_first (t : Nat) (p : MemProg Loc Val β) (f : β → MemProg Loc Val α) (s : Buffered Loc Val α)
    (hs : s.threads t = p.bind f) (hb : s.buffers t = []) (es : List (Loc × Val)) (e : Loc × Val)
    (hw : writes p s.mem = es ++ [e]) (hn : ∀ e' ∈ es, e'.1 ≠ e.1) :
    ∃ events, (∀ u, u ≠ t → (s.run events).threads u = s.threads u ∧ (s.run events).buffers u = s.buffers u) ∧
      (s.run events).mem = put s.mem e := by
  obtain ⟨n, h⟩ := own_turns t p f s hs
  refine ⟨List.replicate n (.turn t) ++ [.leave t es.length], ?_⟩
  rw [run_append_events, h]
  have e1 : seen s.mem (s.buffers t) = s.mem := by rw [hb]; rfl
  rw [e1, hb, hw]
  have e2 : es.any (fun e' => decide (e'.1 = e.1)) = false := by
    simp only [List.any_eq_false, decide_eq_true_eq]; exact hn
  simp only [Buffered.run, List.foldl_cons, List.foldl_nil, step, if_true, List.nil_append,
    List.getElem?_append_right (Nat.le_refl _), Nat.sub_self, List.getElem?_cons_zero, List.take_left', e2,
    Bool.false_eq_true, if_false]
  refine ⟨fun u hu => ?_, trivial⟩
  simp [hu]

end Goost.Conc
namespace Goost.Conc
open Spec Buffered

/-! ### A memory in which stores have come out of order: the 128-bit cipher -/

section
open Goost.Kuz

theorem valueS_of_plain (m : Machine) (b : Blk) (h : Plain b) (c : Caches) : b.valueS m c = (b.value m, c) := by
  let mem : CacheLoc → W64
    | .loaded id => if (c id).isSome then 1 else 0
    | .low id => (c id).elim 0 (·.1)
    | .high id => (c id).elim 0 (·.2)
  have e : cachesOf mem = c := by
    funext id
    simp only [cachesOf, mem]
    cases c id <;> simp
  have := runAlone_valueS m b mem
  rw [e, evalBlk_plain m b h] at this
  rw [this]
  simp only [runAlone, e]

theorem still_acts (m : Machine) (b : Blk) (h : Plain b) (v : W64 × W64) (hv : b.value m = .ok v) :
    KuzToken.Acts (W := Unit) m (still Unit b) (pure v) := by
  refine ⟨funext fun s => ?_⟩
  obtain ⟨c, w⟩ := s
  rw [KuzToken.still_value, valueS_of_plain m b h, hv]
  rfl

/-- With the first half remembered as `x`, the encryption is that of a key with this first half. -/
theorem alone_remembered (m : Machine) (hm : m.unalignedLoad = true) (high low : Blk) (hh : Plain high)
    (hl : Plain low) (h l x : W64 × W64) (hhv : high.value m = .ok h) (hlv : low.value m = .ok l)
    (mem : CacheLoc → W64) (h1 : cachesOf mem 1 = some x) (h2 : ∀ id, id ≠ 1 → cachesOf mem id = none)
    (w : W64 × W64) : ∃ r, (runAlone (evalBlk m (BlkEncrypted (BlkRaw.ofPair w) (Key.ofBlocks high low))) mem).1 = .ok r ∧
      join64 r = Spec.Kuz.enc (join64 x ++ join64 l) (join64 w) := by
  have := still_acts m high hh h hhv
  have := still_acts m low hl l hlv
  have hi : KuzToken.Inv m 0 (cachesOf mem) := by
    intro j v h3 h10 e
    rw [h2 (0 + j) (by omega)] at e
    cases e
  have k := (KuzToken.Does.encrypt (hi := pure h) (lo := pure l) (H := still Unit high) (L := still Unit low) hm
    (KuzToken.Does.raw (m := m) (base := 0) (W := Unit) w.1 w.2)) (cachesOf mem, ()) hi
  have e1 : KuzToken.view 0 (cachesOf mem, ()) = (some x, none, ()) := by
    simp only [KuzToken.view]
    rw [show cachesOf mem (0 + 1) = some x from h1, h2 (0 + 2) (by omega)]
  rw [e1] at k
  obtain ⟨-, -, v, k1, k2⟩ := k
  refine ⟨v, ?_, ?_⟩
  · have e2 := runAlone_valueS m (BlkEncrypted (BlkRaw.ofPair w) (Key.ofBlocks high low)) mem
    rw [← KuzToken.still_ofBlocks, show KuzToken.Blk.raw w.1 w.2 = still Unit (BlkRaw.ofPair w) from rfl,
      ← KuzToken.still_encrypt, KuzToken.still_value, e2] at k2
    simp only at k2
    rw [k2]
  · obtain ⟨r, e3, e4⟩ := KuzToken.known_encrypts (base := 0) hm x l (.raw w.1 w.2) w rfl
    rw [e3] at k1
    cases k1
    exact e4

theorem writes_cached (m : Machine) (id : Nat) (b : Blk) (hb : Plain b) (v : W64 × W64) (hv : b.value m = .ok v)
    (mem : CacheLoc → W64) (h0 : mem (.loaded id) = 0) :
    writes (evalBlk m (.cached id b)) mem = [(.low id, v.1), (.high id, v.2)] ++ [(.loaded id, 1)] := by
  simp only [evalBlk, writes, h0, ne_eq, not_true_eq_false, if_false, evalBlk_plain m b hb, hv, bindE_ret, readState]
  rfl

end

/-! ### The same for the 64-bit cipher -/

section
open Goost.Magma

theorem writes_fill (kd : KeyData) (hall : AllOk kd) (f : Exec Unit → MemProg KeyLoc W32 (Exec W32)) :
    ∀ (n i : Nat) (mem : KeyLoc → W32), i + n = 8 → ∃ es mem',
      writes ((fillKey kd n i).bind f) mem = es ++ writes (f (.ok ())) mem' ∧ ∀ e ∈ es, e.1 ≠ .cached := by
  intro n
  induction n with
  | zero => intro i mem _; exact ⟨[], mem, rfl, by simp⟩
  | succ n ih =>
    intro i mem hi
    obtain ⟨k, hk⟩ := hall i (by omega)
    obtain ⟨es, mem', h1, h2⟩ := ih (i + 1) (put mem (.key i, k)) (by omega)
    refine ⟨(.key i, k) :: es, mem', ?_, ?_⟩
    · simp only [fillKey, hk, Prog.bind, writes, h1, List.cons_append]
    · intro e he
      rcases List.mem_cons.1 he with rfl | he
      · simp
      · exact h2 e he

theorem writes_key (kd : KeyData) (hall : AllOk kd) (index : Int) (mem : KeyLoc → W32) (h0 : mem .cached = 0) :
    ∃ es, writes (evalKey kd index) mem = es ++ [(.cached, 1)] ∧ ∀ e ∈ es, e.1 ≠ .cached := by
  simp only [evalKey, writes, h0, ne_eq, not_true_eq_false, if_false]
  obtain ⟨es, mem', h1, h2⟩ := writes_fill kd hall (fun r =>
    (Prog.ret r).bindE fun _ => .op (.store .cached 1) fun _ => readKey index) 8 0 mem rfl
  refine ⟨es, ?_, h2⟩
  refine h1.trans ?_
  simp only [bindE_ret, writes]
  rw [readKey]
  split <;> rfl

/-- The answers of a key that is marked as cached, and whose words are zero. -/
theorem alone_zero (kd : KeyData) {α : Type} (p : Prog Int (Exec W32) α) :
    runAlone (p.handle (evalKey kd)) (put (fun _ => 0) (.cached, 1)) =
      (alone (KeyCachedData fun _ => .ok 0) p, put (fun _ => 0) (.cached, 1)) := by
  induction p with
  | ret a => rfl
  | op o k ih =>
    have e : runAlone (evalKey kd o) (put (fun _ => 0) (.cached, 1)) =
        (KeyCachedData (fun _ => .ok 0) o, put (fun _ => 0) (.cached, 1)) := by
      rw [KeyCachedData_all (fun _ _ => ⟨0, rfl⟩)]
      simp only [evalKey, runAlone, put, if_true]
      rw [if_pos (by decide), readKey]
      by_cases hi : 0 ≤ o ∧ o < 8
      · rw [if_pos hi, if_pos hi]
        simp [runAlone, put]
      · rw [if_neg hi, if_neg hi]
        rfl
    rw [Prog.handle, runAlone_bind, e]
    exact ih _

theorem zero_computes : Computes (LazyKey (KeyCachedData fun _ => .ok 0) SboxR3412)
    fun i => Spec.Magma.g Spec.Magma.pi (Spec.Magma.keyWord 0 i) :=
  LazyKey_computes (KeyCachedData_eq (k := fun i => Spec.Magma.keyWord 0 i) fun i => by simp [Spec.Magma.keyWord]) SboxR3412_eq

end

section
variable {Loc Val α β : Type} [DecidableEq Loc]

omit [DecidableEq Loc] in
theorem bind_ret (p : MemProg Loc Val α) : p.bind .ret = p := by
  induction p with
  | ret a => rfl
  | op o k ih => simp only [Prog.bind, ih]

/-! ### Turns -/

theorem step_others (s : Buffered Loc Val α) (t : Nat) (e : Event) (h : e ≠ .turn t) :
    (s.step e).threads t = s.threads t := by
  cases e with
  | turn u =>
    have hu : t ≠ u := fun q => h (by rw [q])
    simp only [step]
    split <;> simp [hu]
  | leave u i =>
    simp only [step]
    split
    · rfl
    · split <;> rfl

theorem firstEvents_succ (events : Nat → Event) (n : Nat) :
    firstEvents events (n + 1) = firstEvents events n ++ [events n] := by
  simp [firstEvents, List.range_succ]

theorem returns_buffered (events : Nat → Event) (t : Nat) (h : TurnsForever t events)
    (s : Buffered Loc Val α) (p : MemProg Loc Val α) :
    ∀ n, (s.run (firstEvents events n)).threads t = p →
      ∃ n' a, (s.run (firstEvents events n')).threads t = .ret a := by
  induction p with
  | ret a => exact fun n hn => ⟨n, a, hn⟩
  | op o k ih =>
    intro n hn
    obtain ⟨i, hi, hti⟩ := h n
    have hex : ∃ j, events j = .turn t ∧ (s.run (firstEvents events j)).threads t = .op o k := by
      have aux : ∀ d n, n + d = i → (s.run (firstEvents events n)).threads t = .op o k →
          ∃ j, events j = .turn t ∧ (s.run (firstEvents events j)).threads t = .op o k := by
        intro d
        induction d with
        | zero => intro n e hn; exact ⟨n, by rw [← hti, ← e]; rfl, hn⟩
        | succ d ihd =>
          intro n e hn
          by_cases hs : events n = .turn t
          · exact ⟨n, hs, hn⟩
          · exact ihd (n + 1) (by omega) (by
              rw [firstEvents_succ, run_append_events]
              exact (step_others _ _ _ hs).trans hn)
      exact aux (i - n) n (by omega) hn
    obtain ⟨j, hsj, hj⟩ := hex
    have hstep : s.run (firstEvents events (j + 1)) = (s.run (firstEvents events j)).step (.turn t) := by
      rw [firstEvents_succ, run_append_events, hsj]; rfl
    cases o with
    | load l =>
      refine ih (seen (s.run (firstEvents events j)).mem ((s.run (firstEvents events j)).buffers t) l) (j + 1) ?_
      rw [hstep]
      simp only [step, hj, if_true]
    | store l v =>
      refine ih v (j + 1) ?_
      rw [hstep]
      simp only [step, hj, if_true]

/-! ### Every store visible at once -/

theorem atOnce_step (s : Sys Loc Val α) (t : Nat) :
    Buffered.run ⟨s.threads, fun _ => [], s.mem⟩ [.turn t, .leave t 0] =
      ⟨(s.step t).threads, fun _ => [], (s.step t).mem⟩ := by
  simp only [Buffered.run, List.foldl_cons, List.foldl_nil, step, Sys.step]
  match s.threads t with
  | .ret a => simp
  | .op (.load l) k => simp [seen]
  | .op (.store l v) k =>
    simp only [List.nil_append, if_true, List.getElem?_cons_zero, List.take_zero, List.any_nil, Bool.false_eq_true,
      if_false, List.eraseIdx_cons_zero, Buffered.mk.injEq, true_and]
    refine ⟨funext fun u => ?_, rfl⟩
    split <;> rfl

theorem atOnce_run (s : Sys Loc Val α) (schedule : List Nat) :
    Buffered.run ⟨s.threads, fun _ => [], s.mem⟩ (atOnce schedule) =
      ⟨(s.run schedule).threads, fun _ => [], (s.run schedule).mem⟩ := by
  induction schedule generalizing s with
  | nil => rfl
  | cons t ts ih =>
    show Buffered.run _ ([.turn t, .leave t 0] ++ atOnce ts) = _
    rw [run_append_events, atOnce_step]
    exact ih (s.step t)

/-! ### Threads that only read -/

theorem reads_step {mem : Loc → Val} {s : Buffered Loc Val α} (hm : s.mem = mem) (hb : ∀ t, s.buffers t = [])
    (h : ∀ t, ReadsOnly mem (s.threads t)) (e : Event) :
    (s.step e).mem = mem ∧ (∀ t, (s.step e).buffers t = []) ∧ (∀ t, ReadsOnly mem ((s.step e).threads t)) ∧
      ∀ t, (runAlone ((s.step e).threads t) mem).1 = (runAlone (s.threads t) mem).1 := by
  cases e with
  | leave t i =>
    simp only [step, hb t, List.getElem?_nil]
    exact ⟨hm, hb, h, fun _ => trivial⟩
  | turn t =>
    have ht := h t
    simp only [step]
    match hp : s.threads t with
    | .ret a => exact ⟨hm, hb, h, fun _ => rfl⟩
    | .op (.store l v) k => rw [hp] at ht; exact ht.elim
    | .op (.load l) k =>
      rw [hp] at ht
      simp only [hb t, seen, hm]
      refine ⟨trivial, hb, fun u => ?_, fun u => ?_⟩
      · by_cases hu : u = t
        · simp only [hu, if_true]; exact ht
        · simpa [hu] using h u
      · by_cases hu : u = t
        · simp only [hu, if_true, hp, runAlone]
        · simp [hu]

theorem reads_run {mem : Loc → Val} (events : List Event) : ∀ {s : Buffered Loc Val α}, s.mem = mem →
    (∀ t, s.buffers t = []) → (∀ t, ReadsOnly mem (s.threads t)) → ∀ t a, (s.run events).threads t = .ret a →
      a = (runAlone (s.threads t) mem).1 := by
  induction events with
  | nil => intro s _ _ _ t a e; rw [show s.threads t = .ret a from e]; rfl
  | cons e es ih =>
    intro s hm hb h t a hr
    obtain ⟨h1, h2, h3, h4⟩ := reads_step hm hb h e
    rw [← h4 t]
    exact ih h1 h2 h3 t a hr

end
end Goost.Conc
