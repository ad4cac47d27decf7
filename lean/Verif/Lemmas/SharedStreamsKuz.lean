import Verif.Lemmas.SharedStreams
import Verif.Lemmas.KuzConc
import Verif.Lemmas.KuzCache
import Verif.Lemmas.Mutex
import Verif.Spec.KuzStreams
/-
Iterators and MACs of the 128-bit cipher that ask for encryptions with a shared key.
-/
namespace Goost.Conc
open Spec Goost.Kuz

attribute [local irreducible] Kuz.BlkEncrypted

variable {Op Res α β ι : Type}

theorem AllRequests.bind {P : Op → Prop} {answer : Op → Res} {p : Prog Op Res α} {f : α → Prog Op Res β}
    (hp : AllRequests P answer p) (hf : AllRequests P answer (f (alone answer p))) : AllRequests P answer (p.bind f) := by
  induction p with
  | ret a => exact hf
  | op o k ih => exact ⟨hp.1, ih _ hp.2 hf⟩

theorem AllRequests.bindE {P : Op → Prop} {answer : Op → Res} {p : Prog Op Res (Exec α)}
    {f : α → Prog Op Res (Exec β)} (hp : AllRequests P answer p)
    (hf : ∀ a, alone answer p = .ok a → AllRequests P answer (f a)) : AllRequests P answer (p.bindE f) := by
  refine AllRequests.bind hp ?_
  cases h : alone answer p with
  | ok a => exact hf a h
  | throw _ => trivial
  | ub _ => trivial
  | diverge => trivial

theorem alone_askDeref (answer : Kuz.Blk → Exec (W64 × W64)) (i : Option ι)
    (f : ι → Prog Kuz.Blk (Exec (W64 × W64)) (Exec (W64 × W64))) :
    alone answer (askDeref i f) = deref i fun i => alone answer (f i) := by
  cases i <;> rfl

theorem iterAlone_own (m : Machine) (it : IterImpl ι) : iterAlone m (AskIter.own it) = it := rfl

theorem iterAlone_ctr (m : Machine) (it : AskIter ι) : iterAlone m it.ctr = ItCTR.impl m (iterAlone m it) := by
  simp only [iterAlone, AskIter.ctr, ItCTR.impl, alone_bindE, alone_askDeref, alone]
  congr 1

theorem kuzImit_loop (m : Machine) (it : AskIter ι) (key : Kuz.Key) (fuel : Nat) (iter : Option ι) (block : Kuz.Blk) :
    alone (Kuz.Blk.value m) (askKuzImit.loop it key fuel iter block) =
      Imit.loop (iterAlone m it) key fuel iter block := by
  induction fuel generalizing iter block with
  | zero => rfl
  | succ fuel ih =>
    simp only [askKuzImit.loop, Imit.loop, alone_bindE]
    congr 1
    funext l
    cases l
    · simp only [Bool.not_false, if_true, alone_bindE, alone_askDeref, ih]; rfl
    · rfl

theorem kuzImit_value (m : Machine) (it : AskIter ι) (streamIter : Exec (Option ι)) (fuel : Nat) (key : Kuz.Key) :
    alone (Kuz.Blk.value m) (askKuzImit.value it streamIter fuel key) =
      Imit.value m (iterAlone m it) streamIter fuel key := by
  simp only [askKuzImit.value, Imit.value, Imit.build, alone_bindE, kuzImit_loop, alone_askDeref, bind_assoc]
  congr 1
  funext iter
  congr 1
  funext r
  congr 1
  funext v
  congr 1
  funext size
  by_cases h : size = 16
  · simp only [h, if_true]; rfl
  · simp only [h, if_false]; rfl

/-- From states with `P` the iterator asks for blocks of the system `own` only. -/
structure Fine (m : Machine) (own : Nat → Kuz.Blk) (it : AskIter ι) (P : ι → Prop) : Prop where
  value : ∀ i, P i → AllRequests (Owned own) (Kuz.Blk.value m) (it.value i)
  next : ∀ i j, P i → it.next i = .ok (some j) → P j

theorem Fine.own (m : Machine) (own : Nat → Kuz.Blk) (it : IterImpl ι) : Fine m own (AskIter.own it) fun _ => True :=
  ⟨fun _ _ => trivial, fun _ _ _ _ => trivial⟩

theorem Fine.deref {m : Machine} {own : Nat → Kuz.Blk} {it : AskIter ι} {P : ι → Prop} (h : Fine m own it P)
    (i : Option ι) (hi : ∀ j, i = some j → P j) :
    AllRequests (Owned own) (Kuz.Blk.value m) (askDeref i it.value) := by
  cases i with
  | none => trivial
  | some j => exact h.value j (hi j rfl)

theorem Fine.derefNext {m : Machine} {own : Nat → Kuz.Blk} {it : AskIter ι} {P : ι → Prop} (h : Fine m own it P)
    (i n : Option ι) (hi : ∀ j, i = some j → P j) (hn : Kuz.deref i it.next = .ok n) : ∀ j, n = some j → P j := by
  cases i with
  | none => cases hn
  | some j => rintro k rfl; exact h.next j k (hi j rfl) hn

theorem Fine.ctr {m : Machine} {own : Nat → Kuz.Blk} {it : AskIter ι} {P : ι → Prop} (h : Fine m own it P)
    (key : Kuz.Key) (hk : ∀ b, Owned own b → Owned own (Kuz.BlkEncrypted b key)) :
    Fine m own it.ctr fun i => i.key = key ∧ Owned own i.ctr ∧ ∀ j, i.iter = some j → P j where
  value i hi := by
    obtain ⟨rfl, hc, hp⟩ := hi
    refine AllRequests.bindE (h.deref _ hp) fun p _ => ⟨hk _ hc, AllRequests.bindE trivial fun g _ => trivial⟩
  next i j hi hn := by
    obtain ⟨rfl, hc, hp⟩ := hi
    change (Kuz.deref i.iter it.next >>= fun n => _) = _ at hn
    cases e : Kuz.deref i.iter it.next with
    | ok n =>
      rw [e] at hn
      cases hn
      exact ⟨rfl, hc, h.derefNext _ _ hp e⟩
    | throw _ => rw [e] at hn; cases hn
    | ub _ => rw [e] at hn; cases hn
    | diverge => rw [e] at hn; cases hn

theorem Fine.imitLoop {m : Machine} {own : Nat → Kuz.Blk} {it : AskIter ι} {P : ι → Prop} (h : Fine m own it P)
    (key : Kuz.Key) (hk : ∀ b, Owned own b → Owned own (Kuz.BlkEncrypted b key)) (fuel : Nat) (iter : Option ι)
    (hi : ∀ j, iter = some j → P j) (block : Kuz.Blk) (hb : Owned own block) :
    AllRequests (Owned own) (Kuz.Blk.value m) (askKuzImit.loop it key fuel iter block) ∧
    ∀ r, alone (Kuz.Blk.value m) (askKuzImit.loop it key fuel iter block) = .ok r →
      Owned own r.1 ∧ ∀ j, r.2 = some j → P j := by
  induction fuel generalizing iter block with
  | zero => exact ⟨trivial, fun r hr => by cases hr⟩
  | succ fuel ih =>
    have step : ∀ v n, Kuz.deref iter it.next = .ok n → _ := fun v n hn =>
      ih n (h.derefNext _ _ hi hn) (Kuz.BlkEncrypted (.xored block (Kuz.BlkRaw.ofPair v)) key) (hk _ ⟨hb, trivial⟩)
    constructor
    · refine AllRequests.bindE trivial fun l _ => ?_
      cases l
      · exact AllRequests.bindE (h.deref _ hi) fun v _ => AllRequests.bindE trivial fun n hn => (step v n hn).1
      · trivial
    · intro r hr
      simp only [askKuzImit.loop, alone_bindE, alone] at hr
      cases el : Kuz.deref iter it.last with
      | ok l =>
        rw [el, Exec.ok_bind] at hr
        cases l
        · simp only [Bool.not_false, if_true, alone_bindE, alone_askDeref] at hr
          cases ev : (Kuz.deref iter fun i => alone (Kuz.Blk.value m) (it.value i)) with
          | ok v =>
            rw [ev, Exec.ok_bind] at hr
            cases en : Kuz.deref iter it.next with
            | ok n =>
              simp only [alone, en, Exec.ok_bind] at hr
              exact (step v n en).2 r hr
            | throw _ => simp only [alone, en] at hr; cases hr
            | ub _ => simp only [alone, en] at hr; cases hr
            | diverge => simp only [alone, en] at hr; cases hr
          | throw _ => rw [ev] at hr; cases hr
          | ub _ => rw [ev] at hr; cases hr
          | diverge => rw [ev] at hr; cases hr
        · cases hr; exact ⟨hb, hi⟩
      | throw _ => rw [el] at hr; cases hr
      | ub _ => rw [el] at hr; cases hr
      | diverge => rw [el] at hr; cases hr

theorem Fine.imit {m : Machine} {own : Nat → Kuz.Blk} {it : AskIter ι} {P : ι → Prop} (h : Fine m own it P)
    (key : Kuz.Key) (hk : ∀ b, Owned own b → Owned own (Kuz.BlkEncrypted b key)) (fuel : Nat)
    (streamIter : Exec (Option ι)) (hi : ∀ j, streamIter = .ok (some j) → P j) :
    AllRequests (Owned own) (Kuz.Blk.value m) (askKuzImit.value it streamIter fuel key) := by
  have hz : Owned own (Kuz.Blk.xoredIfHighBit (Kuz.BlkEncrypted Kuz.BlkRaw.zero key) (Kuz.BlkRaw.ofU64 0x87)) :=
    ⟨hk Kuz.BlkRaw.zero trivial, trivial⟩
  refine AllRequests.bindE trivial fun iter he => ?_
  obtain ⟨h1, h2⟩ := h.imitLoop key hk fuel iter (fun j hj => hi j (by rw [← hj]; exact he)) Kuz.BlkRaw.zero trivial
  refine AllRequests.bindE h1 fun r hr => AllRequests.bindE (h.deref _ (h2 r hr).2) fun v _ =>
    AllRequests.bindE trivial fun size _ => ?_
  split
  · exact ⟨hk _ ⟨⟨(h2 r hr).1, trivial⟩, hz⟩, trivial⟩
  · exact ⟨hk _ ⟨⟨(h2 r hr).1, trivial⟩, ⟨hz, trivial⟩⟩, trivial⟩

/-! ### calls -/

/-- Calls from states with `Q` ask for blocks of the system `own` only, and lead to states with `Q`. -/
theorem AllRequests.calls {W S : Type} {P : Op → Prop} {answer : Op → Res} (Q : S → Prop)
    (calls : List (S → Ask Op Res W S))
    (hc : ∀ c ∈ calls, ∀ s w, Q s → AllRequests P answer (c s w) ∧
      ∀ s' w', alone answer (c s w) = (.ok s', w') → Q s') (s : S) (w : W) (hs : Q s) :
    AllRequests (AllRequests P answer) (alone answer) (lockedCalls calls s w) := by
  induction calls generalizing s w with
  | nil => trivial
  | cons c cs ih =>
    obtain ⟨h1, h2⟩ := hc c (by simp) s w hs
    refine ⟨h1, ?_⟩
    generalize alone answer (c s w) = r at h2
    obtain ⟨r, w'⟩ := r
    cases r with
    | ok s' => exact ih (fun c hc' => hc c (by simp [hc'])) s' w' (h2 s' w' rfl)
    | throw _ => trivial
    | ub _ => trivial
    | diverge => trivial

theorem AllRequests.use {W : Type} {P : Op → Prop} {answer : Op → Res} {p : Prog Op Res (Exec α)}
    (h : AllRequests P answer p) (w : W) : AllRequests P answer (Ask.use p w) := AllRequests.bind h trivial

theorem AllRequests.bindAsk {W : Type} {P : Op → Prop} {answer : Op → Res} {x : Ask Op Res W α}
    {f : α → Ask Op Res W β} {w : W} (hx : AllRequests P answer (x w))
    (hf : ∀ a w', alone answer (x w) = (.ok a, w') → AllRequests P answer (f a w')) :
    AllRequests P answer ((x >>= f) w) := by
  refine AllRequests.bind hx ?_
  generalize alone answer (x w) = r at hf
  obtain ⟨r, w'⟩ := r
  cases r with
  | ok a => exact hf a w' rfl
  | throw _ => trivial
  | ub _ => trivial
  | diverge => trivial

theorem Fine.walk {m : Machine} {own : Nat → Kuz.Blk} {it : AskIter ι} {P : ι → Prop} (h : Fine m own it P) (n : Nat)
    (s : List (BitVec 64 × BitVec 64) × Option ι) (hs : ∀ j, s.2 = some j → P j) :
    AllRequests (AllRequests (Owned own) (Kuz.Blk.value m)) (alone (Kuz.Blk.value m))
      (lockedCalls (walkCalls it n) s ()) := by
  have hw : ∀ n, ∀ c ∈ walkCalls it n, c = valueCall it ∨ c = nextCall it := by
    intro n
    induction n with
    | zero => intro c hc; simp [walkCalls] at hc; exact .inl hc
    | succ n ih =>
      intro c hc
      simp only [walkCalls, List.mem_cons] at hc
      rcases hc with hc | hc | hc
      · exact .inl hc
      · exact .inr hc
      · exact ih c hc
  refine AllRequests.calls (fun s : List (BitVec 64 × BitVec 64) × Option ι => ∀ j, s.2 = some j → P j) _ ?_ s () hs
  intro c hc s w hs
  rcases hw n c hc with rfl | rfl
  · refine ⟨AllRequests.bindAsk (AllRequests.use (h.deref _ hs) _) fun _ _ _ => trivial, ?_⟩
    intro s' w' e
    have e' := congrFun (aloneIo_bind (W := Unit) (Kuz.Blk.value m) (Ask.use (askDeref s.2 it.value))
      fun v => pure (s.1 ++ [v], s.2)) w
    rw [show aloneIo (Kuz.Blk.value m) (Ask.use (askDeref s.2 it.value) >>= fun v => pure (s.1 ++ [v], s.2)) w =
      (.ok s', w') from e] at e'
    obtain ⟨v, w1, -, e2⟩ := io_ok e'.symm
    cases e2
    exact hs
  · refine ⟨AllRequests.bindAsk trivial fun _ _ _ => trivial, ?_⟩
    intro s' w' e
    have e' := congrFun (aloneIo_bind (W := Unit) (Kuz.Blk.value m) (Ask.lift (Kuz.deref s.2 it.next))
      fun i => pure (s.1, i)) w
    rw [show aloneIo (Kuz.Blk.value m) (Ask.lift (Kuz.deref s.2 it.next) >>= fun i => pure (s.1, i)) w =
      (.ok s', w') from e] at e'
    obtain ⟨v, w1, e1, e2⟩ := io_ok e'.symm
    cases e2
    exact h.derefNext _ _ hs (congrArg Prod.fst e1)

theorem callsAlone_cons {W S : Type} (answer : Op → Res) (c : S → Ask Op Res W S) (cs : List (S → Ask Op Res W S))
    (s : S) : callsAlone answer (c :: cs) s = aloneIo answer (c s) >>= fun s => callsAlone answer cs s := by
  simp only [callsAlone, List.foldlM_cons]

theorem callsAlone_nil {W S : Type} (answer : Op → Res) (s : S) :
    callsAlone answer ([] : List (S → Ask Op Res W S)) s = pure s := rfl

/-- A walk through all the blocks of a stream gives the blocks. -/
theorem walk_shows (m : Machine) (it : AskIter ι) (size : Nat) (p : List (W64 × W64)) (i : ι)
    (h : Shows (iterAlone m it) size i p) (got : List (W64 × W64)) :
    ∃ j, callsAlone (Kuz.Blk.value m) (walkCalls it (p.length - 1)) (got, some i) () = (.ok (got ++ p, j), ()) := by
  have hv : ∀ (got : List (W64 × W64)) i v, (iterAlone m it).value i = .ok v →
      aloneIo (Kuz.Blk.value m) (valueCall it (got, some i)) = pure (got ++ [v], some i) := by
    intro got i v hv
    simp only [valueCall, aloneIo_bind, aloneIo_use, alone_askDeref]
    rw [show (deref (some i) fun i => alone (Kuz.Blk.value m) (it.value i)) = .ok v from hv]
    rfl
  induction p generalizing i got with
  | nil => exact h.elim
  | cons v r ih =>
    cases r with
    | nil =>
      refine ⟨some i, ?_⟩
      simp only [List.length_singleton, Nat.sub_self, walkCalls, callsAlone_cons, callsAlone_nil, hv got i v h.1]
      rfl
    | cons v' r =>
      obtain ⟨h1, -, -, j, h4, h5⟩ := h
      obtain ⟨k, ih⟩ := ih j h5 (got ++ [v])
      refine ⟨k, ?_⟩
      have hn : aloneIo (Kuz.Blk.value m) (nextCall it (got ++ [v], some i)) = pure (got ++ [v], some j) := by
        simp only [nextCall, aloneIo_bind, aloneIo_lift]
        rw [show deref (some i) it.next = .ok (some j) from h4]
        rfl
      simp only [List.length_cons, Nat.add_sub_cancel, walkCalls, callsAlone_cons, hv got i v h1, pure_bind, hn]
      simp only [List.length_cons, Nat.add_sub_cancel] at ih
      rw [ih]
      simp

end Goost.Conc
