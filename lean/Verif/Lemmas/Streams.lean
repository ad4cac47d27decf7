import Verif.Spec.Streams
import Verif.Spec.Modes
import Verif.Model.Gost89
import Verif.Lemmas.Feistel
/-
Pieces of byte strings, sinks and sources.
-/
namespace Goost
open Spec
variable {W σ τ : Type}

/-! ### Pieces of 8 bytes -/

theorem chunks8_append {p : List Byte} (h : p.length = 8) (l : List Byte) :
    chunks8 (p ++ l) = p :: chunks8 l := by
  obtain ⟨b0, b1, b2, b3, b4, b5, b6, b7, rfl⟩ := exists_of_length_eight h
  rfl

theorem chunks8_short : ∀ {p : List Byte}, p.length < 8 → chunks8 p = []
  | [], _ | [_], _ | [_, _], _ | [_, _, _], _ | [_, _, _, _], _ | [_, _, _, _, _], _
  | [_, _, _, _, _, _], _ | [_, _, _, _, _, _, _], _ => rfl
  | _ :: _ :: _ :: _ :: _ :: _ :: _ :: _ :: _, h => by simp at h; omega

/-- Induction over byte strings in steps of 8 bytes. -/
theorem bytes_induction {motive : List Byte → Prop} (short : ∀ p, p.length < 8 → motive p)
    (step : ∀ p l, p.length = 8 → motive l → motive (p ++ l)) (l : List Byte) : motive l := by
  induction hn : l.length using Nat.strongRecOn generalizing l with
  | ind n ih =>
    by_cases h : l.length < 8
    · exact short l h
    · rw [← List.take_append_drop 8 l]
      refine step _ _ (by simp; omega) (ih (l.length - 8) (by omega) _ (by simp))

theorem chunks8_length (l : List Byte) : (chunks8 l).length = l.length / 8 := by
  induction l using bytes_induction with
  | short p h => rw [chunks8_short h]; simp; omega
  | step p l h ih => rw [chunks8_append h]; simp only [List.length_cons, List.length_append, ih, h]; omega

theorem chunks8_flatten (l : List Byte) : (chunks8 l).flatten = l.take (8 * (l.length / 8)) := by
  induction l using bytes_induction with
  | short p h =>
    rw [chunks8_short h]
    have : p.length / 8 = 0 := by omega
    simp [this]
  | step p l h ih =>
    rw [chunks8_append h, List.flatten_cons, ih, List.length_append, h]
    have e : 8 * ((8 + l.length) / 8) = p.length + 8 * (l.length / 8) := by omega
    rw [e, List.take_length_add_append]

theorem chunks8_all (l : List Byte) : ∀ x ∈ chunks8 l, x.length = 8 := by
  induction l using bytes_induction with
  | short p h => rw [chunks8_short h]; simp
  | step p l h ih =>
    rw [chunks8_append h]
    intro x hx
    rcases List.mem_cons.1 hx with e | e
    · rw [e, h]
    · exact ih x e

@[simp] theorem unblocks64_nil : unblocks64 [] = [] := rfl
@[simp] theorem unblocks64_cons (x : W64) (l : List W64) :
    unblocks64 (x :: l) = bytesOf64 x ++ unblocks64 l := rfl

theorem unblocks64_length (l : List W64) : (unblocks64 l).length = 8 * l.length := by
  induction l with
  | nil => rfl
  | cons x l ih => simp [ih]; omega

theorem blocks64_unblocks64 (l : List W64) : blocks64 (unblocks64 l) = l := by
  induction l with
  | nil => rfl
  | cons x l ih =>
    rw [unblocks64_cons, blocks64, chunks8_append (by simp), List.map_cons, block64_bytesOf64]
    exact congrArg _ ih

theorem blocks64_append {p : List Byte} (h : p.length = 8) (l : List Byte) :
    blocks64 (p ++ l) = block64 p :: blocks64 l := by
  rw [blocks64, chunks8_append h]; rfl

theorem blocks64_short {p : List Byte} (h : p.length < 8) : blocks64 p = [] := by
  rw [blocks64, chunks8_short h]; rfl

theorem blocks64_length (l : List Byte) : (blocks64 l).length = l.length / 8 := by
  rw [blocks64, List.length_map, chunks8_length]

theorem unblocks64_blocks64 (l : List Byte) :
    unblocks64 (blocks64 l) = l.take (8 * (l.length / 8)) := by
  rw [← chunks8_flatten, unblocks64, blocks64, List.map_map]
  congr 1
  have : ∀ L : List (List Byte), (∀ x ∈ L, x.length = 8) →
      L.map (bytesOf64 ∘ block64) = L := by
    intro L hL
    rw [List.map_congr_left (g := id), List.map_id]
    intro x hx
    exact bytesOf64_block64 (hL x hx)
  exact this _ (chunks8_all l)

theorem unblocks64_blocks64_whole {l : List Byte} (h : l.length % 8 = 0) :
    unblocks64 (blocks64 l) = l := by
  rw [unblocks64_blocks64, List.take_of_length_le (by omega)]

/-! ### writeAll and readAll -/

@[simp] theorem writeAll_nil (wr : τ → List Byte → Io W τ) (s : τ) :
    writeAll wr s [] = pure s := rfl
@[simp] theorem writeAll_cons (wr : τ → List Byte → Io W τ) (s : τ) (x : List Byte)
    (xs : List (List Byte)) : writeAll wr s (x :: xs) = wr s x >>= fun s => writeAll wr s xs := rfl

theorem writeAll_append (wr : τ → List Byte → Io W τ) (s : τ) (xs ys : List (List Byte)) :
    writeAll wr s (xs ++ ys) = writeAll wr s xs >>= fun s => writeAll wr s ys := by
  induction xs generalizing s with
  | nil => rfl
  | cons x xs ih =>
    rw [List.cons_append, writeAll_cons, writeAll_cons, bind_assoc]
    congr 1
    funext s
    exact ih s

theorem _root_.Spec.Collects.writeAll {wr : τ → List Byte → Io W τ} {content : τ → W → List Byte}
    (h : Collects wr content) (xs : List (List Byte)) (s : τ) (w : W) :
    ∃ s' w', Spec.writeAll wr s xs w = (.ok s', w') ∧
      content s' w' = content s w ++ xs.flatten := by
  induction xs generalizing s w with
  | nil => exact ⟨s, w, rfl, by simp⟩
  | cons x xs ih =>
    obtain ⟨s1, w1, e1, c1⟩ := h s w x
    obtain ⟨s2, w2, e2, c2⟩ := ih s1 w1
    refine ⟨s2, w2, ?_, ?_⟩
    · rw [writeAll_cons, Io.bind_run_ok e1, e2]
    · rw [c2, c1, List.flatten_cons, List.append_assoc]

theorem _root_.Spec.Supplies.blocks {rd : σ → Nat → Io W (List Byte × σ)} {s : σ} {w : W}
    {d : List Byte} (h : Supplies rd s w d) : SuppliesBlocks rd s w d := by
  obtain ⟨R, h0, h1⟩ := h
  exact ⟨R, h0, fun s w d hr => h1 s w d hr 8⟩

theorem _root_.Spec.Supplies.readAll {rd : σ → Nat → Io W (List Byte × σ)} {s : σ} {w : W}
    {d : List Byte} (h : Supplies rd s w d) (ns : List Nat) :
    ∃ pieces s' w', Spec.readAll rd s ns w = (.ok (pieces, s'), w') ∧
      pieces.flatten = d.take ns.sum ∧ Supplies rd s' w' (d.drop ns.sum) := by
  obtain ⟨R, h0, h1⟩ := h
  suffices ∀ s w d, R s w d → ∃ pieces s' w', Spec.readAll rd s ns w = (.ok (pieces, s'), w') ∧
      pieces.flatten = d.take ns.sum ∧ R s' w' (d.drop ns.sum) by
    obtain ⟨pieces, s', w', a, b, c⟩ := this s w d h0
    exact ⟨pieces, s', w', a, b, R, c, h1⟩
  induction ns with
  | nil => intro s w d hr; exact ⟨[], s, w, rfl, by simp, by simpa using hr⟩
  | cons n ns ih =>
    intro s w d hr
    obtain ⟨s1, w1, e1, r1⟩ := h1 s w d hr n
    obtain ⟨ps, s2, w2, e2, f2, r2⟩ := ih s1 w1 _ r1
    refine ⟨d.take n :: ps, s2, w2, ?_, ?_, ?_⟩
    · rw [Spec.readAll, Io.bind_run_ok e1]
      simp only
      rw [Io.bind_run_ok e2]
      rfl
    · rw [List.flatten_cons, f2, List.sum_cons, List.take_add]
    · rw [List.sum_cons, ← List.drop_drop]; exact r2

theorem memWrite_collects : Collects (memWrite (W := W)) (fun s _ => s) :=
  fun s w x => ⟨s ++ x, w, rfl, rfl⟩

theorem memRead_supplies (d : List Byte) (w : W) : Supplies memRead d w d :=
  ⟨fun s _ d => s = d, rfl, fun s w d h n => ⟨d.drop n, w, by rw [h]; rfl, rfl⟩⟩

theorem fileWrite_collects : Collects fileWrite (fun _ file => file) :=
  fun _ w x => ⟨(), w ++ x, rfl, rfl⟩

end Goost
