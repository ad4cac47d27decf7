import Verif.Model.MagmaKey
/-
Property C102: substitution by tables that the user supplies (`SboxByte::Tab`).
-/
namespace Goost.Props
open Goost.Magma

/-- C102, the part that holds: with four tables each of which looks only at the last byte of the
number it is given and answers with a byte, `SboxByte` substitutes the four bytes of the word.
Missing: tables that expect a number from 0 to 255, see below. -/
theorem C102_reducing_tables_partial (tab1 tab2 tab3 tab4 : SboxByteTab)
    (t1 t2 t3 t4 : BitVec 8 → BitVec 8)
    (h1 : ∀ n, tab1 n = .ok ((t1 (n.extractLsb' 0 8)).setWidth 32))
    (h2 : ∀ n, tab2 n = .ok ((t2 (n.extractLsb' 0 8)).setWidth 32))
    (h3 : ∀ n, tab3 n = .ok ((t3 (n.extractLsb' 0 8)).setWidth 32))
    (h4 : ∀ n, tab4 n = .ok ((t4 (n.extractLsb' 0 8)).setWidth 32)) (v : BitVec 32) :
    ∃ r, SboxByte.ofTabs tab1 tab2 tab3 tab4 v = .ok r ∧
      r.extractLsb' 0 8 = t1 (v.extractLsb' 0 8) ∧ r.extractLsb' 8 8 = t2 (v.extractLsb' 8 8) ∧
      r.extractLsb' 16 8 = t3 (v.extractLsb' 16 8) ∧
      r.extractLsb' 24 8 = t4 (v.extractLsb' 24 8) := by
  have e : ∀ k, (v >>> k).extractLsb' 0 8 = v.extractLsb' k 8 := by
    intro k
    apply BitVec.eq_of_getLsbD_eq
    intro i hi
    simp
  have out : ∀ (x : BitVec 8) i, 8 ≤ i → x.getLsbD i = false :=
    fun x i h => BitVec.getLsbD_of_ge x i h
  refine ⟨_, by simp only [SboxByte.ofTabs, h1, h2, h3, h4, e]; rfl, ?_, ?_, ?_, ?_⟩
  · apply BitVec.eq_of_getLsbD_eq
    intro i hi
    simp [hi, show i < 32 by omega, show i < 16 by omega, show i < 24 by omega]
  · apply BitVec.eq_of_getLsbD_eq
    intro i hi
    simp [hi, show 8 + i < 32 by omega, show 8 + i < 16 by omega,
      show 8 + i < 24 by omega]
  · apply BitVec.eq_of_getLsbD_eq
    intro i hi
    simp [hi, out _ (16 + i) (by omega), out _ (16 + i - 8) (by omega), show 16 + i < 32 by omega,
      show 16 + i < 24 by omega]
  · apply BitVec.eq_of_getLsbD_eq
    intro i hi
    simp [hi, out _ (24 + i) (by omega), out _ (24 + i - 8) (by omega),
      out _ (24 + i - 16) (by omega), show 24 + i < 32 by omega]

/-- C102, what the tables are asked for: the word itself and the word shifted by 8, 16 and 24 bits,
not the bytes of the word. -/
theorem C102_table_arguments (tab1 tab2 tab3 tab4 : SboxByteTab) (v a b c d : BitVec 32)
    (h1 : tab1 v = .ok a) (h2 : tab2 (v >>> 8) = .ok b) (h3 : tab3 (v >>> 16) = .ok c)
    (h4 : tab4 (v >>> 24) = .ok d) :
    SboxByte.ofTabs tab1 tab2 tab3 tab4 v =
      .ok (a ||| (b <<< 8) ||| (c <<< 16) ||| (d <<< 24)) := by
  simp only [SboxByte.ofTabs, h1, h2, h3, h4]
  rfl

example (v : BitVec 32) := C102_table_arguments (fun n => .ok (n &&& 0xff)) (fun n => .ok (n &&& 0xff))
  (fun n => .ok (n &&& 0xff)) (fun n => .ok (n &&& 0xff)) v _ _ _ _ rfl rfl rfl rfl

/-- C102 is false of the code: tables that look up a vector of 256 entries, as the name and the
number of values of a byte suggest, are asked for numbers beyond it. Every word of 256 or more is a
read outside the vector (of words below 256 the first byte only is substituted, by the first table). -/
theorem C102_vector_of_256_undefined (l1 l2 l3 l4 : List (BitVec 32)) (h : l1.length = 256)
    (v : BitVec 32) (hv : 256 ≤ v.toNat) :
    SboxByte.ofTabs (fun n => vgetI l1 n.toInt) (fun n => vgetI l2 n.toInt)
      (fun n => vgetI l3 n.toInt) (fun n => vgetI l4 n.toInt) v = .ub .oobRead := by
  have e : vgetI l1 v.toInt = .ub .oobRead := by
    unfold vgetI
    split
    · rfl
    · rename_i hn
      have : l1[v.toInt.toNat]? = none := by
        rw [List.getElem?_eq_none_iff, h]
        rw [BitVec.toInt_eq_toNat_cond] at hn ⊢
        split at hn <;> split <;> omega
      rw [vget, this]
  simp only [SboxByte.ofTabs, e]
  rfl

/-- A table that reduces the number, and the identity of a vector. -/
example : ∀ n : BitVec 32, (fun n => .ok ((n.extractLsb' 0 8).setWidth 32) : SboxByteTab) n =
    .ok (((id : BitVec 8 → BitVec 8) (n.extractLsb' 0 8)).setWidth 32) := fun _ => rfl

example : ((List.range 256).map (BitVec.ofNat 32)).length = 256 ∧ 256 ≤ (0x100 : BitVec 32).toNat := by
  simp

end Goost.Props
