import Verif.Lemmas.ByteOrder
import Verif.Lemmas.KuzOrder
import Verif.Lemmas.Reads
/-
On a little-endian machine the functions of Verif.Model.ByteOrder are those of the rest of the model;
what two machines of different byte order make of the same data.
-/
namespace Goost
open Spec Spec.Magma Spec.Modes Goost.Magma
variable {W σ τ : Type}

/-! ### A little-endian machine -/

theorem makeKeyIn_little (c : Container) : ECBSource.makeKeyIn .little c = ECBSource.makeKey c := rfl

theorem ECBSink_loopIn_little (wr : τ → List Byte → Io W τ) (key : Key) (d p : List Byte) (s : τ) :
    ECBSink.loopIn .little wr key d p s = ECBSink.loop wr key d p s := by
  induction d generalizing p s with
  | nil => rfl
  | cons b d ih =>
    unfold ECBSink.loopIn ECBSink.loop
    simp only [ih, load64In, bytes64In]

theorem ECBSource_readIn_little (m : Machine) (rd : σ → Nat → Io W (List Byte × σ)) (t : ECBSource σ)
    (n : Nat) : ECBSource.readIn .little m rd t n = ECBSource.read m rd t n := by
  cases t <;> rfl

theorem CFBSink_loopIn_little (m : Machine) (wr : τ → List Byte → Io W τ) (key : Key) (d : List Byte)
    (s : τ) (p : List Byte) (rl rr : W64) :
    CFBSink.loopIn .little m wr key d s p rl rr = CFBSink.loop m wr key d s p rl rr := by
  induction d generalizing s p rl rr with
  | nil => rfl
  | cons b d ih =>
    unfold CFBSink.loopIn CFBSink.loop
    simp only [ih, load64In]

theorem gost89_CFBSink_loopIn_little (m : Machine) (wr : τ → List Byte → Io W τ) (key : Key)
    (d : List Byte) (s : τ) (p : List Byte) (l : W64) :
    Gost89.CFBSink.loopIn .little m wr key d s p l = Gost89.CFBSink.loop m wr key d s p l := by
  induction d generalizing s p l with
  | nil => rfl
  | cons b d ih =>
    unfold Gost89.CFBSink.loopIn Gost89.CFBSink.loop
    simp only [ih, load64In]

theorem copyMaxIn_little (p : List Byte) : copyMaxIn .little p = copyMax p := rfl

theorem CFBSource_loopIn_little (m : Machine) (rd : σ → Nat → Io W (List Byte × σ)) (key : Key)
    (size fuel : Nat) (s : σ) (p : List Byte) (rl rr : W64) (res : List Byte) :
    CFBSource.loopIn .little m rd key size fuel s p rl rr res =
      CFBSource.loop m rd key size fuel s p rl rr res := by
  induction fuel generalizing s p rl rr res with
  | zero => rfl
  | succ n ih =>
    unfold CFBSource.loopIn CFBSource.loop
    simp only [ih, copyMaxIn_little]

theorem gost89_CFBSource_loopIn_little (m : Machine) (rd : σ → Nat → Io W (List Byte × σ)) (key : Key)
    (size fuel : Nat) (s : σ) (p : List Byte) (r : W64) (res : List Byte) :
    Gost89.CFBSource.loopIn .little m rd key size fuel s p r res =
      Gost89.CFBSource.loop m rd key size fuel s p r res := by
  induction fuel generalizing s p r res with
  | zero => rfl
  | succ n ih =>
    unfold Gost89.CFBSource.loopIn Gost89.CFBSource.loop
    simp only [ih, copyMaxIn_little]

theorem loadPartialIn_little (b : List Byte) : Imit.loadPartialIn .little b = Imit.loadPartial b := rfl

theorem Imit_loopIn_little (rd : σ → Nat → Io W (List Byte × σ)) (key : Option Key) (fuel : Nat) (s : σ)
    (b : List Byte) (block : Blk) :
    Imit.loopIn .little rd key fuel s b block = Imit.loop rd key fuel s b block := by
  induction fuel generalizing s b block with
  | zero => rfl
  | succ n ih =>
    unfold Imit.loopIn Imit.loop
    simp only [ih, loadPartialIn_little]

theorem Imit_valueIn_little (m : Machine) (rd : σ → Nat → Io W (List Byte × σ)) (fuel : Nat) (s : σ)
    (key : Option Key) : Imit.valueIn .little m rd fuel s key = Imit.value m rd fuel s key := by
  unfold Imit.valueIn Imit.value Imit.build
  simp only [Imit_loopIn_little, bind_assoc, pure_bind]

theorem DataImit_loopIn_little (m : Machine) (key : Option Key) (n : Nat) (d state : List Byte)
    (h : d.length ≤ n) :
    Gost89.DataImit.loopIn .little m key d state = Gost89.DataImit.loop m key d state := by
  induction n generalizing d state with
  | zero =>
    obtain rfl : d = [] := List.length_eq_zero_iff.1 (by omega)
    rfl
  | succ n ih =>
    match d with
    | [] | [_] | [_, _] | [_, _, _] | [_, _, _, _] | [_, _, _, _, _] | [_, _, _, _, _, _]
    | [_, _, _, _, _, _, _] => rfl
    | b0 :: b1 :: b2 :: b3 :: b4 :: b5 :: b6 :: b7 :: rest =>
      have : ∀ state, Gost89.DataImit.loopIn .little m key rest state =
          Gost89.DataImit.loop m key rest state := fun st => ih rest st (by
        simp only [List.length_cons] at h; omega)
      unfold Gost89.DataImit.loopIn Gost89.DataImit.loop
      simp only [this]
      rfl

theorem DataImit_valueIn_little (m : Machine) (d : List Byte) (key : Option Key) :
    Gost89.DataImit.valueIn .little m d key = Gost89.DataImit.value m d key :=
  DataImit_loopIn_little m key _ _ _ (Nat.le_refl _)

theorem Kuz_rValueIn_little (m : Machine) (v : W64 × W64) :
    Kuz.rValueIn .little m v = Kuz.rValue m v := by
  simp only [Kuz.rValueIn, Kuz.rValue, bytes64In, load64In]

theorem Kuz_valueIn_little (m : Machine) (b : Kuz.Blk) : b.valueIn .little m = b.value m := by
  induction b with
  | raw _ _ => rfl
  | str _ => rfl
  | xored a b iha ihb => simp only [Kuz.Blk.valueIn, Kuz.Blk.value, iha, ihb]
  | blkS b ih => simp only [Kuz.Blk.valueIn, Kuz.Blk.value, ih, sValueIn_eq]
  | blkR b ih => simp only [Kuz.Blk.valueIn, Kuz.Blk.value, ih, Kuz_rValueIn_little]
  | incremented b ih => simp only [Kuz.Blk.valueIn, Kuz.Blk.value, ih]
  | shifted b n ih => simp only [Kuz.Blk.valueIn, Kuz.Blk.value, ih]
  | xoredIfHighBit a b iha ihb => simp only [Kuz.Blk.valueIn, Kuz.Blk.value, iha, ihb]
  | cached i b ih => exact ih
  | user v => rfl

/-! ### The key of a container -/

theorem load32In_big (l : List Byte) (i : Nat) :
    load32In .big l i = load32 l i >>= fun x => Exec.ok (Magma.htonl x) := by
  have key : ∀ a b c d : Exec Byte,
      (do let b0 ← a; let b1 ← b; let b2 ← c; let b3 ← d
          return (b0 ++ b1 ++ b2 ++ b3 : BitVec 32)) =
        (do let b0 ← a; let b1 ← b; let b2 ← c; let b3 ← d
            return (b3 ++ b2 ++ b1 ++ b0 : BitVec 32)) >>= fun x => Exec.ok (Magma.htonl x) := by
    intro a b c d
    cases a <;> try rfl
    cases b <;> try rfl
    cases c <;> try rfl
    cases d <;> try rfl
    rename_i a b c d
    show Exec.ok (a ++ b ++ c ++ d) = Exec.ok (Magma.htonl (d ++ c ++ b ++ a))
    rw [htonl_load]
  exact key _ _ _ _

theorem makeKeyIn_eq (o : ByteOrder) (c : Container) :
    ECBSource.makeKeyIn o c = ECBSource.makeKey c := by
  cases o
  · rfl
  · unfold ECBSource.makeKeyIn ECBSource.makeKey
    simp only [load32In_big, bind_assoc, Exec.ok_bind]
    rfl

/-! ### Two machines -/

theorem cfbEnc_two (o : ByteOrder) (E : W64 → W64) (i j : W64) (ps : List W64) :
    (cfbEnc (fun x => E (seen o x)) [seen o i, seen o j] ps).take 2 = (cfbEnc E [i, j] ps).take 2 := by
  match ps with
  | [] => rfl
  | [x] => simp [cfbEnc, seen_seen]
  | x :: y :: ps => simp [cfbEnc, seen_seen]

theorem cfbEnc_one (o : ByteOrder) (E : W64 → W64) (i : W64) (ps : List W64) :
    (cfbEnc (fun x => E (seen o x)) [seen o i] ps).take 1 = (cfbEnc E [i] ps).take 1 := by
  match ps with
  | [] => rfl
  | x :: ps => simp [cfbEnc, seen_seen]

theorem seen_big_eq_self (x : W64) : seen .big x = x ↔ (bytesOf64 x).reverse = bytesOf64 x := by
  constructor
  · intro h
    have := congrArg bytesOf64 h
    rwa [seen, swap64, bytesOf64_block64 (by simp)] at this
  · intro h
    rw [seen, swap64, h, block64_bytesOf64]

theorem seen_ne {o o' : ByteOrder} (h : o ≠ o') (x : W64) :
    seen o x = seen o' x ↔ (bytesOf64 x).reverse = bytesOf64 x := by
  rw [← seen_big_eq_self]
  cases o <;> cases o' <;> simp only [ne_eq, not_true_eq_false, reduceCtorEq, not_false_eq_true] at h
  · exact eq_comm
  · exact Iff.rfl

end Goost
