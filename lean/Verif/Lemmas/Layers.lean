import Verif.Spec.Layers
import Verif.Spec.Streams
import Verif.Lemmas.Sinks
import Verif.Lemmas.Sources
/-
Helper lemmas about stacks of layers.
-/
namespace Goost
open Goost.Magma Goost.Layers Spec Spec.Magma Spec.Modes
variable {W σ τ : Type}

theorem computes_roundFunctions {key : Key} (h : Usable key) : Computes key (roundFunctions key) := by
  intro v i
  obtain ⟨r, hr⟩ := h v i
  simp [roundFunctions, hr]

theorem Layer_dec_enc (l : Layer) (p : List W64) : Layer.dec l (Layer.enc l p) = p := by
  cases l with
  | ecb key => simp only [Layer.dec, Layer.enc, ecb, List.map_map]
               rw [show (decF (roundFunctions key) ∘ encF (roundFunctions key)) = id from
                 funext fun x => decF_encF _ x, List.map_id]
  | cfb key ivl ivr => exact cfbDec_cfbEnc _ _ _ (by simp)
  | gostCfb key iv => exact cfbDec_cfbEnc _ _ _ (by simp)

theorem stackDec_stackEnc (ls : List Layer) (p : List W64) : stackDec ls (stackEnc ls p) = p := by
  induction ls generalizing p with
  | nil => rfl
  | cons l ls ih =>
    show Layer.dec l (stackDec ls (stackEnc ls (Layer.enc l p))) = p
    rw [ih, Layer_dec_enc]

theorem pieces_flatten (c : List W64) : (c.map bytesOf64).flatten = unblocks64 c := rfl

/-- Writes of single blocks to one layer over any sink, then `finalize`. -/
theorem ECBSink_writes_eq (wr : τ → List Byte → Io W τ) {key : Key} {f} (h : Computes key f)
    (s : τ) (ds : List (List Byte)) (hd : ∀ d ∈ ds, d.length % 8 = 0) :
    writeAll (ECBSink.write wr) ⟨s, key⟩ ds =
      writeAll wr s ((ecb (encF f) (blocks64 ds.flatten)).map bytesOf64) >>= fun s =>
        pure ⟨s, key⟩ := by
  have e : ∀ t : ECBSink τ, writeAll (ECBSink.write wr) t ds = ECBSink.write wr t ds.flatten := by
    clear h
    induction ds with
    | nil => intro t; rfl
    | cons d ds ih =>
      intro t
      rw [writeAll_cons, List.flatten_cons, ECBSink_write_append wr t d _ (hd d (by simp))]
      congr 1
      funext t
      exact ih (fun x hx => hd x (by simp [hx])) t
  have hl : ds.flatten.length % 8 = 0 := by
    clear e
    induction ds with
    | nil => rfl
    | cons d ds ih =>
      have h1 := hd d (by simp)
      have h2 := ih fun x hx => hd x (by simp [hx])
      rw [List.flatten_cons, List.length_append]
      omega
  rw [e, ECBSink_write_eq wr h]
  simp only [hl, if_true]
  rfl

theorem whole_flatten {ds : List (List Byte)} (hd : ∀ d ∈ ds, d.length % 8 = 0) :
    ds.flatten.length % 8 = 0 := by
  induction ds with
  | nil => rfl
  | cons d ds ih =>
    have h1 := hd d (by simp)
    have h2 := ih fun x hx => hd x (by simp [hx])
    rw [List.flatten_cons, List.length_append]
    omega

theorem pieces_whole (c : List W64) : ∀ d ∈ c.map bytesOf64, d.length % 8 = 0 := by
  intro x hx
  obtain ⟨y, -, rfl⟩ := List.mem_map.1 hx
  simp

/-- Writing data to a stack that is not empty, then finalizing all its layers. -/
theorem Sinks_step (m : Machine) (wr : τ → List Byte → Io W τ) (s : τ) (l : Layer) (ls : List Layer)
    (hl : Layer.Usable l) (ds : List (List Byte)) (hd : ds.flatten.length % 8 = 0)
    (hp : Layer.AnySizes l ∨ ∀ d ∈ ds, d.length % 8 = 0) :
    (writeAll (Sinks.write m wr (l :: ls)) (Sinks.new s (l :: ls)) ds >>=
        Sinks.finalize m wr (l :: ls)) =
      writeAll (Sinks.write m wr ls) (Sinks.new s ls)
          ((Layer.enc l (blocks64 ds.flatten)).map bytesOf64) >>= Sinks.finalize m wr ls := by
  have hrest : ds.flatten.drop (8 * (ds.flatten.length / 8)) = [] :=
    List.drop_of_length_le (by omega)
  obtain ⟨hu, hz⟩ := hl
  have hc := computes_roundFunctions hu
  cases l with
  | ecb key =>
    have hc : Computes key (roundFunctions key) := hc
    have hz : key.isLazy = true := hz
    rcases hp with hp | hp
    · exact hp.elim
    · show (writeAll (ECBSink.write (Sinks.write m wr ls)) ⟨Sinks.new s ls, key⟩ ds >>= fun t =>
        ECBSink.finalize t >>= Sinks.finalize m wr ls) = _
      rw [ECBSink_writes_eq _ hc _ ds hp, bind_assoc]
      rfl
  | cfb key ivl ivr =>
    have hc : Computes key (roundFunctions key) := hc
    have hz : key.isLazy = true := hz
    show (writeAll (CFBSink.write m (Sinks.write m wr ls)) (CFBSink.new (Sinks.new s ls) key ivl ivr)
      ds >>= fun t => CFBSink.finalize m (Sinks.write m wr ls) t >>= Sinks.finalize m wr ls) = _
    rw [CFBSink_writes_eq m _ hc hz ds _ ivl ivr _ rfl, bind_assoc]
    simp only [hrest, pure_bind, CFBSink.finalize, ne_eq, not_true_eq_false, if_false]
    rfl
  | gostCfb key iv =>
    have hc : Computes key (roundFunctions key) := hc
    have hz : key.isLazy = true := hz
    show (writeAll (Gost89.CFBSink.write m (Sinks.write m wr ls))
      (Gost89.CFBSink.new (Sinks.new s ls) key iv)
      ds >>= fun t => Gost89.CFBSink.finalize m (Sinks.write m wr ls) t >>= Sinks.finalize m wr ls) = _
    rw [gost89_CFBSink_writes_eq m _ hc hz ds _ iv _ rfl, bind_assoc]
    simp only [hrest, pure_bind, Gost89.CFBSink.finalize, ne_eq, not_true_eq_false, if_false]
    rfl

/-- Single blocks. -/
theorem Sinks_blocks (m : Machine) (wr : τ → List Byte → Io W τ) (s : τ) (ls : List Layer)
    (hl : ∀ l ∈ ls, Layer.Usable l) (p : List W64) :
    (writeAll (Sinks.write m wr ls) (Sinks.new s ls) (p.map bytesOf64) >>=
        Sinks.finalize m wr ls) = writeAll wr s ((stackEnc ls p).map bytesOf64) := by
  induction ls generalizing p with
  | nil =>
    show (writeAll wr s (p.map bytesOf64) >>= fun t => pure t) = _
    rw [bind_pure]; rfl
  | cons l ls ih =>
    rw [Sinks_step m wr s l ls (hl l (by simp)) _ (whole_flatten (pieces_whole p))
      (.inr (pieces_whole p)), ih (fun x hx => hl x (by simp [hx])), pieces_flatten,
      blocks64_unblocks64]
    rfl

theorem Sources_step (m : Machine) (rd : σ → Nat → Io W (List Byte × σ)) (s : σ) (w : W) (l : Layer)
    (ls : List Layer) (hl : Layer.Usable l) (c : List W64)
    (h : SuppliesBlocks (Sources.read m rd ls) (Sources.new s ls) w (unblocks64 c)) :
    SuppliesBlocks (Sources.read m rd (l :: ls)) (Sources.new s (l :: ls)) w
        (unblocks64 (Layer.dec l c)) ∧
    (Layer.AnySizes l → Supplies (Sources.read m rd (l :: ls)) (Sources.new s (l :: ls)) w
        (unblocks64 (Layer.dec l c))) := by
  obtain ⟨hu, hz⟩ := hl
  have hc := computes_roundFunctions hu
  have h8 : (unblocks64 c).length % 8 = 0 := by rw [unblocks64_length]; omega
  cases l with
  | ecb key =>
    refine ⟨?_, fun h => h.elim⟩
    have := ECBSource_supplies hc hz m _ _ w _ h h8
    rwa [ecbPlain, blocks64_unblocks64] at this
  | cfb key ivl ivr =>
    have := CFBSource_supplies m _ hc hz _ w _ h h8 ivl ivr
    rw [cfbPlain, blocks64_unblocks64] at this
    exact ⟨this.blocks, fun _ => this⟩
  | gostCfb key iv =>
    have := gost89_CFBSource_supplies m _ hc hz _ w _ h h8 iv
    rw [cfbPlain, blocks64_unblocks64] at this
    exact ⟨this.blocks, fun _ => this⟩

theorem Sources_blocks (m : Machine) (rd : σ → Nat → Io W (List Byte × σ)) (s : σ) (w : W)
    (ls : List Layer) (hl : ∀ l ∈ ls, Layer.Usable l) (c : List W64)
    (h : SuppliesBlocks rd s w (unblocks64 c)) :
    SuppliesBlocks (Sources.read m rd ls) (Sources.new s ls) w (unblocks64 (stackDec ls c)) := by
  induction ls with
  | nil => exact h
  | cons l ls ih =>
    exact (Sources_step m rd s w l ls (hl l (by simp)) _ (ih fun x hx => hl x (by simp [hx]))).1

end Goost
