import Verif.Model.Kuznyechik
/-
Specification: which block belongs to which cache.
-/
namespace Spec
open Goost Goost.Kuz

/-- The caches inside the block are objects of the system `own`: the cache object `id` wraps the
block `own id`. (Every `BlkCached` keeps the block that it was made with, so that the objects of
a program always form such a system.) -/
def Owned (own : Nat → Blk) : Blk → Prop
  | .raw _ _ => True
  | .str _ => True
  | .xored a b => Owned own a ∧ Owned own b
  | .blkS b => Owned own b
  | .blkR b => Owned own b
  | .incremented b => Owned own b
  | .shifted b _ => Owned own b
  | .xoredIfHighBit a b => Owned own a ∧ Owned own b
  | .cached id b => own id = b ∧ Owned own b
  | .user _ => True

/-- The block has no caches inside. -/
def Plain : Blk → Prop
  | .raw _ _ => True
  | .str _ => True
  | .xored a b => Plain a ∧ Plain b
  | .blkS b => Plain b
  | .blkR b => Plain b
  | .incremented b => Plain b
  | .shifted b _ => Plain b
  | .xoredIfHighBit a b => Plain a ∧ Plain b
  | .cached _ _ => False
  | .user _ => True

/-- No cache is loaded. -/
def noneLoaded : Caches := fun _ => none

end Spec
