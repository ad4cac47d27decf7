import Verif.Model.Memory
/-
Specification for C99: what a program can still get at.
-/
namespace Spec.Mem
open Goost.Mem

/-- The objects that the pointer variables lead to: those they point to, and the members of those. -/
inductive Reach (s : State) : Ptr → Prop
  | held {p : Ptr} (h : p ∈ s.held) : Reach s p
  | member {p q : Ptr} {c : Cell} (hp : Reach s p) (hc : s.heap[p]? = some c)
      (hq : q ∈ c.obj.members) : Reach s q

/-- Object `p` exists: it has been made and not been destroyed. -/
def Exists (s : State) (p : Ptr) : Prop := ∃ c, s.heap[p]? = some c ∧ c.count ≠ 0

/-- `b` is the stream of words that the iterator `p`, or the iterator that it wraps, and so on, was
made by. -/
inductive Base (s : State) : Ptr → Ptr → Prop
  | memory {p b d : Ptr} {offset n : Nat} (h : s.heap[p]? = some ⟨.itMemory b offset d, n⟩) :
      Base s p b
  | ctr {p i k c b : Ptr} {n : Nat} (h : s.heap[p]? = some ⟨.itCtr (some i) k c, n⟩)
      (hi : Base s i b) : Base s p b

/-- The iterator `p` is at the word number `offset / 8` of the stream of words `b` and wrapped in layers
of counter mode with the keys `keys`, the outermost first. -/
inductive At (s : State) : Ptr → Ptr → Nat → List Ptr → Prop
  | memory {p b d : Ptr} {offset n : Nat} (h : s.heap[p]? = some ⟨.itMemory b offset d, n⟩) :
      At s p b offset []
  | ctr {p i k c b : Ptr} {offset n : Nat} {keys : List Ptr}
      (h : s.heap[p]? = some ⟨.itCtr (some i) k c, n⟩) (hi : At s i b offset keys) :
      At s p b offset (k :: keys)

/-- The stream `p` is the stream of words `b` wrapped in layers of counter mode with the keys `keys`. -/
inductive Over (s : State) : Ptr → Ptr → List Ptr → Prop
  | memory {p : Ptr} {data : List (BitVec 64)} {n : Nat} (h : s.heap[p]? = some ⟨.stMemory data, n⟩) :
      Over s p p []
  | ctr {p i k b : Ptr} {n : Nat} {keys : List Ptr} (h : s.heap[p]? = some ⟨.stCtr i k, n⟩)
      (hi : Over s i b keys) : Over s p b (k :: keys)

end Spec.Mem
