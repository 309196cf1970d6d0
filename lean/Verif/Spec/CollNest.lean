import Verif.Spec.Coll
import Verif.Model.Coll
/-! Specification vocabulary for the nesting depth of the conjunctions of a collection. -/
namespace LBDD

/-- A path of `k` arcs from position `i` to position `j`. -/
inductive CPath (ins : List Instr) : Nat → Nat → Nat → Prop
  | refl (i : Nat) : CPath ins i i 0
  | lo {i j k : Nat} {e : Instr} : ins[i]? = some e → e.Inner → CPath ins e.lo j k → CPath ins i j (k + 1)
  | hi {i j k : Nat} {e : Instr} : ins[i]? = some e → e.Inner → CPath ins e.hi j k → CPath ins i j (k + 1)

/-- No path in entry `nr` has more than `d` arcs. -/
def Coll.DepthAtMost (c : Coll) (nr d : Nat) : Prop := ∀ d0, c.del[nr]? = some d0 → ∀ q k, CPath c.ins d0 q k → k ≤ d

/-- `bdd_and(i, j, node_limit)` (bdd_collection.cpp:16-51) with room for `n` nested calls of `bdd_and_impl` (`hang` if more are needed). -/
def bddAndWithin (cfg : Cfg) (n i j limit : Nat) : M Coll (Option Nat) := do
  andStart cfg [i, j] limit
  let ds ← dlms [i, j]
  let r ← andImpl2 limit n ds
  andFinish cfg r

/-- `bdd_and(array, node_limit)` (bdd_collection.cpp:110-153) with room for `n` nested calls of `bdd_and_impl`. -/
def bddAndNWithin (cfg : Cfg) (n : Nat) (l : List Nat) (limit : Nat) : M Coll (Option Nat) := do
  andStart cfg l limit
  let ds ← dlms l
  let r ← andImplN limit n ds
  andFinish cfg r

end LBDD
