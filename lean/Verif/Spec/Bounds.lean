import Verif.Spec.Heap
/-! Specification vocabulary for bounds on the number of nodes. -/
namespace LBDD

/-- The inner nodes in use. -/
def Mgr.inUse (s : Mgr) : List Nat := (List.range s.pool.hw).filter fun p => decide (2 ≤ p) && (s.cells p).live

end LBDD
