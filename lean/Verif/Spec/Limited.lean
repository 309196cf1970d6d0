import Verif.Model.Mgr
/-! Specification vocabulary for the limited conjunction. -/
namespace LBDD

/-- There are `k` ways to walk from `p` to a sink. -/
inductive Paths (cells : Nat → Cell) : Nat → Nat → Prop
  | sink {p : Nat} : p < 2 → Paths cells p 1
  | node {p k l : Nat} : 2 ≤ p → Paths cells (cells p).lo k → Paths cells (cells p).hi l → Paths cells p (k + l)

end LBDD
