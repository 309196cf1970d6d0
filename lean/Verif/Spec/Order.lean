import Verif.Spec.Heap
/-! # The standard traversal orders of a BDD -/
namespace LBDD

/-- `l` lists the inner nodes met when the BDD at `p` is unfolded to a tree, low child before high child: every node after its children
(`post = true`) or before them (`post = false`). Shared nodes are repeated. -/
inductive Unfolds (c : Nat → Cell) (post : Bool) : Nat → List Nat → Prop
  | sink {p : Nat} : p < 2 → Unfolds c post p []
  | node {p : Nat} {l h : List Nat} : 2 ≤ p → Unfolds c post (c p).lo l → Unfolds c post (c p).hi h →
      Unfolds c post p (if post then l ++ h ++ [p] else p :: (l ++ h))

/-- The children of `q` that are inner nodes, low child first. -/
def innerChildren (c : Nat → Cell) (q : Nat) : List Nat := [(c q).lo, (c q).hi].filter (2 ≤ ·)

end LBDD
