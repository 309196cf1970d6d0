import Verif.Spec.CollApi
/-!
# Building an entry by hand: the client program and what it describes
-/
namespace LBDD

/-- Target of an arc of a node: a constant or the `k`-th node of the new entry. -/
inductive BArc where
  | zero
  | one
  | node (k : Nat)

/-- A node of the entry to build. -/
structure BNode where
  var : Nat
  lo : BArc
  hi : BArc

/-- The entry with nodes `l` describes the value `b` at the arc `a` under the assignment `x`. -/
inductive BEval (l : List BNode) (x : List Bool) : BArc → Bool → Prop
  | zero : BEval l x .zero false
  | one : BEval l x .one true
  | node {k : Nat} {n : BNode} {b v : Bool} : l[k]? = some n → x[n.var]? = some v → BEval l x (if v then n.hi else n.lo) b → BEval l x (.node k) b

/-- The nodes are given root first: arcs point to later nodes. -/
def BForward (l : List BNode) : Prop :=
  ∀ k n k', l[k]? = some n → (n.lo = .node k' ∨ n.hi = .node k') → k < k' ∧ k' < l.length

/-- Set one arc through `entry[k]`: `set_lo_arc`/`set_hi_arc` or `set_lo_to_0_terminal` and so on. -/
def setBArc (cfg : Cfg) (nr k : Nat) (b : Bool) : BArc → M Coll Unit
  | .zero => do let h ← entryNode cfg nr k; setSinkArc cfg h b false
  | .one => do let h ← entryNode cfg nr k; setSinkArc cfg h b true
  | .node j => do
    let h ← entryNode cfg nr k
    let t ← entryNode cfg nr j
    setNodeArc h b t

/-- Set the arcs of the nodes `l`, the first of which is the `k`-th. -/
def setBArcs (cfg : Cfg) (nr : Nat) : Nat → List BNode → M Coll Unit
  | _, [] => pure ()
  | k, n :: l => do
    setBArc cfg nr k false n.lo
    setBArc cfg nr k true n.hi
    setBArcs cfg nr (k + 1) l

/-- `add_bdd_node` for every node. -/
def addBNodes (cfg : Cfg) : List BNode → M Coll Unit
  | [] => pure ()
  | n :: l => do
    let _ ← addBddNode cfg n.var
    addBNodes cfg l

/-- The client program: `new_bdd`, `add_bdd_node` for every node, all arcs through `collection[nr][k]`, `close_bdd`. -/
def buildEntry (cfg : Cfg) (l : List BNode) : M Coll Nat := do
  let nr ← newBdd
  addBNodes cfg l
  setBArcs cfg nr 0 l
  closeBdd cfg
  pure nr

end LBDD
