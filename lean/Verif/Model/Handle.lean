import Verif.Model.Walk
/-! # Reading a handle: the variable of the root; the mark bit -/
namespace LBDD

/-- `node_ref::variable()` (include/bdd_node.h:109): the `index` field. On sinks the code returns the sink's marker index; a freed
cell is `ub`. -/
def nodeVar (p : Nat) : M Mgr Nat := do
  let s ← M.get
  if !(s.cells p).live then M.ub else pure (s.cells p).index

/-! The mark bit of a handle's node as the user sees it (include/bdd_node.h:124-127). `marked()`, `mark()` and `unmark()` access the bit of
that one node, also of a sink; `unmark_rec()` is `node_struct::unmark`. The node is alive as long as the handle is. -/

/-- `node_ref::marked()` (include/bdd_node.h:124). -/
def refMarked (p : Nat) : M Mgr Bool := getMark p
/-- `node_ref::mark()` (include/bdd_node.h:125). -/
def refMark (p : Nat) : M Mgr Unit := setMark p true
/-- `node_ref::unmark()` (include/bdd_node.h:126). -/
def refUnmark (p : Nat) : M Mgr Unit := setMark p false
/-- `node_ref::unmark_rec()` (include/bdd_node.h:127). -/
def refUnmarkRec (cfg : Cfg) (p : Nat) : M Mgr Unit := do
  let s ← M.get
  unmark cfg (fuel1 s) p
/-- `address()->mark()` (include/bdd_node.h:91, bdd_node.cpp:151-161): the recursive mark of the node struct. -/
def nodeMark (cfg : Cfg) (p : Nat) : M Mgr Unit := do
  let s ← M.get
  markRec cfg (fuel1 s) p

end LBDD
