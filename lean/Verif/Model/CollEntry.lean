import Verif.Model.CollNav
/-!
# Entry handles and raw access to the instructions of an entry
-/
namespace LBDD

/-- `get_bdd_instructions` (include/bdd_collection.h:154): the pair of iterators, modelled by the instructions between them. No assert in C++; entries that do not
exist read the delimiters out of bounds. The arcs of the sinks of an entry made by `bdd_and` are values that wrapped around in C++ and 0 in the model (`flipInstr`); no theorem
speaks about the arcs of sinks, except that both are equal. -/
def rawInstructions (nr : Nat) : M Coll (List Instr) := do
  let d0 ← dlm nr
  let d1 ← dlm (nr + 1)
  insRange (d1 - d0) d0

/-- `get_reverse_bdd_instructions` (include/bdd_collection.h:155), modelled in the same way. -/
def rawReverse (nr : Nat) : M Coll (List Instr) := do
  let d0 ← dlm nr
  let d1 ← dlm (nr + 1)
  insRange (d1 - d0) d0

/-- `offset(*it)` for the iterator `it = get_bdd_instructions(nr).first + k` (bdd_collection.cpp:9-14). -/
def rawOffset (cfg : Cfg) (nr k : Nat) : M Coll Nat := do
  let d0 ← dlm nr
  let _ ← insAt (d0 + k)
  let c ← M.get
  M.assert cfg.ndebug (decide (d0 + k < c.ins.length))
  pure (d0 + k)

/-- `std::numeric_limits<size_t>::max()`, the default node limit (include/bdd_collection.h:121-124). -/
def noLimit : Nat := 2 ^ 64 - 1

/-- `collection[i] & collection[j]` (bdd_collection.cpp:624-629, 602-607, 544-547); the result is the number of the returned entry. When `bdd_and` gives up it returns
`size_t` max, which the constructor of the entry rejects with an assert in debug builds. -/
def entryAnd (cfg : Cfg) (i j : Nat) : M Coll Nat := do
  mkEntry cfg i
  mkEntry cfg j
  let o ← bddAnd cfg i j noLimit
  let nr := o.getD noLimit
  mkEntry cfg nr
  pure nr

/-- `collection[nr].variables()` (bdd_collection.cpp:609-612). -/
def entryVariables (cfg : Cfg) (nr : Nat) : M Coll (List Nat) := do
  mkEntry cfg nr
  cVariables cfg nr

/-- `collection[nr].nr_nodes()` (bdd_collection.cpp:614-617). -/
def entryNrNodes (cfg : Cfg) (nr : Nat) : M Coll Nat := do
  mkEntry cfg nr
  cNrNodes cfg nr

/-- `collection[nr].nr_nodes(v)` (bdd_collection.cpp:619-622). -/
def entryNrNodesVar (cfg : Cfg) (nr v : Nat) : M Coll Nat := do
  mkEntry cfg nr
  cNrNodesVar cfg nr v

/-- `collection[nr].rebase(begin, end)` (include/bdd_collection.h:418-422). -/
def entryRebaseVec (cfg : Cfg) (nr : Nat) (m : List Nat) : M Coll Unit := do
  mkEntry cfg nr
  cRebaseVec cfg nr m

/-- `collection[nr].rebase(map)` (include/bdd_collection.h:424-428). -/
def entryRebaseMap (cfg : Cfg) (nr : Nat) (m : List (Nat × Nat)) : M Coll Unit := do
  mkEntry cfg nr
  cRebaseMap cfg nr m

/-- `collection[nr][k]` (bdd_collection.cpp:656-661): the node at position `k` of the entry. -/
def entryAt (cfg : Cfg) (nr k : Nat) : M Coll Nat := do
  mkEntry cfg nr
  let d0 ← dlm nr
  mkNode cfg nr (d0 + k)

/-- `operator!=` of nodes of the same collection (bdd_collection.cpp:750-759). -/
def navNe (i j : Nat) : Bool := !(i == j)

end LBDD
