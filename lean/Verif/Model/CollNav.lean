import Verif.Model.Coll
/-!
# Handles to the nodes of an entry

A `bdd_collection_node` is modelled by its position; the entry number is passed along.
-/
namespace LBDD

/-- `bdd_collection_node::lo`/`hi` (bdd_collection.cpp:675-685), with the constructor's asserts. -/
def navChild (cfg : Cfg) (nr : Nat) (b : Bool) (i : Nat) : M Coll Nat := do
  let e ← insAt i
  M.assert cfg.ndebug (!e.isTerm)
  mkNode cfg nr (if b then e.hi else e.lo)

/-- `bdd_collection_node::variable` (bdd_collection.cpp:687-690). -/
def navVar (i : Nat) : M Coll Nat := do
  let e ← insAt i
  pure e.index

/-- `bdd_collection_node::is_topsink` (bdd_collection.cpp:697-700). -/
def navIsTop (i : Nat) : M Coll Bool := do
  let e ← insAt i
  pure e.isTop

/-- `bdd_collection_node::is_botsink` (bdd_collection.cpp:692-695). -/
def navIsBot (i : Nat) : M Coll Bool := do
  let e ← insAt i
  pure e.isBot

/-- `bdd_collection_node::is_terminal` (bdd_collection.cpp:702-705). -/
def navIsTerm (i : Nat) : M Coll Bool := do
  let e ← insAt i
  pure e.isTerm

/-- `bdd_collection_entry::first_node_postorder` (bdd_collection.cpp:636-640). The subtraction wraps around in C++ where it is truncated here; the
position is then out of range either way. -/
def navFirst (cfg : Cfg) (nr : Nat) : M Coll Nat := do
  mkEntry cfg nr
  let k ← cNrNodes cfg nr
  M.assert cfg.ndebug (decide (2 < k))
  let d1 ← dlm (nr + 1)
  mkNode cfg nr (d1 - 3)

/-- `bdd_collection_node::next_postorder` (bdd_collection.cpp:743-748). `operator==` compares positions (bdd_collection.cpp:750-754). -/
def navNext (cfg : Cfg) (nr i : Nat) : M Coll Nat := do
  let e ← insAt i
  M.assert cfg.ndebug (!e.isTerm)
  let d0 ← dlm nr
  let r ← mkNode cfg nr d0
  M.assert cfg.ndebug (r != i)
  mkNode cfg nr (i - 1)

end LBDD
