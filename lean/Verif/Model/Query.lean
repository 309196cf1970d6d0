import Verif.Model.Api
import Verif.Model.Handle
/-!
# What a client can ask about its handles

The member functions of `bdd_mgr` and `node_ref` that return something other than a handle. Handles are named by their slots, as in Model/Api.lean.
-/
namespace LBDD

/-- A question of the client. -/
inductive Query where
  /-- `mgr.nr_variables()` -/
  | nrVariables
  /-- `slot[i].evaluate(x.begin(), x.end())` -/
  | evaluate (i : Nat) (x : List Bool)
  /-- `slot[i] == slot[j]` -/
  | equal (i j : Nat)
  /-- `slot[i].is_botsink()` -/
  | isBotsink (i : Nat)
  /-- `slot[i].is_topsink()` -/
  | isTopsink (i : Nat)
  /-- `slot[i].is_terminal()` -/
  | isTerminal (i : Nat)
  /-- `slot[i].variable()` -/
  | topVariable (i : Nat)
  /-- `slot[i].nr_nodes()` -/
  | nrNodes (i : Nat)
  /-- `slot[i].variables()` -/
  | variables (i : Nat)
  /-- `slot[i].exactly_one_solution()` -/
  | exactlyOneSolution (i : Nat)

/-- The answer. -/
inductive Answer where
  | num (k : Nat)
  | bool (b : Bool)
  | list (l : List Nat)
  deriving DecidableEq

/-- Call a member function of the handle in slot `i`; a slot that does not exist or is null is `ub`. -/
def onSlot {α : Type} (i : Nat) (m : Nat → M Mgr α) : M Api α := do
  let a ← M.get
  match a.hs[i]? with
  | some (some p) => onMgr (m p)
  | _ => M.ub

/-- `evaluate` as a program (include/bdd_node.h:107, 133-147); it does not change the manager. -/
def evaluateM (cfg : Cfg) (x : List Bool) (p : Nat) : M Mgr Bool := fun s =>
  match LBDD.evaluate cfg s p x with
  | .ok b _ => .ok b s
  | .throw _ => .throw s
  | .assertFail => .assertFail
  | .ub => .ub
  | .hang => .hang

/-- The answer of the library: `nr_variables` (include/bdd_mgr.h:22), `evaluate` (include/bdd_node.h:107), `operator==` (include/bdd_node.h:117: the two
pointers are compared, also null pointers), `is_botsink`, `is_topsink`, `is_terminal` (include/bdd_node.h:95-97), `variable` (include/bdd_node.h:109), `nr_nodes`,
`exactly_one_solution` (include/bdd_node.h:98-99), `variables` (include/bdd_node.h:110). -/
def Query.run (cfg : Cfg) : Query → M Api Answer
  | .nrVariables => do
    let a ← M.get
    pure (.num a.mgr.nvars)
  | .evaluate i x => do
    let b ← onSlot i (evaluateM cfg x)
    pure (.bool b)
  | .equal i j => do
    let a ← M.get
    match a.hs[i]?, a.hs[j]? with
    | some p, some q => pure (.bool (p == q))
    | _, _ => M.ub
  | .isBotsink i => do
    let b ← onSlot i (isBot cfg)
    pure (.bool b)
  | .isTopsink i => do
    let b ← onSlot i (isTop cfg)
    pure (.bool b)
  | .isTerminal i => do
    let b ← onSlot i (isTerm cfg)
    pure (.bool b)
  | .topVariable i => do
    let v ← onSlot i nodeVar
    pure (.num v)
  | .nrNodes i => do
    let k ← onSlot i (LBDD.nrNodes cfg)
    pure (.num k)
  | .variables i => do
    let l ← onSlot i (LBDD.variables cfg)
    pure (.list l)
  | .exactlyOneSolution i => do
    let b ← onSlot i (LBDD.exactlyOneSolution cfg)
    pure (.bool b)

end LBDD
