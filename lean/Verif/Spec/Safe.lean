import Verif.Spec.System
/-!
# Which calls must succeed

`Legal` (see `Spec/Api.lean`) lists the documented or asserted preconditions. `Op.Safe` and `SOp.Safe` add what else is needed so that a call returns: handles that
exist, the right number of arguments, and what the known defects of the code exclude (each with a theorem that shows a call that fails without it).
-/
namespace LBDD

/-- How many handles the function takes. -/
def Fn.Takes : Fn → Nat → Prop
  | .addVariable, k => k = 0
  | .botsink, k => k = 0
  | .topsink, k => k = 0
  | .projection _, k => k = 0
  | .negProjection _, k => k = 0
  | .exportBdd _ _, k => k = 0
  | .importBdd _ _, k => k = 0
  | .uniqueFind _, k => k = 2
  | .and, k => k = 2
  | .or, k => k = 2
  | .xor, k => k = 2
  | .andLimited _, k => k = 2
  | .ite, k => k = 3
  | .andRange, _ => True
  | .orRange, _ => True
  | .xorRange, _ => True
  | .andAll, _ => True
  | .orAll, _ => True
  | .xorAll, _ => True
  | .allFalse, _ => True
  | .atMostOne, _ => True
  | .atLeastOne, _ => True
  | .simplex, _ => True
  | .atLeast _, _ => True
  | .atMost _, _ => True
  | .cardinality _, _ => True
  | .negate, k => k = 1
  | .rebaseMap _, k => k = 1
  | .rebaseVec _, k => k = 1
  | .nrNodes, k => k = 1
  | .nodesPostorder, k => k = 1
  | .nodesBfs, k => k = 1
  | .variables, k => k = 1
  | .exactlyOneSolution, k => k = 1
  | .print, k => k = 1
  | .low, k => k = 1
  | .high, k => k = 1
  | .refBotsink, k => k = 1
  | .refTopsink, k => k = 1

/-- What the function needs beyond `Fn.Pre` in order to return. -/
def Fn.Safe (cfg : Cfg) (u : Use) (s : Mgr) : Fn → List Nat → Prop
  -- finding 3: the last variable of the manager must not occur both in the condition and in a branch
  | .ite, ps => ∀ f g h, ps = [f, g, h] → (∀ w, Occurs s f w → w + 1 < s.nvars) ∨ ∀ w, Occurs s g w ∨ Occurs s h w → w + 1 < s.nvars
  -- debug builds may read the uninitialised mark of a sink
  | .andLimited _, _ => SinkOk cfg
  -- sinks have no children
  | .low, ps => ∀ p ∈ ps, 2 ≤ p
  | .high, ps => ∀ p ∈ ps, 2 ≤ p
  -- at least one instruction besides the two sinks
  | .exportBdd c nr, _ => c.Big nr
  -- debug builds assert that positions are below 1000; the BDDs of a history with `xor_rec` and disjunctions are not considered
  | .importBdd c nr, _ => c.Ordered nr ∧ (∀ d0 d1, c.Entry nr d0 d1 → cfg.ndebug = true ∨ d1 ≤ 1002) ∧ u ≠ .mixed
  | _, _ => True

/-- What the step needs beyond `Legal` in order to succeed. -/
def Op.Safe (cfg : Cfg) (u : Use) (a : Api) : Op → Prop
  -- the handles exist and are not null
  | .call f is => ∃ ps, a.args is = some ps ∧ f.Takes ps.length ∧ f.Safe cfg u a.mgr ps
  | .copy i => i < a.hs.length
  | .move i => i < a.hs.length
  | .assign i j => i < a.hs.length ∧ j < a.hs.length
  | .drop i => i < a.hs.length
  | .gc => True

/-- The step succeeds, or throws because a variable has more than 2^18 nodes. In the second case the user's handles are as before. No assert fails, there is
no undefined behaviour, and the step ends. -/
def Api.Ends (a : Api) : Res Api Unit → Prop
  | .ok _ _ => True
  | .throw a' => TableFull a'.mgr ∧ a'.hs = a.hs
  | .assertFail => False
  | .ub => False
  | .hang => False

/-- What the call of the collection needs beyond `COp.Legal` in order to succeed. -/
def COp.Safe (cfg : Cfg) (c : Coll) : COp → Prop
  -- debug builds assert that the limit is larger than 2 and that the conjunction is not constant
  | .and i j limit => cfg.ndebug = true ∨ (2 < limit ∧ Satisfiable cfg c [i, j] ∧ Refutable cfg c [i, j])
  | .andRange l limit => l ≠ [] ∧ l.length ≤ 49 ∧ (l.length = 1 ∨ cfg.ndebug = true ∨ (2 < limit ∧ Satisfiable cfg c l ∧ Refutable cfg c l))
  | .rebaseVec _ _ => True
  | .rebaseMap _ _ => True
  -- finding 11: unless the last entry is among those removed, `remove` reads past the end
  | .remove l => l = [] ∨ c.nrBdds - 1 ∈ l
  | .orVar _ _ _ => True

/-- The call of the manager that the step amounts to. -/
def SOp.asCall (S : Sys) : SOp → Option Op
  | .mgr op => some op
  | .exportEntry nr => some (.call (.exportBdd S.coll nr) [])
  | .importEntry nr => some (.call (.importBdd S.coll nr) [])
  | .add _ => none
  | .coll _ => none

/-- What the step needs beyond `SOp.Legal` in order to succeed. -/
def SOp.Safe (cfg : Cfg) (u : Use) (S : Sys) : SOp → Prop
  | .mgr op => op.Safe cfg u S.api
  -- the handle exists and is not null
  | .add i => ∃ p, S.api.hs[i]? = some (some p)
  | .exportEntry nr => Op.Safe cfg u S.api (.call (.exportBdd S.coll nr) [])
  | .importEntry nr => Op.Safe cfg u S.api (.call (.importBdd S.coll nr) [])
  | .coll op => op.Safe cfg S.coll

/-- The step throws because a variable of the manager has more than 2^18 nodes; the user's handles are as before. -/
def Sys.Full (cfg : Cfg) (S : Sys) (op : SOp) : Prop :=
  ∃ mop a', op.asCall S = some mop ∧ LBDD.step cfg mop S.api = .throw a' ∧ TableFull a'.mgr ∧ a'.hs = S.api.hs

end LBDD
