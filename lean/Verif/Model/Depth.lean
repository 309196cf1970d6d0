import Verif.Model.Mgr
/-!
# Model of the node-depth table

File modelled: src/bdd_node_depth.cpp, include/bdd_node_depth.h.
-/
namespace LBDD

/-- `bdd_node_depth::depth` (bdd_node_depth.h:21): an `unordered_map` from node addresses to depths. The state also has the manager, whose nodes
are read. -/
structure DepthTab where
  mgr : Mgr
  depth : Nat → Option Nat

/-- Run a read-only function of the nodes. -/
def DepthTab.read {α : Type} (m : M Mgr α) : M DepthTab α := fun d =>
  match m d.mgr with
  | .ok r _ => .ok r d
  | .throw _ => .throw d
  | .assertFail => .assertFail
  | .ub => .ub
  | .hang => .hang

/-- `unordered_map::insert`: keeps an existing entry. -/
def DepthTab.insert (p n : Nat) : M DepthTab Unit :=
  M.modify fun d => { d with depth := match d.depth p with
    | some _ => d.depth
    | none => upd d.depth p (some n) }

/-- `node_struct::is_terminal` (bdd_node.h:47, bdd_node.cpp:123-142). -/
def isTerminal (cfg : Cfg) (p : Nat) : M Mgr Bool := do
  if ← isTop cfg p then pure true else isBot cfg p

/-- `assert(m)` for a call `m` that itself contains asserts: not evaluated in release builds. -/
def DepthTab.check (cfg : Cfg) (m : M Mgr Bool) : M DepthTab Unit :=
  if cfg.ndebug then pure () else do
    let b ← DepthTab.read m
    M.assert false b

/-- `bdd_node_depth::add_node` (bdd_node_depth.cpp:7-16). The arcs of a sink or freed node, and the end iterator, must not be dereferenced. The
`assert`ed calls of `is_terminal` are made in debug builds only. -/
def addNode (cfg : Cfg) (p : Nat) : M DepthTab Nat := do
  let d ← M.get
  let c := d.mgr.cells p
  DepthTab.check cfg (do let t ← isTerminal cfg p; pure (!t))
  if !c.live || topsinkIndex ≤ c.index then M.ub else do
  M.assert cfg.ndebug (d.depth c.lo).isSome
  M.assert cfg.ndebug (d.depth c.hi).isSome
  M.assert cfg.ndebug (d.depth p).isNone
  match d.depth c.lo, d.depth c.hi with
  | some a, some b => do
    DepthTab.insert p (max a b + 1)
    pure (max a b + 1)
  | _, _ => M.ub

/-- `bdd_node_depth::add_botsink` (bdd_node_depth.cpp:18-23). -/
def addBotsink (cfg : Cfg) (p : Nat) : M DepthTab Unit := do
  let d ← M.get
  DepthTab.check cfg (isBot cfg p)
  M.assert cfg.ndebug (d.depth p).isNone
  DepthTab.insert p 0

/-- `bdd_node_depth::add_topsink` (bdd_node_depth.cpp:25-30). -/
def addTopsink (cfg : Cfg) (p : Nat) : M DepthTab Unit := do
  let d ← M.get
  DepthTab.check cfg (isTop cfg p)
  M.assert cfg.ndebug (d.depth p).isNone
  DepthTab.insert p 0

end LBDD
