import Verif.Model.Coll
import Verif.Model.Gc
/-!
# The API as a machine: histories of calls on one manager and on the user's handles

A client of the library owns `node_ref` objects ("handles") and calls member functions of one `bdd_mgr` and of its
handles. `Api` is the manager together with the user's handle objects; `step` is one call.
-/
namespace LBDD

/-- The manager and the user's `node_ref` objects in order of creation: `some p` refers to pool position `p`, `none`
is a null, moved-from or destroyed object (include/bdd_node.h:84-131). -/
structure Api where
  mgr : Mgr
  hs : List (Option Nat)

def Api.init (cfg : Cfg) : Api := ⟨Mgr.init cfg, []⟩

/-- Run manager code in the combined state. -/
def onMgr {α : Type} (m : M Mgr α) : M Api α := fun a =>
  match m a.mgr with
  | .ok r s => .ok r { a with mgr := s }
  | .throw s => .throw { a with mgr := s }
  | .assertFail => .assertFail
  | .ub => .ub
  | .hang => .hang

/-- Functions of `bdd_mgr` (include/bdd_mgr.h:19-88) and of `node_ref` (include/bdd_node.h:84-131) that take handles. -/
inductive Fn where
  | addVariable
  | botsink
  | topsink
  | projection (v : Nat)
  | negProjection (v : Nat)
  | uniqueFind (v : Nat)
  | negate
  | and
  | or
  | xor
  | ite
  | andRange
  | orRange
  | xorRange
  | andAll
  | orAll
  | xorAll
  | allFalse
  | atMostOne
  | atLeastOne
  | simplex
  | atLeast (b : Nat)
  | atMost (b : Nat)
  | cardinality (b : Nat)
  | rebaseMap (m : List (Nat × Nat))
  | rebaseVec (m : List Nat)
  | andLimited (limit : Nat)
  | nrNodes
  | nodesPostorder
  | nodesBfs
  | variables
  | exactlyOneSolution
  | print
  | low
  | high
  | refBotsink
  | refTopsink
  /-- `c.export_bdd(mgr, nr)` for some collection `c` (bdd_collection.cpp:324-363) -/
  | exportBdd (c : Coll) (nr : Nat)
  /-- `mgr.add_bdd(c, nr)` for some collection `c` (bdd_mgr.cpp:397-429) -/
  | importBdd (c : Coll) (nr : Nat)

/-- The nodes to which a call returns handles. A wrong number of arguments does not compile in C++; it is `ub` here. -/
def Fn.run (cfg : Cfg) : Fn → List Nat → M Mgr (List Nat)
  | .addVariable, [] => do let _ ← LBDD.addVariable cfg; pure []
  | .botsink, [] => pure [botId]
  | .topsink, [] => pure [topId]
  | .projection v, [] => do let r ← LBDD.projection cfg v; pure [r]
  | .negProjection v, [] => do let r ← LBDD.negProjection cfg v; pure [r]
  | .uniqueFind v, [l, h] => do let r ← mgrUniqueFind cfg v l h; pure [r]
  | .negate, [f] => do let r ← negateOp cfg f; pure [r]
  | .and, [f, g] => do let r ← andOp cfg f g; pure [r]
  | .or, [f, g] => do let r ← orOp cfg f g; pure [r]
  | .xor, [f, g] => do let r ← xorOp cfg f g; pure [r]
  | .ite, [f, g, h] => do let r ← iteOp cfg f g h; pure [r]
  | .andRange, l => do let r ← LBDD.andRange cfg l; pure [r]
  | .orRange, l => do let r ← LBDD.orRange cfg l; pure [r]
  | .xorRange, l => do let r ← LBDD.xorRange cfg l; pure [r]
  | .andAll, l => do let r ← variadic (andOp cfg) l; pure [r]
  | .orAll, l => do let r ← variadic (orOp cfg) l; pure [r]
  | .xorAll, l => do let r ← variadic (xorOp cfg) l; pure [r]
  | .allFalse, l => do let r ← LBDD.allFalse cfg l; pure [r]
  | .atMostOne, l => do let r ← LBDD.atMostOne cfg l; pure [r]
  | .atLeastOne, l => do let r ← LBDD.atLeastOne cfg l; pure [r]
  | .simplex, l => do let r ← LBDD.simplex cfg l; pure [r]
  | .atLeast b, l => do let r ← LBDD.atLeast cfg l b; pure [r]
  | .atMost b, l => do let r ← LBDD.atMost cfg l b; pure [r]
  | .cardinality b, l => do let r ← LBDD.cardinality cfg l b; pure [r]
  | .rebaseMap m, [f] => do let r ← LBDD.rebaseMap cfg f m; pure [r]
  | .rebaseVec m, [f] => do let r ← LBDD.rebaseVec cfg f m; pure [r]
  | .andLimited n, [f, g] => do
    match ← LBDD.andLimited cfg f g n with
    | some (r, _) => pure [r]
    | none => pure []
  | .nrNodes, [f] => do let _ ← LBDD.nrNodes cfg f; pure []
  | .nodesPostorder, [f] => LBDD.nodesPostorder cfg f
  | .nodesBfs, [f] => LBDD.nodesBfs cfg f
  | .variables, [f] => do let _ ← LBDD.variables cfg f; pure []
  | .exactlyOneSolution, [f] => do let _ ← LBDD.exactlyOneSolution cfg f; pure []
  | .print, [f] => do let _ ← printArcs cfg f; pure []
  | .low, [f] => do let r ← lowOf f; pure [r]
  | .high, [f] => do let r ← highOf f; pure [r]
  | .refBotsink, [f] => do let _ ← findBddMgr cfg f; pure [botId]
  | .refTopsink, [f] => do let _ ← findBddMgr cfg f; pure [topId]
  | .exportBdd c nr, [] => do let r ← LBDD.exportBdd cfg c nr; pure [r]
  | .importBdd c nr, [] => do let r ← mgrAddBdd cfg c nr; pure [r]
  | _, _ => M.ub

/-- Construct a handle object for node `p` (bdd_node.cpp:264-269). -/
def pushHandle (p : Nat) : M Api Unit := do
  onMgr (acquire p)
  M.modify fun a => { a with hs := a.hs ++ [some p] }

def pushHandles : List Nat → M Api Unit
  | [] => pure ()
  | p :: ps => do
    pushHandle p
    pushHandles ps

/-- What the handle objects in the given slots refer to; `none` if one of them is null. -/
def Api.args (a : Api) (is : List Nat) : Option (List Nat) := is.mapM fun i => (a.hs[i]?).join

/-- One step of the client. -/
inductive Op where
  /-- call a function on the handles in slots `args` and keep the handles it returns -/
  | call (f : Fn) (args : List Nat)
  /-- copy-construct a handle from slot `i` (bdd_node.cpp:271-276) -/
  | copy (i : Nat)
  /-- move-construct a handle from slot `i` (bdd_node.cpp:287-290) -/
  | move (i : Nat)
  /-- `slot[i] = slot[j]` (bdd_node.cpp:296-304) -/
  | assign (i j : Nat)
  /-- destroy the handle in slot `i` (bdd_node.cpp:278-285) -/
  | drop (i : Nat)
  /-- `mgr.collect_garbage()` (bdd_mgr.cpp:389-395) -/
  | gc

/-- `ref->xref--` in `node_ref::operator=` (bdd_node.cpp:298-299), without an assert. -/
def releaseNoAssert (p : Nat) : M Mgr Unit :=
  M.modify fun s => { s with cells := upd s.cells p { s.cells p with xref := (s.cells p).xref - 1 } }

def optM {σ : Type} (o : Option Nat) (f : Nat → M σ Unit) : M σ Unit :=
  match o with
  | some p => f p
  | none => pure ()

/-- One step. Using a slot that was never created is `ub`; calling a function on a null handle dereferences a null
pointer (`ub`). -/
def step (cfg : Cfg) : Op → M Api Unit
  | .call f is => do
    let a ← M.get
    match a.args is with
    | none => M.ub
    | some ps => do
      let rs ← onMgr (f.run cfg ps)
      pushHandles rs
  | .copy i => do
    let a ← M.get
    match a.hs[i]? with
    | none => M.ub
    | some o => do
      onMgr (optM o acquire)
      M.modify fun a => { a with hs := a.hs ++ [o] }
  | .move i => do
    let a ← M.get
    match a.hs[i]? with
    | none => M.ub
    | some o => M.set { a with hs := a.hs.set i none ++ [o] }
  | .assign i j => do
    let a ← M.get
    match a.hs[i]?, a.hs[j]? with
    | some oi, some oj => do
      onMgr (optM oi releaseNoAssert)
      -- `o.ref` is read after the decrement: for `i = j` it is unchanged
      onMgr (optM oj acquire)
      M.modify fun a => { a with hs := a.hs.set i oj }
    | _, _ => M.ub
  | .drop i => do
    let a ← M.get
    match a.hs[i]? with
    | none => M.ub
    | some o => do
      onMgr (optM o (release cfg))
      M.modify fun a => { a with hs := a.hs.set i none }
  | .gc => onMgr (collectGarbage cfg)

/-- A history. -/
def steps (cfg : Cfg) : List Op → M Api Unit
  | [] => pure ()
  | o :: os => do
    step cfg o
    steps cfg os

end LBDD
