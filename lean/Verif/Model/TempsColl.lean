import Verif.Model.Temps
import Verif.Model.Coll
/-!
# `bdd_collection::add_bdd` with its temporary `node_ref` objects

As Model/Temps.lean; in addition the vector `nodes` and the member `node_ref_hash` hold handles during the call.
-/
namespace LBDD

/-- The scope of an existing handle in code that works on a collection (bdd_node.cpp:278-285); see `holding`. -/
def holdingB {α : Type} (cfg : Cfg) (p : Nat) (m : M (Mgr × Coll) α) : M (Mgr × Coll) α := fun s =>
  match m s with
  | .ok a s' => (do onM (release cfg p); pure a : M (Mgr × Coll) α) s'
  | .throw s' => (do onM (release cfg p); M.throw : M (Mgr × Coll) α) s'
  | .assertFail => .assertFail
  | .ub => .ub
  | .hang => .hang

/-- The scope of a copy of a handle (bdd_node.cpp:271-285). -/
def withCopyB {α : Type} (cfg : Cfg) (p : Nat) (m : M (Mgr × Coll) α) : M (Mgr × Coll) α := do
  onM (acquire p)
  holdingB cfg p m

/-- The scope of a vector of handles: the elements are destroyed in order, so the first one has the innermost scope. -/
def holdingVec {α : Type} (cfg : Cfg) : List Nat → M (Mgr × Coll) α → M (Mgr × Coll) α
  | [], m => m
  | p :: ps, m => holdingVec cfg ps (holdingB cfg p m)

/-- `std::swap` of handles to `p` and `q` (bdd_node.cpp:287-303): there is no move assignment, so the two assignments of `std::swap` copy, and the
destructor of the temporary releases the handle to `p` again. -/
def swapRefs (cfg : Cfg) (p q : Nat) : M Mgr Unit := do
  acquire q
  releaseNoAssert q
  acquire p
  release cfg p

/-- The swaps of `std::reverse` (bdd_collection.cpp:287), as pairs of nodes. -/
def reverseRefs (cfg : Cfg) : List (Nat × Nat) → M Mgr Unit
  | [] => pure ()
  | (p, q) :: l => do
    swapRefs cfg p q
    reverseRefs cfg l

/-- `node_ref_hash.insert({n, bdd_instructions.size()})` for a handle to `p` in the temporary pair (bdd_collection.cpp:291, 296, 300). The key in
the map is `const`, so it is a copy of the handle in the pair, which is destroyed at the end of the statement. -/
def hashInsert (p : Nat) : M (Mgr × Coll) Unit := do
  let s ← M.get
  if (s.2.nrh.lookup p).isSome then pure ()
  else do
    onM (acquire p)
    M.modify fun s => (s.1, { s.2 with nrh := insertNew s.2.nrh p s.2.ins.length })

/-- First loop (bdd_collection.cpp:288-293). -/
def addNodesT (cfg : Cfg) : List Nat → M (Mgr × Coll) Unit
  | [] => pure ()
  | p :: ps => do
    M.assert cfg.ndebug (!(← onM (isTerm cfg p)))
    withCopyB cfg p (hashInsert p)
    M.modify fun s => (s.1, { s.2 with ins := s.2.ins ++ [⟨cTop, cTop, (s.1.cells p).index⟩] })
    addNodesT cfg ps

/-- Append a sink (bdd_collection.cpp:296-302): `nodes.back().botsink()` returns a new handle. -/
def addSinkT (cfg : Cfg) (p : Nat) (e : Instr) : M (Mgr × Coll) Unit := do
  let r ← onM (newRef p)
  holdingB cfg r (hashInsert r)
  M.modify fun s => (s.1, { s.2 with ins := s.2.ins ++ [e] })

/-- `node_ref_hash.find(nodes[i].low())` (bdd_collection.cpp:307-312): `nodes[i].low()` is a temporary. -/
def hashFind (cfg : Cfg) (child : M Mgr Nat) : M (Mgr × Coll) (Option Nat) := do
  let l ← onM child
  withCopyB cfg l do
    let s ← M.get
    pure (s.2.nrh.lookup l)

/-- The four assertions of the second loop (bdd_collection.cpp:307-310), in debug builds. -/
def arcAsserts (cfg : Cfg) (i p : Nat) : M (Mgr × Coll) Unit :=
  if cfg.ndebug then pure () else do
    M.assert cfg.ndebug (← hashFind cfg (lowOf p)).isSome
    M.assert cfg.ndebug (← hashFind cfg (highOf p)).isSome
    match ← hashFind cfg (lowOf p) with
    | none => M.ub
    | some a => M.assert cfg.ndebug (decide (i < a))
    match ← hashFind cfg (highOf p) with
    | none => M.ub
    | some b => M.assert cfg.ndebug (decide (i < b))

/-- `bdd_instructions[j].lo = ...->second` or `.hi = ...`, where `o` is what `find` returned (bdd_collection.cpp:311-312). -/
def putArc (j : Nat) (o : Option Nat) (f : Instr → Nat → Instr) : M (Mgr × Coll) Unit := do
  let s ← M.get
  match o, s.2.ins[j]? with
  | some a, some e => M.set (s.1, { s.2 with ins := s.2.ins.set j (f e a) })
  | _, _ => M.ub

/-- Second loop (bdd_collection.cpp:305-313): set the arcs, one after the other. -/
def addArcsT (cfg : Cfg) (offset : Nat) : Nat → List Nat → M (Mgr × Coll) Unit
  | _, [] => pure ()
  | i, p :: ps => do
    arcAsserts cfg i p
    putArc (offset + i) (← hashFind cfg (lowOf p)) fun e a => { e with lo := a }
    putArc (offset + i) (← hashFind cfg (highOf p)) fun e b => { e with hi := b }
    addArcsT cfg offset (i + 1) ps

/-- `node_ref_hash.clear()` (bdd_collection.cpp:318): the keys are destroyed. -/
def releaseKeys (cfg : Cfg) : List (Nat × Nat) → M Mgr Unit
  | [] => pure ()
  | k :: l => do
    release cfg k.1
    releaseKeys cfg l

/-- `bdd_collection::add_bdd` (bdd_collection.cpp:282-322): `root` is passed by value, `nodes` lives until the end of the call. -/
def addBddT (cfg : Cfg) (p : Nat) : M (Mgr × Coll) Nat := withCopyB cfg p do
  let s ← M.get
  M.assert cfg.ndebug (decide (s.2.del.getLast? = some s.2.ins.length))
  let post ← onM (do let l ← nodesPostorder cfg p; convertRefs cfg l; pure l)
  holdingVec cfg post.reverse do
    onM (reverseRefs cfg ((post.zip post.reverse).take (post.length / 2)))
    let nodes := post.reverse
    addNodesT cfg nodes
    match nodes.getLast? with
    | none => M.ub
    | some q => do
      let _ ← onM (findBddMgr cfg q)
      addSinkT cfg botId botInstr
      let _ ← onM (findBddMgr cfg q)
      addSinkT cfg topId topInstr
      let offset ← onC dlmBack
      addArcsT cfg offset 0 nodes
      M.modify fun s => (s.1, { s.2 with del := s.2.del ++ [s.2.ins.length] })
      let s ← M.get
      onM (releaseKeys cfg s.2.nrh)
      M.modify fun s => (s.1, { s.2 with nrh := [] })
      let s ← M.get
      M.assert cfg.ndebug (s.2.isBdd (s.2.del.length - 2))
      let k ← onC (if cfg.ndebug then pure 0 else cNrNodes cfg (s.2.del.length - 2))
      M.assert cfg.ndebug (k == nodes.length + 2)
      pure (s.2.del.length - 2)

end LBDD
