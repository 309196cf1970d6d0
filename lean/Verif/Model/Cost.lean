import Verif.Model.Coll
import Verif.Model.Walk
/-!
# Numbers of recursive calls

The recursive functions of the library once more, with a counter that is increased at the start of every call. Theorems in Proof/Cost.lean show that
without the counter they are the functions of the other model files.
-/
namespace LBDD

/-- A program with a counter: the outcome and the number of counted calls (also of a run that does not return). -/
def MK (σ α : Type) : Type := σ → Res σ α × Nat

namespace MK
variable {σ α β : Type}

def pure (a : α) : MK σ α := fun s => (.ok a s, 0)

def bind (m : MK σ α) (f : α → MK σ β) : MK σ β := fun s =>
  match m s with
  | (.ok a s', k) => ((f a s').1, k + (f a s').2)
  | (.throw s', k) => (.throw s', k)
  | (.assertFail, k) => (.assertFail, k)
  | (.ub, k) => (.ub, k)
  | (.hang, k) => (.hang, k)

instance : Monad (MK σ) where
  pure := MK.pure
  bind := MK.bind

/-- Count one call. -/
def tick : MK σ Unit := fun s => (.ok () s, 1)

/-- A program without counted calls. -/
def of (m : M σ α) : MK σ α := fun s => (m s, 0)

end MK

/-! ## Manager -/

/-- The two arguments of a C++ call, as `args2`. -/
def args2K (cfg : Cfg) (m1 m2 : MK Mgr Nat) : MK Mgr (Nat × Nat) :=
  if cfg.rtl then do
    let b ← m2
    let a ← m1
    pure (a, b)
  else do
    let a ← m1
    let b ← m2
    pure (a, b)

/-- `bdd_mgr::negate` (bdd_mgr.cpp:41-53), counting the calls of `negate`. -/
def negateRecK (cfg : Cfg) : Nat → Nat → MK Mgr Nat
  | 0, _ => .of M.hang
  | n + 1, p => do
    MK.tick
    if ← .of (isBot cfg p) then pure topId
    else if ← .of (isTop cfg p) then pure botId
    else do
      let s ← .of M.get
      let v := (s.cells p).index
      .of (M.assert cfg.ndebug (v < s.nvars))
      let a ← args2K cfg (do let l ← .of (lowOf p); negateRecK cfg n l) (do let h ← .of (highOf p); negateRecK cfg n h)
      .of (uniqueFind cfg v a.1 a.2)

/-- `mgr.negate(p)`. -/
def negateOpK (cfg : Cfg) (p : Nat) : MK Mgr Nat := do
  let s ← .of M.get
  negateRecK cfg (fuel1 s) p

/-- `if(q->marked_ == 0) q->impl(...)` -/
def ifUnmarkedK (m : Nat → MK Mgr (List Nat)) (q : Nat) : MK Mgr (List Nat) := do
  if ← .of (getMark q) then pure [] else m q

/-- The recursion of `nr_nodes_impl` (bdd_node.cpp:41-56), `nodes_postorder_impl` (bdd_node.cpp:68-80), `variables_impl` (bdd_node.cpp:190-202) and
`print_rec` (include/bdd_node.h:159-183), counting their calls. -/
def visitK (cfg : Cfg) (post : Bool) : Nat → Nat → MK Mgr (List Nat)
  | 0, _ => .of M.hang
  | n + 1, p => do
    MK.tick
    if ← .of (isTerm cfg p) then pure [] else do
    let m ← .of (getMark p)
    .of (M.assert cfg.ndebug (!m))
    .of (setMark p true)
    let lo ← .of (lowOf p)
    let a ← ifUnmarkedK (visitK cfg post n) lo
    let hi ← .of (highOf p)
    let b ← ifUnmarkedK (visitK cfg post n) hi
    pure (if post then a ++ b ++ [p] else p :: (a ++ b))

/-- `node_struct::unmark` (bdd_node.cpp:163-173), counting its calls. -/
def unmarkK (cfg : Cfg) : Nat → Nat → MK Mgr Unit
  | 0, _ => .of M.hang
  | n + 1, p => do
    MK.tick
    if ← .of (isTerm cfg p) then pure () else do
    if ← .of (getMark p) then do
      .of (setMark p false)
      let lo ← .of (lowOf p)
      unmarkK cfg n lo
      let hi ← .of (highOf p)
      unmarkK cfg n hi
    else pure ()

/-- `node_struct::nr_nodes` (bdd_node.cpp:33-39), counting the calls of `nr_nodes_impl` and `unmark`. -/
def nrNodesK (cfg : Cfg) (p : Nat) : MK Mgr Nat := do
  let s ← .of M.get
  let m ← .of (getMark p)
  .of (M.assert cfg.ndebug (!m))
  let l ← visitK cfg false (fuel1 s) p
  unmarkK cfg (fuel1 s) p
  pure l.length

/-- `assert(n.size() == nr_nodes())` (bdd_node.cpp:64, 110), counting as `nrNodesK`. -/
def assertCountK (cfg : Cfg) (p k : Nat) : MK Mgr Unit :=
  if cfg.ndebug then pure () else do
    let n ← nrNodesK cfg p
    .of (M.assert cfg.ndebug (k == n))

/-- `node_struct::nodes_postorder` (bdd_node.cpp:58-66), counting the calls of `nodes_postorder_impl`, `unmark` and (debug builds)
`nr_nodes_impl`. -/
def nodesPostorderK (cfg : Cfg) (p : Nat) : MK Mgr (List Nat) := do
  let s ← .of M.get
  let m ← .of (getMark p)
  .of (M.assert cfg.ndebug (!m))
  let l ← visitK cfg true (fuel1 s) p
  unmarkK cfg (fuel1 s) p
  assertCountK cfg p l.length
  pure l

/-- Loop of `node_struct::nodes_bfs` (bdd_node.cpp:90-107), counting its iterations. -/
def bfsLoopK (cfg : Cfg) : Nat → List Nat → List Nat → MK Mgr (List Nat)
  | _, [], acc => pure acc
  | 0, _ :: _, _ => .of M.hang
  | n + 1, p :: dq, acc => do
    MK.tick
    let m ← .of (getMark p)
    .of (M.assert cfg.ndebug m)
    let lo ← .of (lowOf p)
    let dq1 ← .of (bfsPush cfg lo dq)
    let hi ← .of (highOf p)
    let dq2 ← .of (bfsPush cfg hi dq1)
    bfsLoopK cfg n dq2 (acc ++ [p])

/-- `node_struct::nodes_bfs` (bdd_node.cpp:82-112), counting iterations and calls. -/
def nodesBfsK (cfg : Cfg) (p : Nat) : MK Mgr (List Nat) := do
  let s ← .of M.get
  let m ← .of (getMark p)
  .of (M.assert cfg.ndebug (!m))
  .of (setMark p true)
  let l ← bfsLoopK cfg ((s.pool.pages - 1) * 4096 + s.pool.off + 1) [p] []
  unmarkK cfg (fuel1 s) p
  assertCountK cfg p l.length
  pure l

/-- `node_struct::variables` (bdd_node.cpp:180-188), counting the calls of `variables_impl` and `unmark`. -/
def variablesK (cfg : Cfg) (p : Nat) : MK Mgr (List Nat) := do
  let s ← .of M.get
  let l ← visitK cfg false (fuel1 s) p
  unmarkK cfg (fuel1 s) p
  pure (sortUniq (l.map fun q => (s.cells q).index))

/-! ## Collection -/

/-- Common tail of the two `bdd_and_impl` (bdd_collection.cpp:77-107 and 246-280). -/
def andTailK (limit : Nat) (rec : List Nat → MK Coll (Option Nat)) (key : List Nat) (es : List Instr) (v : Nat) :
    MK Coll (Option Nat) := do
  match ← rec (cofC false v key es) with
  | none => pure none
  | some lo =>
    match ← rec (cofC true v key es) with
    | none => pure none
    | some hi =>
      if lo = hi then pure (some lo) else do
      let c ← .of M.get
      match c.red.lookup ⟨lo, hi, v⟩ with
      | some m => pure (some m)
      | none => do
        .of (M.set { c with stack := c.stack ++ [⟨lo, hi, v⟩] })
        if limit < c.stack.length + 1 then pure none else do
        .of (M.modify fun c' => { c' with gen := insertNew c'.gen key c.stack.length, red := insertNew c'.red ⟨lo, hi, v⟩ c.stack.length })
        pure (some c.stack.length)

/-- `bdd_collection::bdd_and_impl(f_i, g_i, node_limit)` (bdd_collection.cpp:54-108), counting its calls. -/
def andImpl2K (limit : Nat) : Nat → List Nat → MK Coll (Option Nat)
  | 0, _ => .of M.hang
  | n + 1, [f, g] => do
    MK.tick
    let c ← .of M.get
    match c.gen.lookup [f, g] with
    | some m => pure (some m)
    | none => do
      let ef ← .of (insAt f)
      let eg ← .of (insAt g)
      if ef.isTerm && eg.isTerm then
        if ef.isTop && eg.isTop then pure (some 1) else pure (some 0)
      else if ef.isTerm && !eg.isTerm then
        if ef.isBot then pure (some 0)
        else if !ef.isTerm && eg.isTerm then
          if eg.isBot then pure (some 0)
          else andTailK limit (andImpl2K limit n) [f, g] [ef, eg] (min ef.index eg.index)
        else andTailK limit (andImpl2K limit n) [f, g] [ef, eg] (min ef.index eg.index)
      else andTailK limit (andImpl2K limit n) [f, g] [ef, eg] (min ef.index eg.index)
  | _ + 1, _ => .of M.ub

/-- `bdd_collection::bdd_and(i, j, node_limit)` (bdd_collection.cpp:16-51), counting the calls of `bdd_and_impl`. -/
def bddAndK (cfg : Cfg) (i j limit : Nat) : MK Coll (Option Nat) := do
  .of (andStart cfg [i, j] limit)
  let ds ← .of (dlms [i, j])
  let c ← .of M.get
  let r ← andImpl2K limit (andFuel c ds) ds
  .of (andFinish cfg r)

/-- The N-ary `bdd_and_impl` (bdd_collection.cpp:209-280), counting its calls. -/
def andImplNK (limit : Nat) : Nat → List Nat → MK Coll (Option Nat)
  | 0, _ => .of M.hang
  | n + 1, key => do
    MK.tick
    let c ← .of M.get
    match c.gen.lookup key with
    | some m => pure (some m)
    | none => do
      let es ← .of (insAll key)
      if es.all (fun e => e.isTop) then pure (some 1)
      else if es.any (fun e => e.isBot) then pure (some 0)
      else andTailK limit (andImplNK limit n) key es ((es.map (·.index)).foldl min cTop)

/-- `bdd_collection::bdd_and(array, node_limit)` (bdd_collection.cpp:110-153), counting the calls of `bdd_and_impl`. -/
def bddAndNK (cfg : Cfg) (l : List Nat) (limit : Nat) : MK Coll (Option Nat) := do
  .of (andStart cfg l limit)
  let ds ← .of (dlms l)
  let c ← .of M.get
  let r ← andImplNK limit (andFuel c ds) ds
  .of (andFinish cfg r)

end LBDD
