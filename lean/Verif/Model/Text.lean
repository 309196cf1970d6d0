import Verif.Model.Walk
import Verif.Model.Coll
/-!
# The text written by `print` and `export_graphviz`

The characters that arrive at the stream, as a list. Numbers are written with `std::to_string` or `operator<<` for `size_t`: decimal digits without
leading zeros (the stream has no width or base flags set).
-/
namespace LBDD

/-- `std::to_string(n)`, `s << n`. -/
def dec (n : Nat) : List Char := Nat.toDigits 10 n

/-! ## `node_ref::print` -/

/-- The lambda `node_id` of `print_rec` (include/bdd_node.h:166-172). -/
def nodeId (cfg : Cfg) (p : Nat) : M Mgr (List Char) := do
  if ← isBot cfg p then pure "bot".toList
  else if ← isTop cfg p then pure "top".toList
  else do
    let s ← M.get
    if !(s.cells p).live then M.ub
    else pure ("\"".toList ++ dec (s.cells p).index ++ ",".toList ++ dec (cfg.addr p) ++ "\"".toList)

/-- One line of `print_rec` (include/bdd_node.h:174-175): the arc of `p` to `q` with label 0 or 1. The operands of `<<` are written from left to right;
`node_id` has no effect, so that the order in which its calls are evaluated does not matter. -/
def printLine (cfg : Cfg) (p q : Nat) (b : Bool) : M Mgr (List Char) := do
  let i ← nodeId cfg p
  let j ← nodeId cfg q
  pure (i ++ " -> ".toList ++ j ++ (if b then " [label=\"1\"]\n" else " [label=\"0\"]\n").toList)

/-- `if(q->marked_ == 0) q->print_rec(s)` (include/bdd_node.h:177-180). -/
def printIfUnmarked (m : Nat → M Mgr (List Char)) (q : Nat) : M Mgr (List Char) := do
  if ← getMark q then pure [] else m q

/-- `node_struct::print_rec` (include/bdd_node.h:158-181): the characters it writes. -/
def printRec (cfg : Cfg) : Nat → Nat → M Mgr (List Char)
  | 0, _ => M.hang
  | n + 1, p => do
    if ← isTerm cfg p then pure [] else do
    let m ← getMark p
    M.assert cfg.ndebug (!m)
    setMark p true
    let lo ← lowOf p
    let l0 ← printLine cfg p lo false
    let hi ← highOf p
    let l1 ← printLine cfg p hi true
    let t0 ← printIfUnmarked (printRec cfg n) lo
    let t1 ← printIfUnmarked (printRec cfg n) hi
    pure (l0 ++ l1 ++ t0 ++ t1)

/-- `node_struct::print` (include/bdd_node.h:149-156): the characters it writes. -/
def printText (cfg : Cfg) (p : Nat) : M Mgr (List Char) := do
  let s ← M.get
  let t ← printRec cfg (fuel1 s) p
  unmark cfg (fuel1 s) p
  pure ("digraph BDD {\n".toList ++ t ++ "}\n".toList)

/-! ## `bdd_collection::export_graphviz` -/

/-- The line that declares the node at relative position `i` (include/bdd_collection.h:445-460). A terminal that is neither sink is an `assert(false)`
and writes nothing. -/
def gvLabel (e : Instr) (i : Nat) : List Char :=
  if e.isTerm then
    if e.isTop then dec i ++ " [label=\"top\"];\n".toList
    else if e.isBot then dec i ++ " [label=\"bot\"];\n".toList
    else []
  else dec i ++ " [label=\"".toList ++ dec e.index ++ "\"];\n".toList

/-- The key in `clusters` under which the node is filed (include/bdd_collection.h:447, 457): its variable, or `SIZE_MAX`. -/
def gvKey (e : Instr) : Nat := if e.isTerm then 2 ^ 64 - 1 else e.index

/-- The string `clusters[k]` after the first loop (include/bdd_collection.h:442-470). -/
def gvCluster (l : List (Instr × Nat)) (k : Nat) : List Char :=
  (l.filter fun e => gvKey e.1 == k).flatMap fun e => gvLabel e.1 e.2

/-- One iteration of the loop over `clusters` (include/bdd_collection.h:472-478). -/
def gvSubgraph (l : List (Instr × Nat)) (k : Nat) : List Char :=
  "subgraph cluster_".toList ++ dec k ++ " {\n".toList ++ gvCluster l k ++ "color = blue\n".toList ++ "}\n".toList

/-- `cluster_nodes[v]` (include/bdd_collection.h:459): the last inner node of variable `v`. -/
def gvLast (l : List (Instr × Nat)) (v : Nat) : Nat :=
  ((l.filter fun e => !e.1.isTerm && e.1.index == v).getLast?.map (·.2)).getD 0

/-- The invisible arrows between consecutive entries of the sorted `cluster_nodes2` (include/bdd_collection.h:480-486). -/
def gvInvis (l : List (Instr × Nat)) : List Nat → List Char
  | v :: w :: vs => dec (gvLast l v) ++ " -> ".toList ++ dec (gvLast l w) ++ " [style=invis];\n".toList ++ gvInvis l (w :: vs)
  | _ => []

/-- The two arcs of the node at relative position `i` (include/bdd_collection.h:494-495). -/
def gvArcs (d0 : Nat) (e : Instr) (i : Nat) : List Char :=
  if e.isTerm then []
  else dec i ++ " -> ".toList ++ dec (e.hi - d0) ++ ";\n".toList ++
    (dec i ++ " -> ".toList ++ dec (e.lo - d0) ++ "[style=\"dashed\"];\n".toList)

/-- The variables of the inner nodes, increasing: the keys of `cluster_nodes2` (include/bdd_collection.h:481-484). -/
def gvVars (l : List (Instr × Nat)) : List Nat := sortUniq ((l.filter fun e => !e.1.isTerm).map (·.1.index))

/-- `bdd_collection::export_graphviz` (include/bdd_collection.h:432-498): the characters it writes. `order` is the order in which the keys of the
unordered map `clusters` are enumerated, which the library does not fix. Arcs of an entry lie at or behind its begin, so that the subtractions do not
wrap around (`C46`). -/
def graphvizText (cfg : Cfg) (nr : Nat) (order : List Nat → List Nat) : M Coll (List Char) := do
  let c ← M.get
  M.assert cfg.ndebug (decide (nr < c.nrBdds))
  let d0 ← dlm nr
  let d1 ← dlm (nr + 1)
  let es ← insRange (d1 - d0) d0
  M.assert cfg.ndebug (es.all fun e => !e.isTerm || e.isTop || e.isBot)
  let l := es.zipIdx 0
  if es.all (fun e => e.isTerm) then M.ub
  else pure ("digraph BDD\n".toList ++ "{\n".toList ++
    (order (l.map fun e => gvKey e.1).eraseDups).flatMap (gvSubgraph l) ++
    gvInvis l (gvVars l) ++ l.flatMap (fun e => gvArcs d0 e.1 e.2) ++ "}\n".toList)

end LBDD
