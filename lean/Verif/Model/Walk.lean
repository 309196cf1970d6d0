import Verif.Model.Build
/-!
# Model of the traversals of include/bdd_node.h, src/bdd_node.cpp, of `rebase` and of `and_rec_limited`
-/
namespace LBDD

/-- `node_struct::is_terminal` (include/bdd_node.h:47). -/
def isTerm (cfg : Cfg) (p : Nat) : M Mgr Bool := do
  if ← isTop cfg p then pure true else isBot cfg p

def getMark (p : Nat) : M Mgr Bool := fun s => .ok (s.marks p) s
def setMark (p : Nat) (b : Bool) : M Mgr Unit := M.modify fun s => { s with marks := upd s.marks p b }

/-- `if(q->marked_ == 0) q->impl(...)` -/
def ifUnmarked (m : Nat → M Mgr (List Nat)) (q : Nat) : M Mgr (List Nat) := do
  if ← getMark q then pure [] else m q

/-- The common recursion of `nr_nodes_impl` (bdd_node.cpp:41-56), `nodes_postorder_impl` (bdd_node.cpp:68-80),
`variables_impl` (bdd_node.cpp:190-202) and `print_rec` (include/bdd_node.h:159-183): visit unmarked nodes depth
first, low child before high child. The result lists the visited nodes in the order in which the C++ function records
them: before the children (`post = false`) or after them (`post = true`); `nr_nodes_impl` returns the
length of this list. -/
def visit (cfg : Cfg) (post : Bool) : Nat → Nat → M Mgr (List Nat)
  | 0, _ => M.hang
  | n + 1, p => do
    if ← isTerm cfg p then pure [] else do
    let m ← getMark p
    M.assert cfg.ndebug (!m)
    setMark p true
    let lo ← lowOf p
    let a ← ifUnmarked (visit cfg post n) lo
    let hi ← highOf p
    let b ← ifUnmarked (visit cfg post n) hi
    pure (if post then a ++ b ++ [p] else p :: (a ++ b))

/-- `node_struct::unmark` (bdd_node.cpp:163-173). -/
def unmark (cfg : Cfg) : Nat → Nat → M Mgr Unit
  | 0, _ => M.hang
  | n + 1, p => do
    if ← isTerm cfg p then pure () else do
    if ← getMark p then do
      setMark p false
      let lo ← lowOf p
      unmark cfg n lo
      let hi ← highOf p
      unmark cfg n hi
    else pure ()

/-- `node_struct::mark` (bdd_node.cpp:151-161). -/
def markRec (cfg : Cfg) : Nat → Nat → M Mgr Unit
  | 0, _ => M.hang
  | n + 1, p => do
    if ← isTerm cfg p then pure () else do
    if ← getMark p then pure () else do
      setMark p true
      let lo ← lowOf p
      markRec cfg n lo
      let hi ← highOf p
      markRec cfg n hi

/-- `node_struct::nr_nodes` (bdd_node.cpp:33-39). -/
def nrNodes (cfg : Cfg) (p : Nat) : M Mgr Nat := do
  let s ← M.get
  let m ← getMark p
  M.assert cfg.ndebug (!m)
  let l ← visit cfg false (fuel1 s) p
  unmark cfg (fuel1 s) p
  pure l.length

/-- `assert(n.size() == nr_nodes())` (bdd_node.cpp:64, 110): the call is made only in debug builds. -/
def assertCount (cfg : Cfg) (p k : Nat) : M Mgr Unit :=
  if cfg.ndebug then pure () else do
    let n ← nrNodes cfg p
    M.assert cfg.ndebug (k == n)

/-- `node_struct::nodes_postorder` (bdd_node.cpp:58-66). -/
def nodesPostorder (cfg : Cfg) (p : Nat) : M Mgr (List Nat) := do
  let s ← M.get
  let m ← getMark p
  M.assert cfg.ndebug (!m)
  let l ← visit cfg true (fuel1 s) p
  unmark cfg (fuel1 s) p
  assertCount cfg p l.length
  pure l

/-- `if(!q->is_terminal() && q->marked_ == 0) { dq.push_back(q); q->marked_ = 1; }` (bdd_node.cpp:97-106). -/
def bfsPush (cfg : Cfg) (q : Nat) (dq : List Nat) : M Mgr (List Nat) := do
  if ← isTerm cfg q then pure dq else do
  if ← getMark q then pure dq else do
    setMark q true
    pure (dq ++ [q])

/-- Loop of `node_struct::nodes_bfs` (bdd_node.cpp:90-107). -/
def bfsLoop (cfg : Cfg) : Nat → List Nat → List Nat → M Mgr (List Nat)
  | _, [], acc => pure acc
  | 0, _ :: _, _ => M.hang
  | n + 1, p :: dq, acc => do
    let m ← getMark p
    M.assert cfg.ndebug m
    let lo ← lowOf p
    let dq1 ← bfsPush cfg lo dq
    let hi ← highOf p
    let dq2 ← bfsPush cfg hi dq1
    bfsLoop cfg n dq2 (acc ++ [p])

/-- `node_struct::nodes_bfs` (bdd_node.cpp:82-112). -/
def nodesBfs (cfg : Cfg) (p : Nat) : M Mgr (List Nat) := do
  let s ← M.get
  let m ← getMark p
  M.assert cfg.ndebug (!m)
  setMark p true
  let l ← bfsLoop cfg ((s.pool.pages - 1) * 4096 + s.pool.off + 1) [p] []
  unmark cfg (fuel1 s) p
  assertCount cfg p l.length
  pure l

/-- `v.erase(std::unique(v.begin(), v.end()), v.end())`: drop consecutive repetitions. -/
def uniq : List Nat → List Nat
  | [] => []
  | [a] => [a]
  | a :: b :: l => if a = b then uniq (b :: l) else a :: uniq (b :: l)

/-- `std::sort` followed by `std::unique` (bdd_node.cpp:185-186). -/
def sortUniq (l : List Nat) : List Nat := uniq (l.mergeSort (fun a b => decide (a ≤ b)))

/-- `node_struct::variables` (bdd_node.cpp:180-188). -/
def variables (cfg : Cfg) (p : Nat) : M Mgr (List Nat) := do
  let s ← M.get
  let l ← visit cfg false (fuel1 s) p
  unmark cfg (fuel1 s) p
  pure (sortUniq (l.map fun q => (s.cells q).index))

/-- `node_struct::print` (include/bdd_node.h:149-183): the list of arcs written, as (from, label, to). -/
def printArcs (cfg : Cfg) (p : Nat) : M Mgr (List (Nat × Bool × Nat)) := do
  let s ← M.get
  let l ← visit cfg false (fuel1 s) p
  unmark cfg (fuel1 s) p
  pure (l.flatMap fun q => [(q, false, (s.cells q).lo), (q, true, (s.cells q).hi)])

/-- `node_struct::exactly_one_solution` (bdd_node.cpp:204-216). -/
def exactlyOne (cfg : Cfg) : Nat → Nat → M Mgr Bool
  | 0, _ => M.hang
  | n + 1, p => do
    if ← isTop cfg p then pure true
    else if ← isBot cfg p then pure false
    else do
      let lo ← lowOf p
      let hi ← highOf p
      if ← isBot cfg lo then exactlyOne cfg n hi
      else if ← isBot cfg hi then exactlyOne cfg n lo
      else pure false

/-- `node_struct::exactly_one_solution` called on a handle. -/
def exactlyOneSolution (cfg : Cfg) (p : Nat) : M Mgr Bool := do
  let s ← M.get
  exactlyOne cfg (fuel1 s) p

/-- `node_struct::find_bdd_mgr` (bdd_node.cpp:255-262). The result is the sink whose manager pointer is returned. -/
def findMgr (cfg : Cfg) : Nat → Nat → M Mgr Nat
  | 0, _ => M.hang
  | n + 1, p => do
    if ← isTerm cfg p then pure p else do
    let lo ← lowOf p
    if ← isTerm cfg lo then pure lo else do
      let hi ← highOf p
      findMgr cfg n hi

/-- `node_ref::find_bdd_mgr` (include/bdd_node.h:100). -/
def findBddMgr (cfg : Cfg) (p : Nat) : M Mgr Nat := do
  let s ← M.get
  findMgr cfg (fuel1 s) p

/-! ## Renaming variables -/

/-- The copy loop of both `rebase` functions (include/bdd_mgr.h:113-123, 141-151); `look` is the variable map,
`nm` the node map. A missing key is an `assert`, and dereferences the end iterator without asserts. -/
def rebaseLoop (cfg : Cfg) (look : Nat → Option Nat) : List Nat → List (Nat × Nat) → M Mgr (List (Nat × Nat))
  | [], nm => pure nm
  | p :: ps, nm => do
    let s ← M.get
    match look (s.cells p).index, nm.lookup (s.cells p).lo, nm.lookup (s.cells p).hi with
    | some v, some l, some h => do
      let r ← uniqueFind cfg v l h
      rebaseLoop cfg look ps ((p, r) :: nm)
    | _, _, _ => do
      M.assert cfg.ndebug false
      M.ub

/-- Second half of both `rebase` functions (include/bdd_mgr.h:108-125, 137-153). -/
def rebaseWith (cfg : Cfg) (look : Nat → Option Nat) (p : Nat) : M Mgr Nat := do
  let l ← nodesPostorder cfg p
  let nm ← rebaseLoop cfg look l [(botId, botId), (topId, topId)]
  match nm.lookup p with
  | some r => pure r
  | none => M.ub

/-- `rebase(p, var_map)` with a hash map (include/bdd_mgr.h:99-126), given as a list of pairs. -/
def rebaseMap (cfg : Cfg) (p : Nat) (m : List (Nat × Nat)) : M Mgr Nat := do
  ensureVar cfg ((m.map (·.2)).foldl max 0)
  rebaseWith cfg (fun v => m.lookup v) p

/-- `assert(p.variables().back() <= nr_vars)` (include/bdd_mgr.h:132), evaluated in debug builds only. -/
def assertBack (cfg : Cfg) (p k : Nat) : M Mgr Unit :=
  if cfg.ndebug then pure () else do
    let l ← variables cfg p
    match l.getLast? with
    | none => M.ub
    | some v => M.assert cfg.ndebug (decide (v ≤ k))

/-- `rebase(p, begin, end)` with a vector (include/bdd_mgr.h:128-154). `*std::max_element` of an empty range is `ub`. -/
def rebaseVec (cfg : Cfg) (p : Nat) (m : List Nat) : M Mgr Nat := do
  assertBack cfg p m.length
  match m with
  | [] => M.ub
  | a :: m' => do
    ensureVar cfg (m'.foldl max a)
    rebaseWith cfg (fun v => (a :: m')[v]?) p

/-! ## Limited conjunction -/

/-- `bdd_mgr::and_rec_limited` (bdd_mgr.cpp:103-162). `none` is `{nullptr, SIZE_MAX}`. The node counts are added
without wrap-around (simplification). -/
def andLimRec (cfg : Cfg) (limit : Nat) : Nat → Nat → Nat → M Mgr (Option (Nat × Nat))
  | 0, _, _ => M.hang
  | n + 1, f, g =>
    if f = g then do
      let k ← nrNodes cfg f
      if limit < k then pure none else pure (some (f, k))
    else if cfg.addr g < cfg.addr f then andLimRec cfg limit n g f
    else if f = topId then do
      let k ← nrNodes cfg g
      pure (some (g, k))
    else if f = botId then pure (some (botId, 0))
    else if g = topId then do
      let k ← nrNodes cfg f
      pure (some (f, k))
    else if g = botId then pure (some (botId, 0))
    else do
      match ← cacheLookup cfg f g andTag with
      | some m => do
        let k ← nrNodes cfg m
        if k ≤ limit then pure (some (m, k)) else pure none
      | none => do
        let fv ← varOf f
        let gv ← varOf g
        let v := pickMin fv gv
        let f0 ← lowIf (v == fv) f
        let g0 ← lowIf (v == gv) g
        match ← andLimRec cfg limit n f0 g0 with
        | none => pure none
        | some (r0, k0) =>
          if limit < k0 then pure none else do
          let f1 ← highIf (v == fv) f
          let g1 ← highIf (v == gv) g
          match ← andLimRec cfg limit n f1 g1 with
          | none => pure none
          | some (r1, k1) =>
            if limit < k0 + k1 then pure none else do
            let r ← uniqueFind cfg v r0 r1
            cacheInsert cfg f g andTag r
            pure (some (r, k0 + k1))

/-- `mgr.and_rec_limited(f, g, limit)`. -/
def andLimited (cfg : Cfg) (f g limit : Nat) : M Mgr (Option (Nat × Nat)) := do
  let s ← M.get
  andLimRec cfg limit (fuel2 s) f g

end LBDD
