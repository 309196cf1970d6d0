import Verif.Model.Walk
/-!
# Model of `bdd_collection` (include/bdd_collection.h, src/bdd_collection.cpp) and of `bdd_mgr::add_bdd`

`std::vector`s are lists; `operator[]` out of range is `ub`. `std::unordered_map`s are association lists.
All sizes are unbounded natural numbers: no vector reaches 2^63 elements, so the `size_t`/`ptrdiff_t` arithmetic on positions does
not wrap, except for the arcs of sinks, see `flipInstr`.
-/
namespace LBDD

/-- include/bdd_collection.h:15: `botsink_index`. -/
def cBot : Nat := 2 ^ 64 - 2
/-- include/bdd_collection.h:19: `topsink_index`. -/
def cTop : Nat := 2 ^ 64 - 1
/-- include/bdd_collection.h:31: `temp_undefined_index`. -/
def cUndef : Nat := 2 ^ 64 - 3

/-- `bdd_instruction` (include/bdd_collection.h:10-32). -/
structure Instr where
  lo : Nat
  hi : Nat
  index : Nat
  deriving DecidableEq

/-- include/bdd_collection.h:16 -/
def Instr.isBot (e : Instr) : Bool := e.index == cBot
/-- include/bdd_collection.h:20 -/
def Instr.isTop (e : Instr) : Bool := e.index == cTop
/-- include/bdd_collection.h:23 -/
def Instr.isTerm (e : Instr) : Bool := e.lo == e.hi
/-- include/bdd_collection.h:17 -/
def botInstr : Instr := ⟨cBot, cBot, cBot⟩
/-- include/bdd_collection.h:21 -/
def topInstr : Instr := ⟨cTop, cTop, cTop⟩

/-- `bdd_collection` (include/bdd_collection.h:174-184): instructions, delimiters and the working memory that is reused between
calls (`stack`, `generated_nodes`, `reduction`, `node_ref_hash`). The keys of `node_ref_hash` are pool positions. -/
structure Coll where
  ins : List Instr
  del : List Nat
  stack : List Instr
  gen : List (List Nat × Nat)
  red : List (Instr × Nat)
  nrh : List (Nat × Nat)

/-- A new `bdd_collection` (include/bdd_collection.h:175). -/
def Coll.init : Coll := ⟨[], [0], [], [], [], []⟩

/-- `nr_bdds()` (include/bdd_collection.h:134). -/
def Coll.nrBdds (c : Coll) : Nat := c.del.length - 1

/-- `std::unordered_map::insert`: an existing key is kept. -/
def insertNew {κ : Type} [BEq κ] (m : List (κ × Nat)) (k : κ) (a : Nat) : List (κ × Nat) :=
  if (m.lookup k).isSome then m else (k, a) :: m

/-- `bdd_delimiters[i]` -/
def dlm (i : Nat) : M Coll Nat := fun c =>
  match c.del[i]? with
  | some d => .ok d c
  | none => .ub

/-- `bdd_instructions[i]` -/
def insAt (i : Nat) : M Coll Instr := fun c =>
  match c.ins[i]? with
  | some e => .ok e c
  | none => .ub

/-- `bdd_delimiters.back()` -/
def dlmBack : M Coll Nat := fun c =>
  match c.del.getLast? with
  | some d => .ok d c
  | none => .ub

/-- Loop of `is_bdd` (bdd_collection.cpp:421-445) over `n` positions from `i`, with the set `seen` of instructions. -/
def isBddLoop (c : Coll) (d0 d1 : Nat) : Nat → Nat → List Instr → Bool
  | 0, _, _ => true
  | n + 1, i, seen =>
    match c.ins[i]? with
    | none => false
    | some e =>
      if e.isTerm then false
      else if e.lo ≤ i || e.hi ≤ i then false
      else if d1 ≤ e.lo || d1 ≤ e.hi || e.lo < d0 || e.hi < d0 then false
      else if seen.contains e then false
      else isBddLoop c d0 d1 n (i + 1) (e :: seen)

/-- `bdd_collection::is_bdd` (bdd_collection.cpp:408-448), used in asserts only. (Out-of-range reads, which cannot occur when the
delimiters are within the vector, make the model return false.) -/
def Coll.isBdd (c : Coll) (nr : Nat) : Bool :=
  match c.del[nr]?, c.del[nr + 1]? with
  | some d0, some d1 =>
    if d1 - d0 < 2 then false
    else match c.ins[d1 - 1]?, c.ins[d1 - 2]? with
      | some a, some b =>
        if !a.isTerm || !b.isTerm || a == b then false
        else isBddLoop c d0 d1 (d1 - 2 - d0) d0 []
      | _, _ => false
  | _, _ => false

/-! ## Queries -/

/-- `bdd_collection::evaluate` (include/bdd_collection.h:187-205), loop from position `i`; `n` bounds the number of iterations. -/
def cEvalLoop (cfg : Cfg) (c : Coll) (x : List Bool) : Nat → Nat → Res Unit Bool
  | 0, _ => .hang
  | n + 1, i =>
    match c.ins[i]? with
    | none => .ub
    | some e =>
      if e.isTop then .ok true ()
      else if e.isBot then .ok false ()
      else match x[e.index]? with
        | none => if cfg.ndebug then .ub else .assertFail
        | some true => cEvalLoop cfg c x n e.hi
        | some false => cEvalLoop cfg c x n e.lo

/-- `bdd_collection::evaluate` (include/bdd_collection.h:187-205). -/
def cEvaluate (cfg : Cfg) (c : Coll) (nr : Nat) (x : List Bool) : Res Unit Bool :=
  if !cfg.ndebug && decide (c.nrBdds ≤ nr) then .assertFail
  else match c.del[nr]? with
    | none => .ub
    | some d => cEvalLoop cfg c x (c.ins.length + 1) d

/-- `bdd_collection::nr_bdd_nodes(nr)` (bdd_collection.cpp:392-396). -/
def cNrNodes (cfg : Cfg) (nr : Nat) : M Coll Nat := do
  let c ← M.get
  M.assert cfg.ndebug (decide (nr < c.nrBdds))
  let d1 ← dlm (nr + 1)
  let d0 ← dlm nr
  pure (d1 - d0)

/-- Instructions at the `n` positions from `i` on, in order; `ub` if one does not exist. -/
def insRange : Nat → Nat → M Coll (List Instr)
  | 0, _ => pure []
  | n + 1, i => do
    let e ← insAt i
    let l ← insRange n (i + 1)
    pure (e :: l)

/-- `bdd_collection::nr_bdd_nodes(nr, variable)` (bdd_collection.cpp:398-406). -/
def cNrNodesVar (cfg : Cfg) (nr v : Nat) : M Coll Nat := do
  let c ← M.get
  M.assert cfg.ndebug (decide (nr < c.nrBdds))
  let d0 ← dlm nr
  let d1 ← dlm (nr + 1)
  let l ← insRange (d1 - d0) d0
  pure (l.filter (fun e => e.index == v)).length

/-- Loop of `variables` (bdd_collection.cpp:530-536): append unless equal to the last element. -/
def pushVars : List Instr → List Nat → List Nat
  | [], acc => acc
  | e :: l, acc => pushVars l (if acc.getLast? = some e.index then acc else acc ++ [e.index])

/-- `bdd_collection::variables` (bdd_collection.cpp:527-542). -/
def cVariables (cfg : Cfg) (nr : Nat) : M Coll (List Nat) := do
  let c ← M.get
  M.assert cfg.ndebug (decide (nr < c.nrBdds))
  let d0 ← dlm nr
  let d1 ← dlm (nr + 1)
  let l ← insRange (d1 - 2 - d0) d0
  let vs := pushVars l []
  M.assert cfg.ndebug (decide (vs ≠ []))
  pure (sortUniq vs)

/-- Constructor of `bdd_collection_node` with its asserts (bdd_collection.cpp:667-673), for entry `nr`, position `i`. -/
def mkNode (cfg : Cfg) (nr i : Nat) : M Coll Nat := do
  let d1 ← dlm (nr + 1)
  let d0 ← dlm nr
  M.assert cfg.ndebug (decide (i < d1))
  M.assert cfg.ndebug (decide (d0 ≤ i))
  pure i

/-- Constructor of `bdd_collection_entry` (bdd_collection.cpp:602-607), `operator[]` (bdd_collection.cpp:544-547). -/
def mkEntry (cfg : Cfg) (nr : Nat) : M Coll Unit := do
  let c ← M.get
  M.assert cfg.ndebug (decide (nr < c.nrBdds))

/-- `collection[nr].botsink()` (bdd_collection.cpp:642-647): a position. -/
def entryBotsink (cfg : Cfg) (nr : Nat) : M Coll Nat := do
  mkEntry cfg nr
  let d1 ← dlm (nr + 1)
  let i ← mkNode cfg nr (d1 - 2)
  let e ← insAt i
  M.assert cfg.ndebug e.isBot
  pure i

/-- `collection[nr].topsink()` (bdd_collection.cpp:649-654). -/
def entryTopsink (cfg : Cfg) (nr : Nat) : M Coll Nat := do
  mkEntry cfg nr
  let d1 ← dlm (nr + 1)
  let i ← mkNode cfg nr (d1 - 1)
  let e ← insAt i
  M.assert cfg.ndebug e.isTop
  pure i

/-- `collection[nr].root_node()` (bdd_collection.cpp:631-634). -/
def entryRoot (cfg : Cfg) (nr : Nat) : M Coll Nat := do
  mkEntry cfg nr
  let d0 ← dlm nr
  mkNode cfg nr d0

/-- `export_graphviz` (include/bdd_collection.h:432-498): the visible arcs written, as (from, dashed, to), positions relative to the
entry, in order. Without inner nodes `cluster_nodes2.size()-1` wraps around and the loop reads past the end. -/
def graphvizArcs (cfg : Cfg) (nr : Nat) : M Coll (List (Nat × Bool × Nat)) := do
  let c ← M.get
  M.assert cfg.ndebug (decide (nr < c.nrBdds))
  let d0 ← dlm nr
  let d1 ← dlm (nr + 1)
  let l ← insRange (d1 - d0) d0
  M.assert cfg.ndebug (l.all fun e => !e.isTerm || e.isTop || e.isBot)
  if l.all (fun e => e.isTerm) then M.ub
  else pure ((l.zipIdx 0).flatMap fun (e, i) =>
    if e.isTerm then [] else [(i, false, e.hi - d0), (i, true, e.lo - d0)])

/-! ## Conjunction -/

/-- `f.index == v ? f.lo : bdds[i]` for all operands (bdd_collection.cpp:79-83, 86-90, 246-251, 256-261). -/
def cofC (b : Bool) (v : Nat) : List Nat → List Instr → List Nat
  | k :: ks, e :: es => (if e.index = v then (if b then e.hi else e.lo) else k) :: cofC b v ks es
  | _, _ => []

/-- Common tail of the two `bdd_and_impl` (bdd_collection.cpp:77-107 and 246-280). `none` is `SIZE_MAX`. -/
def andTail (limit : Nat) (rec : List Nat → M Coll (Option Nat)) (key : List Nat) (es : List Instr) (v : Nat) :
    M Coll (Option Nat) := do
  match ← rec (cofC false v key es) with
  | none => pure none
  | some lo =>
    match ← rec (cofC true v key es) with
    | none => pure none
    | some hi =>
      if lo = hi then pure (some lo) else do
      let c ← M.get
      match c.red.lookup ⟨lo, hi, v⟩ with
      | some m => pure (some m)
      | none => do
        M.set { c with stack := c.stack ++ [⟨lo, hi, v⟩] }
        if limit < c.stack.length + 1 then pure none else do
        M.modify fun c' => { c' with gen := insertNew c'.gen key c.stack.length, red := insertNew c'.red ⟨lo, hi, v⟩ c.stack.length }
        pure (some c.stack.length)

/-- `bdd_collection::bdd_and_impl(f_i, g_i, node_limit)` (bdd_collection.cpp:54-108), including the misplaced `else`. -/
def andImpl2 (limit : Nat) : Nat → List Nat → M Coll (Option Nat)
  | 0, _ => M.hang
  | n + 1, [f, g] => do
    let c ← M.get
    match c.gen.lookup [f, g] with
    | some m => pure (some m)
    | none => do
      let ef ← insAt f
      let eg ← insAt g
      if ef.isTerm && eg.isTerm then
        if ef.isTop && eg.isTop then pure (some 1) else pure (some 0)
      else if ef.isTerm && !eg.isTerm then
        if ef.isBot then pure (some 0)
        else if !ef.isTerm && eg.isTerm then
          if eg.isBot then pure (some 0)
          else andTail limit (andImpl2 limit n) [f, g] [ef, eg] (min ef.index eg.index)
        else andTail limit (andImpl2 limit n) [f, g] [ef, eg] (min ef.index eg.index)
      else andTail limit (andImpl2 limit n) [f, g] [ef, eg] (min ef.index eg.index)
  | _ + 1, _ => M.ub

/-- `bdd_instrs[i] = bdd_instructions[bdds[i]]` (bdd_collection.cpp:216-218). -/
def insAll : List Nat → M Coll (List Instr)
  | [] => pure []
  | k :: ks => do
    let e ← insAt k
    let es ← insAll ks
    pure (e :: es)

/-- The N-ary `bdd_and_impl` (bdd_collection.cpp:209-280). -/
def andImplN (limit : Nat) : Nat → List Nat → M Coll (Option Nat)
  | 0, _ => M.hang
  | n + 1, key => do
    let c ← M.get
    match c.gen.lookup key with
    | some m => pure (some m)
    | none => do
      let es ← insAll key
      if es.all (fun e => e.isTop) then pure (some 1)
      else if es.any (fun e => e.isBot) then pure (some 0)
      else andTail limit (andImplN limit n) key es ((es.map (·.index)).foldl min cTop)

/-- `offset + stack.size() - x - 1` for both arcs (bdd_collection.cpp:36-39). For the two sinks C++ wraps around and gets some other
value, again the same for both arcs; the arcs of a sink are only ever compared with each other. -/
def flipInstr (k : Nat) (e : Instr) : Instr := ⟨k - e.lo - 1, k - e.hi - 1, e.index⟩

def clearTemps (c : Coll) : Coll := { c with stack := [], gen := [], red := [] }

/-- Second half of `bdd_and` (bdd_collection.cpp:30-50, 132-152). The N-ary version keeps its `generated_nodes` in a local variable
(line 129); the model uses the (empty) member and clears it. -/
def andFinish (cfg : Cfg) (root : Option Nat) : M Coll (Option Nat) := do
  match root with
  | none => do
    M.modify clearTemps
    pure none
  | some _ => do
    let c ← M.get
    M.assert cfg.ndebug (decide (2 < c.stack.length))
    let offset ← dlmBack
    let ins' := c.ins ++ c.stack.reverse.map (flipInstr (offset + c.stack.length))
    let c' := { c with ins := ins', del := c.del ++ [ins'.length] }
    M.assert cfg.ndebug (c'.isBdd (c'.del.length - 2))
    M.set (clearTemps c')
    pure (some (c'.del.length - 2))

/-- First half of `bdd_and`: asserts and the two sinks (bdd_collection.cpp:18-27, 113-128). -/
def andStart (cfg : Cfg) (l : List Nat) (limit : Nat) : M Coll Unit := do
  let c ← M.get
  M.assert cfg.ndebug (l.all fun i => decide (i < c.nrBdds))
  M.assert cfg.ndebug c.stack.isEmpty
  M.assert cfg.ndebug c.gen.isEmpty
  M.assert cfg.ndebug c.red.isEmpty
  M.assert cfg.ndebug (decide (2 < limit))
  M.set { c with stack := c.stack ++ [botInstr, topInstr] }

/-- `bdd_indices[i] = bdd_delimiters[bdds[i]]` -/
def dlms : List Nat → M Coll (List Nat)
  | [] => pure []
  | i :: is => do
    let d ← dlm i
    let ds ← dlms is
    pure (d :: ds)

/-- Recursion bound: arcs point forward, so every call advances one operand. The theorems show it is never reached. -/
def andFuel (c : Coll) (l : List Nat) : Nat := l.length * c.ins.length + 1

/-- `bdd_collection::bdd_and(i, j, node_limit)` (bdd_collection.cpp:16-51). -/
def bddAnd (cfg : Cfg) (i j limit : Nat) : M Coll (Option Nat) := do
  andStart cfg [i, j] limit
  let ds ← dlms [i, j]
  let c ← M.get
  let r ← andImpl2 limit (andFuel c ds) ds
  andFinish cfg r

/-- `bdd_collection::bdd_and(array, node_limit)` (bdd_collection.cpp:110-153). -/
def bddAndN (cfg : Cfg) (l : List Nat) (limit : Nat) : M Coll (Option Nat) := do
  andStart cfg l limit
  let ds ← dlms l
  let c ← M.get
  let r ← andImplN limit (andFuel c ds) ds
  andFinish cfg r

/-- `bdd_collection::bdd_and(begin, end, node_limit)` (include/bdd_collection.h:314-371). -/
def bddAndRange (cfg : Cfg) (l : List Nat) (limit : Nat) : M Coll (Option Nat) :=
  match l with
  | [] => M.throw
  | [a] => pure (some a)
  | [a, b] => bddAnd cfg a b limit
  | l => if l.length ≤ 49 then bddAndN cfg l limit else M.throw

/-! ## Renaming -/

/-- Loop of both `rebase` (include/bdd_collection.h:211-222, 229-242) over `n` positions from `i`. A variable outside the map fails an
assert and reads out of range (or dereferences the end iterator) without asserts. -/
def rebaseIns (cfg : Cfg) (look : Nat → Option Nat) : Nat → Nat → M Coll Unit
  | 0, _ => pure ()
  | n + 1, i => do
    let e ← insAt i
    if e.isTerm then rebaseIns cfg look n (i + 1)
    else match look e.index with
      | none => do
        M.assert cfg.ndebug false
        M.ub
      | some w => do
        M.modify fun c => { c with ins := c.ins.set i { e with index := w } }
        rebaseIns cfg look n (i + 1)

def cRebase (cfg : Cfg) (nr : Nat) (look : Nat → Option Nat) : M Coll Unit := do
  let c ← M.get
  M.assert cfg.ndebug (decide (nr < c.nrBdds))
  let d0 ← dlm nr
  let d1 ← dlm (nr + 1)
  rebaseIns cfg look (d1 - d0) d0

/-- `bdd_collection::rebase(nr, begin, end)` (include/bdd_collection.h:207-223). -/
def cRebaseVec (cfg : Cfg) (nr : Nat) (m : List Nat) : M Coll Unit := cRebase cfg nr (fun v => m[v]?)

/-- `bdd_collection::rebase(nr, var_map)` (include/bdd_collection.h:225-243). -/
def cRebaseMap (cfg : Cfg) (nr : Nat) (m : List (Nat × Nat)) : M Coll Unit := cRebase cfg nr (fun v => m.lookup v)

/-! ## Removing entries -/

/-- Copy one entry (include/bdd_collection.h:276-287) with offset `delta`. -/
def moveIns (cfg : Cfg) (delta : Nat) : List Instr → List Instr → M Coll (List Instr)
  | [], acc => pure acc
  | e :: l, acc =>
    if e.isTerm then moveIns cfg delta l (acc ++ [e])
    else do
      M.assert cfg.ndebug (decide (delta ≤ e.lo))
      M.assert cfg.ndebug (decide (delta ≤ e.hi))
      moveIns cfg delta l (acc ++ [⟨e.lo - delta, e.hi - delta, e.index⟩])

/-- Main loop of `remove` (include/bdd_collection.h:266-291): `n` entries left, next one `nr`; `l` is what is left of the input range.
`*bdd_it` is read in every iteration, so also when the range is used up (`ub`). -/
def removeLoop (cfg : Cfg) : Nat → Nat → List Nat → List Nat → List Instr → M Coll (List Nat × List Nat × List Instr)
  | 0, _, l, nd, ni => pure (l, nd, ni)
  | n + 1, nr, l, nd, ni =>
    match l with
    | [] => M.ub
    | a :: l' =>
      if nr = a then removeLoop cfg n (nr + 1) l' nd ni
      else do
        let d0 ← dlm nr
        let d1 ← dlm (nr + 1)
        match nd.getLast? with
        | none => M.ub
        | some b => do
          M.assert cfg.ndebug (decide (b ≤ d0))
          let es ← insRange (d1 - d0) d0
          let ni' ← moveIns cfg (d0 - b) es ni
          M.assert cfg.ndebug (decide (2 < ni'.length - b))
          removeLoop cfg n (nr + 1) l (nd ++ [ni'.length]) ni'

/-- `bdd_collection::remove` (include/bdd_collection.h:245-301). -/
def cRemove (cfg : Cfg) (l : List Nat) : M Coll Unit := do
  let c ← M.get
  M.assert cfg.ndebug (decide (l.length ≤ c.nrBdds))
  M.assert cfg.ndebug (decide (l.Pairwise (· ≤ ·)))
  M.assert cfg.ndebug (decide (uniq l = l))
  match l with
  | [] => pure ()
  | a :: _ => do
    let nd ← dlms (List.range (a + 1))
    match nd.getLast? with
    | none => M.ub
    | some b => do
      let ni ← insRange b 0
      let (rest, nd', ni') ← removeLoop cfg (c.nrBdds - a) a l nd ni
      M.assert cfg.ndebug rest.isEmpty
      let c' := { c with del := nd', ins := ni' }
      M.assert cfg.ndebug ((List.range c'.nrBdds).all fun i => c'.isBdd i)
      M.set c'

/-! ## Transfer between manager and collection -/

/-- Run manager code, or collection code, in the combined state. -/
def onM {α : Type} (m : M Mgr α) : M (Mgr × Coll) α := fun s =>
  match m s.1 with
  | .ok r s' => .ok r (s', s.2)
  | .throw s' => .throw (s', s.2)
  | .assertFail => .assertFail
  | .ub => .ub
  | .hang => .hang

def onC {α : Type} (m : M Coll α) : M (Mgr × Coll) α := fun s =>
  match m s.2 with
  | .ok r c => .ok r (s.1, c)
  | .throw c => .throw (s.1, c)
  | .assertFail => .assertFail
  | .ub => .ub
  | .hang => .hang

/-- First loop of `bdd_collection::add_bdd` (bdd_collection.cpp:288-293): one instruction per node, arcs not yet set. -/
def addNodes (cfg : Cfg) : List Nat → M (Mgr × Coll) Unit
  | [] => pure ()
  | p :: ps => do
    M.assert cfg.ndebug (!(← onM (isTerm cfg p)))
    M.modify fun s => (s.1, { s.2 with
      nrh := insertNew s.2.nrh p s.2.ins.length
      ins := s.2.ins ++ [⟨cTop, cTop, (s.1.cells p).index⟩] })
    addNodes cfg ps

/-- Append a sink (bdd_collection.cpp:296-302). -/
def addSink (p : Nat) (e : Instr) : M (Mgr × Coll) Unit :=
  M.modify fun s => (s.1, { s.2 with nrh := insertNew s.2.nrh p s.2.ins.length, ins := s.2.ins ++ [e] })

/-- Second loop of `add_bdd` (bdd_collection.cpp:305-313): set the arcs. -/
def addArcs (cfg : Cfg) (offset : Nat) : Nat → List Nat → M (Mgr × Coll) Unit
  | _, [] => pure ()
  | i, p :: ps => do
    let l ← onM (lowOf p)
    let h ← onM (highOf p)
    let s ← M.get
    match s.2.nrh.lookup l, s.2.nrh.lookup h with
    | some a, some b => do
      M.assert cfg.ndebug (decide (i < a))
      M.assert cfg.ndebug (decide (i < b))
      match s.2.ins[offset + i]? with
      | none => M.ub
      | some e => do
        M.set (s.1, { s.2 with ins := s.2.ins.set (offset + i) { e with lo := a, hi := b } })
        addArcs cfg offset (i + 1) ps
    | _, _ => do
      M.assert cfg.ndebug false
      M.ub

/-- `bdd_collection::add_bdd` (bdd_collection.cpp:282-322). `nodes.back()` of a terminal BDD reads an empty vector. The handles held
by `nodes` and `node_ref_hash` during the call are released at its end and not counted. -/
def addBdd (cfg : Cfg) (p : Nat) : M (Mgr × Coll) Nat := do
  let s ← M.get
  M.assert cfg.ndebug (decide (s.2.del.getLast? = some s.2.ins.length))
  let post ← onM (nodesPostorder cfg p)
  let nodes := post.reverse
  addNodes cfg nodes
  match nodes.getLast? with
  | none => M.ub
  | some q => do
    let _ ← onM (findBddMgr cfg q)
    addSink botId botInstr
    let _ ← onM (findBddMgr cfg q)
    addSink topId topInstr
    let offset ← onC dlmBack
    addArcs cfg offset 0 nodes
    M.modify fun s => (s.1, { s.2 with del := s.2.del ++ [s.2.ins.length], nrh := [] })
    let s ← M.get
    M.assert cfg.ndebug (s.2.isBdd (s.2.del.length - 2))
    let k ← onC (if cfg.ndebug then pure 0 else cNrNodes cfg (s.2.del.length - 2))
    M.assert cfg.ndebug (k == nodes.length + 2)
    pure (s.2.del.length - 2)

/-- `bdd_instructions[i]` of a collection that is only read. -/
def insOf (c : Coll) (i : Nat) : M Mgr Instr := fun s =>
  match c.ins[i]? with
  | some e => .ok e s
  | none => .ub

/-- `bdd_delimiters[i]` of a collection that is only read. -/
def dlmOf (c : Coll) (i : Nat) : M Mgr Nat := fun s =>
  match c.del[i]? with
  | some d => .ok d s
  | none => .ub

/-- `get_node_ref` (bdd_collection.cpp:336-353); `h` is `bdd_instr_hash`. -/
def exportRef (cfg : Cfg) (c : Coll) (d0 d1 : Nat) (h : List (Nat × Nat)) (i : Nat) : M Mgr Nat := do
  M.assert cfg.ndebug (decide (i < c.ins.length))
  let e ← insOf c i
  if e.isBot then pure botId
  else if e.isTop then pure topId
  else do
    M.assert cfg.ndebug (decide (d0 ≤ i))
    M.assert cfg.ndebug (decide (i < d1))
    match h.lookup i with
    | some p => pure p
    | none => do
      M.assert cfg.ndebug false
      M.ub

/-- Loop of `export_bdd` (bdd_collection.cpp:332-360): `k` positions `d0 .. d0+k-1` left, the last one next. -/
def exportLoop (cfg : Cfg) (c : Coll) (d0 d1 : Nat) : Nat → List (Nat × Nat) → M Mgr (List (Nat × Nat))
  | 0, h => pure h
  | k + 1, h => do
    let e ← insOf c (d0 + k)
    M.assert cfg.ndebug (!e.isTerm)
    let lo ← exportRef cfg c d0 d1 h e.lo
    let hi ← exportRef cfg c d0 d1 h e.hi
    let r ← mgrUniqueFind cfg e.index lo hi
    M.assert cfg.ndebug (h.lookup (d0 + k)).isNone
    exportLoop cfg c d0 d1 k (insertNew h (d0 + k) r)

/-- `bdd_collection::export_bdd` (bdd_collection.cpp:324-363), a `const` member: the collection `c` is only read. -/
def exportBdd (cfg : Cfg) (c : Coll) (nr : Nat) : M Mgr Nat := do
  M.assert cfg.ndebug (decide (nr < c.nrBdds))
  let d1 ← dlmOf c (nr + 1)
  let d0 ← dlmOf c nr
  M.assert cfg.ndebug (decide (2 < d1 - d0))
  M.assert cfg.ndebug ((c.ins[d1 - 2]?).any (·.isTerm))
  M.assert cfg.ndebug ((c.ins[d1 - 1]?).any (·.isTerm))
  let h ← exportLoop cfg c d0 d1 (d1 - 2 - d0) []
  match h.lookup d0 with
  | some r => pure r
  | none => do
    M.assert cfg.ndebug false
    M.ub

/-- Loop of `bdd_mgr::add_bdd` (bdd_mgr.cpp:402-426): `k` positions `d0 .. d0+k-1` left, the last one next. -/
def importLoop (cfg : Cfg) (c : Coll) (d0 : Nat) : Nat → List (Nat × Nat) → M Mgr (List (Nat × Nat))
  | 0, h => pure h
  | k + 1, h => do
    let e ← insOf c (d0 + k)
    if e.isBot then importLoop cfg c d0 k (insertNew h (d0 + k) botId)
    else if e.isTop then importLoop cfg c d0 k (insertNew h (d0 + k) topId)
    else do
      M.assert cfg.ndebug (decide (d0 + k < 1000))
      match h.lookup e.lo, h.lookup e.hi with
      | some lo, some hi => do
        let v ← projection cfg e.index
        let r ← iteOp cfg v hi lo
        importLoop cfg c d0 k (insertNew h (d0 + k) r)
      | _, _ => do
        M.assert cfg.ndebug false
        M.ub

/-- `bdd_mgr::add_bdd(bdd_col, bdd_nr)` (bdd_mgr.cpp:397-429); the collection `c` is only read. -/
def mgrAddBdd (cfg : Cfg) (c : Coll) (nr : Nat) : M Mgr Nat := do
  M.assert cfg.ndebug (decide (nr < c.nrBdds))
  let d0 ← dlmOf c nr
  let d1 ← dlmOf c (nr + 1)
  let h ← importLoop cfg c d0 (d1 - d0) []
  match h.lookup d0 with
  | some r => pure r
  | none => do
    M.assert cfg.ndebug false
    M.ub

end LBDD
