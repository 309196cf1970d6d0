import Verif.Model.Coll
/-!
# Model of `bdd_or_var`, `reduce`, and of building and rerouting entries by hand (include/bdd_collection.h, src/bdd_collection.cpp)

`std::cout` output is left out.
-/
namespace LBDD

/-! ## `reduce` -/

/-- `bdd_map.find(e)->second` (bdd_collection.cpp:493-494). -/
def mapAt (m : List (Instr × Nat)) (e : Instr) : M Coll Nat :=
  match m.lookup e with
  | some k => pure k
  | none => M.ub

/-- New arc in the first loop of `reduce` (bdd_collection.cpp:463-466): `a` is the old arc, `l` the instruction there. The condition is never true. -/
def skipArc (b : Bool) (a : Nat) (l : Instr) : M Coll Nat :=
  if !l.isTerm && l.lo == l.hi then do
    let g ← insAt (if b then l.hi else l.lo)
    pure (if b then g.hi else g.lo)
  else pure a

/-- First loop of `reduce` (bdd_collection.cpp:458-472): `k` positions `d0 .. d0+k-1` left, the last one next; `rm` is `remove`. The loop variable is
signed but compared as unsigned with the delimiter: for an entry that starts at position 0 the loop does not stop at -1 and reads out of range. -/
def redMark (d0 : Nat) : Nat → List Bool → M Coll (List Bool)
  | 0, rm => if d0 = 0 then M.ub else pure rm
  | k + 1, rm => do
    let e ← insAt (d0 + k)
    let l ← insAt e.lo
    let h ← insAt e.hi
    let lo ← skipArc false e.lo l
    let hi ← skipArc true e.hi h
    M.modify fun c => { c with ins := c.ins.set (d0 + k) { e with lo := lo, hi := hi } }
    redMark d0 k (if lo = hi then rm.set k true else rm)

/-- Second loop of `reduce` (bdd_collection.cpp:478-495), `m` is `bdd_map`. -/
def redMerge (cfg : Cfg) (d0 : Nat) : Nat → List (Instr × Nat) → List Bool → M Coll (List Bool)
  | 0, _, rm => if d0 = 0 then M.ub else pure rm
  | k + 1, m, rm =>
    if rm[k]? = some true then redMerge cfg d0 k m rm
    else do
      let e ← insAt (d0 + k)
      let m' := insertNew m e (d0 + k)
      let rm' := if (m.lookup e).isSome then rm.set k true else rm
      let l ← insAt e.lo
      let h ← insAt e.hi
      M.assert cfg.ndebug (m'.lookup l).isSome
      M.assert cfg.ndebug (m'.lookup h).isSome
      let lo ← mapAt m' l
      M.modify fun c => { c with ins := c.ins.set (d0 + k) { e with lo := lo } }
      let h ← insAt e.hi
      let hi ← mapAt m' h
      M.modify fun c => { c with ins := c.ins.set (d0 + k) { e with lo := lo, hi := hi } }
      redMerge cfg d0 k m' rm'

/-- `a -= address_delta[i]` (bdd_collection.cpp:512-513), where `address_delta[i]` is the number `n` of removed positions before `i` (lines 501-505).
`std::partial_sum` adds up in the type of the elements of `remove`, `char` (here signed with 8 bits), so the count wraps around at 128, and the negative
counts are then converted to `size_t`. -/
def subDelta (rm : List Bool) (a i : Nat) : Nat :=
  let n := ((rm.take i).filter (· == true)).length
  if n % 256 < 128 then a - n % 256 else a + (256 - n % 256)

/-- Third loop of `reduce` (bdd_collection.cpp:507-515): `n` positions from `i` (relative to `d0`) on. -/
def redCopy (d0 : Nat) (rm : List Bool) : Nat → Nat → M Coll (List Instr)
  | 0, _ => pure []
  | n + 1, i =>
    if rm[i]? = some true then redCopy d0 rm n (i + 1)
    else do
      let e ← insAt (d0 + i)
      if e.lo < d0 ∨ d0 + rm.length ≤ e.lo ∨ e.hi < d0 ∨ d0 + rm.length ≤ e.hi then M.ub
      else do
        let l ← redCopy d0 rm n (i + 1)
        pure (⟨subDelta rm e.lo (e.lo - d0), subDelta rm e.hi (e.hi - d0), e.index⟩ :: l)

/-- `bdd_collection::reduce` (bdd_collection.cpp:450-525). An entry has at least its two sinks (`d0 + 2 ≤ d1`, otherwise positions before the entry
would be read: `ub`). -/
def reduceLast (cfg : Cfg) : M Coll Unit := do
  let c ← M.get
  M.assert cfg.ndebug (decide (0 < c.nrBdds))
  let nr := c.nrBdds - 1
  let d0 ← dlm nr
  let d1 ← dlm (nr + 1)
  if d1 < d0 + 2 then M.ub
  else do
    let rm ← redMark d0 (d1 - 2 - d0) (List.replicate (d1 - d0) false)
    let a ← insAt (d1 - 1)
    let b ← insAt (d1 - 2)
    let rm ← redMerge cfg d0 (d1 - 2 - d0) (insertNew (insertNew [] a (d1 - 1)) b (d1 - 2)) rm
    let l ← redCopy d0 rm (d1 - 2 - d0) 0
    let b ← insAt (d1 - 2)
    let a ← insAt (d1 - 1)
    M.modify fun c =>
      let ins' := c.ins.take d0 ++ l ++ [b, a]
      { c with ins := ins', del := c.del.set (nr + 1) ins'.length }
    let c ← M.get
    M.assert cfg.ndebug (c.isBdd nr)

/-! ## `bdd_or_var` -/

/-- Copy loop of `bdd_or_var` (include/bdd_collection.h:378-387) for the instructions `es`: arcs are moved by `delta`. -/
def shiftIns (delta : Nat) (e : Instr) : Instr := if e.isTerm then e else ⟨e.lo + delta, e.hi + delta, e.index⟩

/-- Rerouting of one instruction (include/bdd_collection.h:405-411). -/
def reroute (pos neg : List Nat) (top : Nat) (e : Instr) : Instr :=
  if e.isTerm then e
  else ⟨if neg.contains e.index then top else e.lo, if pos.contains e.index then top else e.hi, e.index⟩

/-- `bdd_or_var(i, positive_variables, negative_variables)` (include/bdd_collection.h:373-416). -/
def bddOrVar (cfg : Cfg) (i : Nat) (pos neg : List Nat) : M Coll Nat := do
  let c ← M.get
  M.assert cfg.ndebug (decide (i < c.nrBdds))
  let d0 ← dlm i
  let d1 ← dlm (i + 1)
  let back ← dlmBack
  let es ← insRange (d1 - d0) d0
  M.modify fun c => { c with ins := c.ins ++ es.map (shiftIns (back - d0)) }
  M.modify fun c => { c with del := c.del ++ [c.ins.length] }
  let c ← M.get
  let n := c.ins.length
  let a ← insAt (n - 1)
  let b ← insAt (n - 2)
  M.assert cfg.ndebug a.isTerm
  M.assert cfg.ndebug b.isTerm
  M.assert cfg.ndebug (a != b)
  let bot := if a.isBot then n - 1 else n - 2
  M.assert cfg.ndebug ((c.ins[bot]?).any (·.isBot))
  let top := if a.isTop then n - 1 else n - 2
  M.assert cfg.ndebug ((c.ins[top]?).any (·.isTop))
  M.assert cfg.ndebug (bot != top)
  let nr := c.del.length - 2
  let e0 ← dlm nr
  M.modify fun c => { c with ins := c.ins.take e0 ++ (c.ins.drop e0).map (reroute pos neg top) }
  reduceLast cfg
  let c ← M.get
  M.assert cfg.ndebug (c.isBdd nr)
  pure nr

/-! ## Building entries by hand, rerouting arcs -/

/-- include/bdd_collection.h:29 -/
def cTmpBot : Nat := 2 ^ 64 - 1
/-- include/bdd_collection.h:30 -/
def cTmpTop : Nat := 2 ^ 64 - 2

/-- `a - b` in `size_t`. -/
def subSz (a b : Nat) : Nat := if a < b then a + 2 ^ 64 - b else a - b

/-- A `bdd_collection_node` (include/bdd_collection.h:59-89): a position and a reference to a `bdd_collection_entry` object, of which the model keeps the
entry number and whether the object still exists. Using a handle whose entry object is gone is undefined behaviour. -/
structure CNode where
  i : Nat
  nr : Nat
  alive : Bool

/-- `bdd_collection::new_bdd` (bdd_collection.cpp:549-553). -/
def newBdd : M Coll Nat := do
  M.modify fun c => { c with del := c.del ++ [c.ins.length] }
  let c ← M.get
  pure (c.del.length - 2)

/-- `bdd_collection::add_bdd_node` (bdd_collection.cpp:555-563): the handle refers to a temporary entry object that no longer exists when the call has
returned. -/
def addBddNode (cfg : Cfg) (var : Nat) : M Coll CNode := do
  M.modify fun c => { c with ins := c.ins ++ [⟨cUndef, cUndef, var⟩] }
  let c ← M.get
  mkEntry cfg (c.del.length - 2)
  let i ← mkNode cfg (c.del.length - 2) (c.ins.length - 1)
  pure ⟨i, c.del.length - 2, false⟩

/-- `entry[k]` for an entry object that lives on (bdd_collection.cpp:544-547, 656-661). -/
def entryNode (cfg : Cfg) (nr k : Nat) : M Coll CNode := do
  mkEntry cfg nr
  let d0 ← dlm nr
  let i ← mkNode cfg nr (d0 + k)
  pure ⟨i, nr, true⟩

/-- Overwrite an arc of the node (bdd_collection.cpp:707-741). -/
def setArc (h : CNode) (b : Bool) (t : Nat) : M Coll Unit := do
  if !h.alive then M.ub
  else do
    let e ← insAt h.i
    M.modify fun c => { c with ins := c.ins.set h.i (if b then { e with hi := t } else { e with lo := t }) }

/-- `set_lo_arc` (`b = false`) and `set_hi_arc` (`b = true`) (bdd_collection.cpp:707-717). -/
def setNodeArc (h : CNode) (b : Bool) (t : CNode) : M Coll Unit := setArc h b t.i

/-- `set_lo_to_0_terminal`, `set_lo_to_1_terminal`, `set_hi_to_0_terminal`, `set_hi_to_1_terminal` (bdd_collection.cpp:719-741), with `botsink()` and
`topsink()` of the entry (bdd_collection.cpp:642-654). `d1 - 2` is computed in `size_t`. -/
def setSinkArc (cfg : Cfg) (h : CNode) (b sink : Bool) : M Coll Unit := do
  if !h.alive then M.ub
  else do
    let d1 ← dlm (h.nr + 1)
    let t ← mkNode cfg h.nr (subSz d1 (if sink then 1 else 2))
    let c ← M.get
    M.assert cfg.ndebug ((c.ins[t]?).any fun e => if sink then e.isTop else e.isBot)
    setArc h b t

/-- Rerouting of one arc in `close_bdd` (bdd_collection.cpp:576-583): the new arc. -/
def closeArc (cfg : Cfg) (d0 a : Nat) : M Coll Nat := do
  let c ← M.get
  if a = cUndef then M.throw
  else if a = cTmpTop then pure (c.ins.length - 2)
  else if a = cTmpBot then pure (c.ins.length - 1)
  else do
    M.assert cfg.ndebug (decide (a < c.ins.length ∧ d0 ≤ a))
    pure a

/-- Loop of `close_bdd` (bdd_collection.cpp:572-593): positions `idx` up to `stop`, reading past the end of the vector is undefined; `n` bounds the
number of positions that exist. -/
def closeLoop (cfg : Cfg) (d0 stop : Nat) : Nat → Nat → M Coll Unit
  | 0, idx => if idx < stop then M.ub else pure ()
  | n + 1, idx =>
    if idx < stop then do
      let e ← insAt idx
      let lo ← closeArc cfg d0 e.lo
      M.modify fun c => { c with ins := c.ins.set idx { e with lo := lo } }
      let hi ← closeArc cfg d0 e.hi
      M.modify fun c => { c with ins := c.ins.set idx { e with lo := lo, hi := hi } }
      closeLoop cfg d0 stop n (idx + 1)
    else pure ()

/-- `bdd_collection::close_bdd` (bdd_collection.cpp:565-596). With only one delimiter `size()-2` wraps around: `ub`. -/
def closeBdd (cfg : Cfg) : M Coll Unit := do
  M.modify fun c => { c with ins := c.ins ++ [topInstr, botInstr] }
  let c ← M.get
  if c.del.length < 2 then M.ub
  else do
    let d0 ← dlm (c.del.length - 2)
    let d1 ← dlm (c.del.length - 1)
    closeLoop cfg d0 (subSz d1 2) (c.ins.length - d0) d0
    M.modify fun c => { c with del := c.del.set (c.del.length - 1) c.ins.length }

end LBDD
