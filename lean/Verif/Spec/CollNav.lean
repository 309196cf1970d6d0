import Verif.Model.CollNav
import Verif.Spec.CollApi
/-!
# Client programs that walk over an entry with node handles
-/
namespace LBDD

/-- One step of a walk under the assignment `x`: ask for the variable, go to `hi()` or `lo()`. -/
def navStep (cfg : Cfg) (nr : Nat) (x : List Bool) (i : Nat) : M Coll Nat := do
  let v ← navVar i
  match x[v]? with
  | none => M.ub
  | some b => navChild cfg nr b i

/-- Walk from the node `i` under the assignment `x` until `is_terminal()`, at most `n` steps; the result is `is_topsink()` of the last node. -/
def navWalk (cfg : Cfg) (nr : Nat) (x : List Bool) : Nat → Nat → M Coll Bool
  | 0, _ => M.hang
  | n + 1, i => do
    let t ← navIsTerm i
    if t then navIsTop i
    else do
      let j ← navStep cfg nr x i
      navWalk cfg nr x n j

/-- The walk from `root_node()`. -/
def navEval (cfg : Cfg) (nr : Nat) (x : List Bool) (n : Nat) : M Coll Bool := do
  let r ← entryRoot cfg nr
  navWalk cfg nr x n r

/-- From the node `i` on: collect nodes with `next_postorder()` until the node `r`, at most `n` steps. -/
def navUpTo (cfg : Cfg) (nr r : Nat) : Nat → Nat → M Coll (List Nat)
  | 0, _ => M.hang
  | n + 1, i =>
    if i = r then pure [i]
    else do
      let j ← navNext cfg nr i
      let l ← navUpTo cfg nr r n j
      pure (i :: l)

/-- `for(node = first_node_postorder(); node != root_node(); node = node.next_postorder())`, and the root at the end. -/
def navAll (cfg : Cfg) (nr n : Nat) : M Coll (List Nat) := do
  let r ← entryRoot cfg nr
  let i ← navFirst cfg nr
  navUpTo cfg nr r n i

/-- One pass over the instructions of an entry, from the last to the first, `b` being the offset of the first of them: the value of each node under the assignment `x`
from the values of the later ones. Fails if a node needs a value that is not there yet, or a variable that has no value. -/
def passUp (x : List Bool) : Nat → List Instr → Option (List Bool)
  | _, [] => some []
  | b, e :: l =>
    match passUp x (b + 1) l with
    | none => none
    | some vs =>
      if e.index = cBot then some (false :: vs)
      else if e.index = cTop then some (true :: vs)
      else match x[e.index]? with
        | none => none
        | some y =>
          let j := if y then e.hi else e.lo
          if j ≤ b then none
          else match vs[j - (b + 1)]? with
            | none => none
            | some r => some (r :: vs)

end LBDD
