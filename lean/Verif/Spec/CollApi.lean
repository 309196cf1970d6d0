import Verif.Spec.Api
import Verif.Spec.CollEdit
/-!
# Which collections are considered

`CReachable cfg c`: the collection `c` is reached from an empty one by some finite history of successful calls with valid arguments.
The BDDs added may come from any reachable states of any number of managers.
-/
namespace LBDD

/-- Calls that change a collection. -/
inductive COp where
  | and (i j limit : Nat)
  | andRange (l : List Nat) (limit : Nat)
  | rebaseVec (nr : Nat) (m : List Nat)
  | rebaseMap (nr : Nat) (m : List (Nat × Nat))
  | remove (l : List Nat)
  | orVar (i : Nat) (pos neg : List Nat)

/-- The call. -/
def COp.run (cfg : Cfg) : COp → M Coll Unit
  | .and i j limit => do let _ ← bddAnd cfg i j limit; pure ()
  | .andRange l limit => do let _ ← bddAndRange cfg l limit; pure ()
  | .rebaseVec nr m => cRebaseVec cfg nr m
  | .rebaseMap nr m => cRebaseMap cfg nr m
  | .remove l => cRemove cfg l
  | .orVar i pos neg => do let _ ← bddOrVar cfg i pos neg; pure ()

/-- Valid arguments: existing entries, renamings that map every variable of the entry to a variable (not to a sink index), strictly
increasing lists of entries to remove. In debug builds `remove` also checks that the entries that stay are reduced BDDs. `bdd_or_var` only in the
case in which it has nothing to reduce (otherwise see `C50_refuted_crash`). -/
def COp.Legal (cfg : Cfg) (c : Coll) : COp → Prop
  | .and i j _ => i < c.nrBdds ∧ j < c.nrBdds
  | .andRange l _ => ∀ i ∈ l, i < c.nrBdds
  | .rebaseVec nr m => nr < c.nrBdds ∧ ∀ v, c.Var nr v → ∃ w, m[v]? = some w ∧ w < cBot
  | .rebaseMap nr m => nr < c.nrBdds ∧ ∀ v, c.Var nr v → ∃ w, m.lookup v = some w ∧ w < cBot
  | .remove l => l.Pairwise (· < ·) ∧ (∀ i ∈ l, i < c.nrBdds) ∧
      (cfg.ndebug = true ∨ ∀ k, k < c.nrBdds → k ∉ l → c.Big k ∧ c.Reduced k)
  | .orVar i pos neg => i < c.nrBdds ∧ OrSimple c i pos neg

/-- Reachable collections. The managers whose BDDs are added may have environments (addresses, random numbers, ...) of their own; only the build is the same. -/
inductive CReachable (cfg : Cfg) : Coll → Prop
  | init : CReachable cfg Coll.init
  /-- `c.add_bdd(p)` for a non-constant BDD `p` of some manager -/
  | add {env : Cfg} {c c' : Coll} {u : Use} {a : Api} {p nr : Nat} {s' : Mgr} : CReachable cfg c → env.ndebug = cfg.ndebug → Reachable env u a → a.Holds p → 2 ≤ p →
      addBdd env p (a.mgr, c) = .ok nr (s', c') → CReachable cfg c'
  | step {env : Cfg} {c c' : Coll} {op : COp} : CReachable cfg c → env.ndebug = cfg.ndebug → op.Legal env c → op.run env c = .ok () c' → CReachable cfg c'

end LBDD
