import Verif.Model.Api
import Verif.Spec.Heap
import Verif.Spec.Gc
import Verif.Spec.Coll
/-!
# Which histories are considered

`Reachable cfg u a`: the client state `a` is reached from a fresh manager by some finite history of successful calls that
respects the discipline `u`. Every theorem about "every history" quantifies over `Reachable`.
-/
namespace LBDD

/-- Four disciplines of use. They differ in whether `xor_rec` and `or_rec`/`ite_rec` (which share memo entries, see
`xorTag`) are used and in whether the client only builds BDDs that respect the variable order. -/
inductive Use where
  /-- no `xor_rec`; hand-made nodes and renamings respect the variable order -/
  | ordered
  /-- no `xor_rec`; hand-made nodes and renamings are arbitrary -/
  | unordered
  /-- no disjunctions or if-then-else (and nothing built on them) -/
  | parity
  /-- everything is allowed -/
  | mixed
  deriving DecidableEq

/-- Preconditions of the functions, as asserted in the code or as needed for the discipline `u`. `s` is the manager and
the list is what the handle arguments refer to. -/
def Fn.Pre (cfg : Cfg) (u : Use) (s : Mgr) : Fn → List Nat → Prop
  | .addVariable, _ => s.nvars < topsinkIndex
  | .projection v, _ => v < topsinkIndex
  | .negProjection v, _ => v < s.nvars
  | .uniqueFind v, l => v < s.nvars ∧ (u = .ordered → ∀ p ∈ l, ∀ w, Occurs s p w → v < w)
  | .or, _ => u ≠ .parity
  | .ite, _ => u ≠ .parity
  | .xor, _ => u = .parity ∨ u = .mixed
  | .andRange, l => 2 ≤ l.length
  | .andAll, l => 2 ≤ l.length
  | .orRange, l => 2 ≤ l.length ∧ u ≠ .parity
  | .orAll, l => 2 ≤ l.length ∧ u ≠ .parity
  | .xorRange, l => 2 ≤ l.length ∧ (u = .parity ∨ u = .mixed)
  | .xorAll, l => 2 ≤ l.length ∧ (u = .parity ∨ u = .mixed)
  | .allFalse, l => 1 ≤ l.length
  | .atLeastOne, l => 1 ≤ l.length
  | .atMostOne, l => 1 ≤ l.length ∧ u ≠ .parity
  | .simplex, l => 1 ≤ l.length ∧ u ≠ .parity
  | .atLeast _, l => 1 ≤ l.length ∧ u ≠ .parity
  | .atMost _, l => 1 ≤ l.length ∧ u ≠ .parity
  | .cardinality _, l => 1 ≤ l.length ∧ u ≠ .parity
  | .rebaseMap m, l => ∀ p ∈ l, (SinkOk cfg ∨ 2 ≤ p) ∧ (∀ v, Occurs s p v → ∃ w, m.lookup v = some w) ∧
      (∀ q ∈ m, q.2 < topsinkIndex) ∧
      (u = .ordered → ∀ v w v' w', Occurs s p v → Occurs s p w → v < w → m.lookup v = some v' → m.lookup w = some w' → v' < w')
  | .rebaseVec m, l => ∀ p ∈ l, (cfg.ndebug = true ∨ 2 ≤ p) ∧ m ≠ [] ∧ (∀ v, Occurs s p v → v < m.length) ∧
      (∀ q ∈ m, q < topsinkIndex) ∧
      (u = .ordered → ∀ v w v' w', Occurs s p v → Occurs s p w → v < w → m[v]? = some v' → m[w]? = some w' → v' < w')
  | .nrNodes, l => ∀ p ∈ l, SinkOk cfg ∨ 2 ≤ p
  | .nodesPostorder, l => ∀ p ∈ l, SinkOk cfg ∨ 2 ≤ p
  | .nodesBfs, l => ∀ p ∈ l, 2 ≤ p
  | .exportBdd c nr, _ => c.Wf nr ∧ (∀ v, c.Var nr v → v < s.nvars) ∧ (u = .ordered → c.Ordered nr)
  | .importBdd c nr, _ => c.Wf nr ∧ (∀ v, c.Var nr v → v < topsinkIndex) ∧ u ≠ .parity
  | _, _ => True

/-- A step whose preconditions hold. Histories may contain garbage collections, but only where these do not trigger a defect of the
collector (`GcSafe`); what the other collections do is the subject of C31–C35. -/
def Legal (cfg : Cfg) (u : Use) (a : Api) : Op → Prop
  | .call f is => ∀ ps, a.args is = some ps → f.Pre cfg u a.mgr ps
  | .gc => GcSafe cfg a
  | _ => True

/-- States reachable by histories of discipline `u`. -/
inductive Reachable (cfg : Cfg) (u : Use) : Api → Prop
  | init : Reachable cfg u (Api.init cfg)
  | step {a a' : Api} {op : Op} : Reachable cfg u a → Legal cfg u a op → step cfg op a = .ok () a' → Reachable cfg u a'

/-- The user holds a handle to node `p`. -/
def Api.Holds (a : Api) (p : Nat) : Prop := some p ∈ a.hs

/-- Number of handles the user holds to `p`. -/
def Api.count (a : Api) (p : Nat) : Nat := a.hs.count (some p)

/-- `x` is an assignment to all variables of the manager. -/
def Covers (s : Mgr) (x : List Bool) : Prop := s.nvars ≤ x.length

/-- `evaluate(x)` on handle `p` returns `b`. -/
def EvalsTo (cfg : Cfg) (s : Mgr) (p : Nat) (x : List Bool) (b : Bool) : Prop := evaluate cfg s p x = .ok b ()

/-- The BDD at `p` denotes the Boolean function `F`: `evaluate` returns `F x` on every assignment `x` to (at least) all
variables of the manager. -/
def Denotes (cfg : Cfg) (s : Mgr) (p : Nat) (F : List Bool → Bool) : Prop := ∀ x, Covers s x → EvalsTo cfg s p x (F x)

/-- The BDDs `ps` denote the functions `Fs`, in order. -/
def DenotesAll (cfg : Cfg) (s : Mgr) : List Nat → List (List Bool → Bool) → Prop
  | [], [] => True
  | p :: ps, F :: Fs => Denotes cfg s p F ∧ DenotesAll cfg s ps Fs
  | _, _ => False

/-- Some variable has more than 2^18 nodes. -/
def TableFull (s : Mgr) : Prop :=
  ∃ v, ∃ l : List Nat, l.Nodup ∧ 2 ^ 18 < l.length ∧ ∀ p ∈ l, 2 ≤ p ∧ (s.cells p).live = true ∧ (s.cells p).index = v

/-- The call returns with a result satisfying `P`, or throws because a variable has too many nodes; no assert fails, there is
no undefined behaviour, and the call terminates. -/
def Returns {α : Type} (o : Res Mgr α) (P : α → Mgr → Prop) : Prop :=
  match o with
  | .ok r s => P r s
  | .throw s => TableFull s
  | .assertFail => False
  | .ub => False
  | .hang => False

/-- How many of the functions are true at `x`. -/
def countTrue (Fs : List (List Bool → Bool)) (x : List Bool) : Nat := (Fs.filter (fun F => F x)).length

/-- The function `F` of the variables of the manager depends on variable `v`: flipping `v` in some assignment changes its value. -/
def Depends (s : Mgr) (F : List Bool → Bool) (v : Nat) : Prop :=
  ∃ x, Covers s x ∧ F x ≠ F (x.set v (!x.getD v false))

/-- One and only one assignment of the variables `F` depends on makes `F` true. -/
def OneSolution (s : Mgr) (F : List Bool → Bool) : Prop :=
  ∃ x, Covers s x ∧ F x = true ∧ ∀ y, Covers s y → F y = true → ∀ v, Depends s F v → y.getD v false = x.getD v false

/-- `l` lists every inner node reachable from `p` exactly once. -/
def ListsOnce (s : Mgr) (p : Nat) (l : List Nat) : Prop := l.Nodup ∧ ∀ q, q ∈ l ↔ 2 ≤ q ∧ Reaches s.cells p q

/-- `ls` lists the inner nodes of each of the BDDs `ps`, in order. -/
def ListsAll (s : Mgr) : List Nat → List (List Nat) → Prop
  | [], [] => True
  | p :: ps, l :: ls => ListsOnce s p l ∧ ListsAll s ps ls
  | _, _ => False

/-- The product of the sizes plus two (for the sinks). -/
def sizeBound : List (List Nat) → Nat
  | [] => 1
  | l :: ls => (l.length + 2) * sizeBound ls

/-- Going from `s` to `s'` creates exactly those nodes of the BDD `r` that did not exist: the existing nodes are the old ones and those of `r`, and
`nr_nodes()` of the manager grows by the number of nodes of `r` that are new. -/
def Allocates (s s' : Mgr) (r : Nat) : Prop :=
  (∀ p, (s'.cells p).live = true ↔ (s.cells p).live = true ∨ Reaches s'.cells r p) ∧
  ∃ l, ListsOnce s' r l ∧ s'.pool.total = s.pool.total + (l.filter (fun p => !(s.cells p).live)).length

/-- Going from `s` to `s'` creates and destroys no node. -/
def AllocatesNothing (s s' : Mgr) : Prop :=
  (∀ p, (s'.cells p).live = (s.cells p).live) ∧ s'.pool.total = s.pool.total

end LBDD
