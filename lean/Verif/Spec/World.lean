import Verif.Spec.System
/-!
# Several managers and several collections

A program may have any number of managers and collections. Manager `i` runs in its own environment `env i` (addresses of its nodes, random keys it draws, evaluation
order, uninitialised bits); the build is the same for all. The managers share one random generator (bdd_node.cpp:25-27): the numbers manager `i` draws from it are
`(env i).rng`, which is arbitrary.

`WStore`: what the program sees, a list of stores (as in C81) and a list of lists of functions (as in C82).
-/
namespace LBDD

structure World where
  mgrs : List Api
  colls : List Coll

/-- What the program does. -/
inductive WOp where
  /-- `bdd_mgr m;` -/
  | newMgr
  /-- `bdd_collection c;` -/
  | newColl
  /-- `bdd_collection c(collection k);` (copy, include/bdd_collection.h:174-186: all members are copied) -/
  | copyColl (k : Nat)
  /-- a call of manager `i`, or an operation on its handles -/
  | mgr (i : Nat) (op : Op)
  /-- a call of collection `k` -/
  | coll (k : Nat) (op : COp)
  /-- `add_bdd`, `export_bdd` or `mgr.add_bdd` between manager `i` and collection `k` -/
  | move (i k : Nat) (op : SOp)

/-- The steps that concern a manager and a collection. -/
def SOp.IsMove : SOp → Prop
  | .add _ => True
  | .exportEntry _ => True
  | .importEntry _ => True
  | _ => False

/-- The step `op` succeeds and returns `r`. -/
def World.Does (env : Nat → Cfg) (W W' : World) : WOp → Option Nat → Prop
  | .newMgr, r => r = none ∧ W' = { W with mgrs := W.mgrs ++ [Api.init (env W.mgrs.length)] }
  | .newColl, r => r = none ∧ W' = { W with colls := W.colls ++ [Coll.init] }
  | .copyColl k, r => r = none ∧ ∃ c, W.colls[k]? = some c ∧ W' = { W with colls := W.colls ++ [c] }
  | .mgr i op, r => r = none ∧ ∃ a a', W.mgrs[i]? = some a ∧ LBDD.step (env i) op a = .ok () a' ∧ W' = { W with mgrs := W.mgrs.set i a' }
  | .coll k op, r => ∃ c c', W.colls[k]? = some c ∧ op.call (env 0) c = .ok r c' ∧ W' = { W with colls := W.colls.set k c' }
  | .move i k op, r => op.IsMove ∧ ∃ S S', W.mgrs[i]? = some S.api ∧ W.colls[k]? = some S.coll ∧ Sys.Does (env i) S S' op r ∧
      W' = ⟨W.mgrs.set i S'.api, W.colls.set k S'.coll⟩

/-- Admissible steps; `us i` is the discipline of manager `i`. -/
def WOp.Legal (env : Nat → Cfg) (us : Nat → Use) (W : World) : WOp → Prop
  | .newMgr => True
  | .newColl => True
  | .copyColl _ => True
  | .mgr i op => ∀ a, W.mgrs[i]? = some a → LBDD.Legal (env i) (us i) a op
  | .coll k op => ∀ c, W.colls[k]? = some c → op.Legal (env 0) c
  | .move i k op => ∀ S : Sys, W.mgrs[i]? = some S.api → W.colls[k]? = some S.coll → op.Legal (env i) (us i) S

/-- A history of the program. -/
inductive WHistory (env : Nat → Cfg) (us : Nat → Use) : List (WOp × Option Nat) → World → Prop
  | init : WHistory env us [] ⟨[], []⟩
  | step {h : List (WOp × Option Nat)} {op : WOp} {r : Option Nat} {W W' : World} : WHistory env us h W → op.Legal env us W → World.Does env W W' op r →
      WHistory env us (h ++ [(op, r)]) W'

/-! ### The specification -/

structure WStore where
  stores : List Store
  colls : List Entries

/-- One step of the program, as it sees it: a step of C81 or C82 on the manager and the collection concerned, and nothing else changes. The calls of manager `i` mean
what `M i` and `I i` say. -/
def WStore.StepBy (M : Nat → Nat → Fn → List BoolFn → Nat → List BoolFn → Prop) (I : Nat → Nat → BoolFn → BoolFn → Prop) (T T' : WStore) : WOp → Option Nat → Prop
  | .newMgr, r => r = none ∧ T' = { T with stores := T.stores ++ [Store.init] }
  | .newColl, r => r = none ∧ T' = { T with colls := T.colls ++ [[]] }
  | .copyColl k, r => r = none ∧ ∃ es, T.colls[k]? = some es ∧ T' = { T with colls := T.colls ++ [es] }
  | .mgr i op, r => r = none ∧ ∃ R R', T.stores[i]? = some R ∧ Store.StepBy (M i) R R' op ∧ T' = { T with stores := T.stores.set i R' }
  | .coll k op, r => ∃ es es', T.colls[k]? = some es ∧ op.Means es es' r ∧ T' = { T with colls := T.colls.set k es' }
  | .move i k op, r => ∃ R R' : SStore, T.stores[i]? = some R.store ∧ T.colls[k]? = some R.entries ∧ SStore.StepBy (M i) (I i) R R' op r ∧
      T' = ⟨T.stores.set i R'.store, T.colls.set k R'.entries⟩

/-- One step of the program, with the documented functions. -/
def WStore.Step (env : Nat → Cfg) (us : Nat → Use) (T T' : WStore) (op : WOp) (r : Option Nat) : Prop :=
  WStore.StepBy (fun i n f => f.Means (env i) (us i = .ordered) n) (fun _ => SameFn) T T' op r

/-- A history of such steps. -/
inductive WStore.Runs (env : Nat → Cfg) (us : Nat → Use) : List (WOp × Option Nat) → WStore → Prop
  | init : WStore.Runs env us [] ⟨[], []⟩
  | step {h : List (WOp × Option Nat)} {op : WOp} {r : Option Nat} {T T' : WStore} : WStore.Runs env us h T → WStore.Step env us T T' op r →
      WStore.Runs env us (h ++ [(op, r)]) T'

/-- All managers and collections look like the stores and lists of functions. -/
structure WLooks (env : Nat → Cfg) (W : World) (T : WStore) : Prop where
  nrMgrs : W.mgrs.length = T.stores.length
  nrColls : W.colls.length = T.colls.length
  mgr : ∀ (i : Nat) (a : Api) (R : Store), W.mgrs[i]? = some a → T.stores[i]? = some R → Looks (env i) a R
  coll : ∀ (k : Nat) (c : Coll) (es : Entries), W.colls[k]? = some c → T.colls[k]? = some es → CLooks (env 0) c es

/-- BDD `p` of the first manager and BDD `q` of the second have the same function. -/
def SameFnOf (e1 : Cfg) (s1 : Mgr) (p : Nat) (e2 : Cfg) (s2 : Mgr) (q : Nat) : Prop :=
  ∀ x, Covers s1 x → Covers s2 x → evaluate e1 s1 p x = evaluate e2 s2 q x

end LBDD
