import Verif.Spec.Store
import Verif.Spec.CollApi
/-!
# A manager and a collection as their user sees them

`SStore` extends `Store` by the entries of the collection: a list of Boolean functions. Entry `(w, F)` has variables below `w`, and the value of `F` at `x` matters
only if `x` has at least `w` values.
-/
namespace LBDD

/-- A client with one manager and one collection. -/
structure Sys where
  api : Api
  coll : Coll

/-- What the client does. -/
inductive SOp where
  /-- a call of the manager, or an operation on handles -/
  | mgr (op : Op)
  /-- `collection.add_bdd(handle i)` -/
  | add (i : Nat)
  /-- `collection.export_bdd(mgr, nr)`; the result is a new handle -/
  | exportEntry (nr : Nat)
  /-- `mgr.add_bdd(collection, nr)`; the result is a new handle -/
  | importEntry (nr : Nat)
  /-- a call of the collection -/
  | coll (op : COp)

/-- The number of an entry that the call returns: `none` if it returns no number, or if the limit was exceeded. -/
def COp.call (cfg : Cfg) : COp → M Coll (Option Nat)
  | .and i j limit => bddAnd cfg i j limit
  | .andRange l limit => bddAndRange cfg l limit
  | .rebaseVec nr m => do cRebaseVec cfg nr m; pure none
  | .rebaseMap nr m => do cRebaseMap cfg nr m; pure none
  | .remove l => do cRemove cfg l; pure none
  | .orVar i pos neg => do let r ← bddOrVar cfg i pos neg; pure (some r)

/-- The step `op` succeeds and returns `r`. -/
def Sys.Does (cfg : Cfg) (S S' : Sys) : SOp → Option Nat → Prop
  | .mgr op, r => r = none ∧ LBDD.step cfg op S.api = .ok () S'.api ∧ S'.coll = S.coll
  | .add i, r => ∃ p nr s', S.api.hs[i]? = some (some p) ∧ addBdd cfg p (S.api.mgr, S.coll) = .ok nr (s', S'.coll) ∧ r = some nr ∧ S'.api = { S.api with mgr := s' }
  | .exportEntry nr, r => r = none ∧ LBDD.step cfg (.call (.exportBdd S.coll nr) []) S.api = .ok () S'.api ∧ S'.coll = S.coll
  | .importEntry nr, r => r = none ∧ LBDD.step cfg (.call (.importBdd S.coll nr) []) S.api = .ok () S'.api ∧ S'.coll = S.coll
  | .coll op, r => op.call cfg S.coll = .ok r S'.coll ∧ S'.api = S.api

/-- Admissible steps: those of the manager and of the collection; `add_bdd` for handles of non-constant BDDs. -/
def SOp.Legal (cfg : Cfg) (u : Use) (S : Sys) : SOp → Prop
  | .mgr op => LBDD.Legal cfg u S.api op
  | .add i => ∀ p, S.api.hs[i]? = some (some p) → 2 ≤ p
  | .exportEntry nr => LBDD.Legal cfg u S.api (.call (.exportBdd S.coll nr) [])
  | .importEntry nr => LBDD.Legal cfg u S.api (.call (.importBdd S.coll nr) [])
  | .coll op => op.Legal cfg S.coll

/-- A history of the client, with the numbers returned. -/
inductive SHistory (cfg : Cfg) (u : Use) : List (SOp × Option Nat) → Sys → Prop
  | init : SHistory cfg u [] ⟨Api.init cfg, Coll.init⟩
  | step {h : List (SOp × Option Nat)} {op : SOp} {r : Option Nat} {S S' : Sys} : SHistory cfg u h S → op.Legal cfg u S → Sys.Does cfg S S' op r →
      SHistory cfg u (h ++ [(op, r)]) S'

/-! ### The specification -/

/-- The entries of the collection: the number of variables and the function. -/
abbrev Entries := List (Nat × BoolFn)

structure SStore where
  store : Store
  entries : Entries

def SStore.init : SStore := ⟨Store.init, []⟩

/-- `x` extended by `false` to length at least `w`. -/
def padTo (w : Nat) (x : List Bool) : List Bool := x ++ List.replicate (w - x.length) false

/-- The largest number of variables. -/
def widest (ps : Entries) : Nat := (ps.map (·.1)).foldl max 0

/-- A conjunction of the entries `l` returns `r`: nothing happens (the limit was exceeded), or the conjunction is appended. If it is a contradiction, the function
of the new entry is not specified (finding 8). -/
def AndStep (es es' : Entries) (l : List Nat) (r : Option Nat) : Prop :=
  (r = none ∧ es' = es) ∨
  ∃ ps G, l.mapM (fun i => es[i]?) = some ps ∧ r = some es.length ∧ es' = es ++ [(widest ps, G)] ∧
    ((∃ x, widest ps ≤ x.length ∧ (ps.all fun p => p.2 x) = true) → SameFn (widest ps) G (fun x => ps.all fun p => p.2 x))

/-- What the calls of the collection do to its entries, and the number they return. -/
def COp.Means (es es' : Entries) : COp → Option Nat → Prop
  | .and i j _, r => AndStep es es' [i, j] r
  | .andRange l _, r => (∃ i, l = [i] ∧ r = some i ∧ es' = es) ∨ (2 ≤ l.length ∧ AndStep es es' l r)
  | .rebaseVec nr m, r => r = none ∧ ∃ w F, es[nr]? = some (w, F) ∧ es' = es.set nr (m.foldl max 0 + 1, fun x => F (renamed w (fun v => m.getD v 0) x))
  | .rebaseMap nr m, r => r = none ∧ ∃ w F, es[nr]? = some (w, F) ∧
      es' = es.set nr ((m.map (·.2)).foldl max 0 + 1, fun x => F (renamed w (fun v => (m.lookup v).getD 0) x))
  | .remove l, r => r = none ∧ es' = (keptOf es.length 0 l).filterMap fun i => es[i]?
  -- only the literals that are looked at on the way to a sink count, see C50
  | .orVar i pos neg, r => ∃ w F G, es[i]? = some (w, F) ∧ r = some es.length ∧ es' = es ++ [(w, G)] ∧
      ∀ x, w ≤ x.length → (F x = true → G x = true) ∧ (G x = true → F x = true ∨ (∃ v ∈ pos, x[v]? = some true) ∨ ∃ v ∈ neg, x[v]? = some false)

/-- One step of the client, as seen by the client, if a call of the manager means what `M` says and the result of `mgr.add_bdd(collection, nr)` stands in the relation
`I` to the function of the entry. -/
def SStore.StepBy (M : Nat → Fn → List BoolFn → Nat → List BoolFn → Prop) (I : Nat → BoolFn → BoolFn → Prop) (T T' : SStore) : SOp → Option Nat → Prop
  | .mgr op, r => r = none ∧ Store.StepBy M T.store T'.store op ∧ T'.entries = T.entries
  | .add i, r => ∃ F, T.store.slots[i]? = some (some F) ∧ r = some T.entries.length ∧ T'.store = T.store ∧ T'.entries = T.entries ++ [(T.store.n, F)]
  | .exportEntry nr, r => ∃ w F G, T.entries[nr]? = some (w, F) ∧ r = none ∧ T'.entries = T.entries ∧ T'.store.n = T.store.n ∧
      T'.store.slots = T.store.slots ++ [some G] ∧ SameFn T'.store.n G (fun x => F (padTo w x))
  | .importEntry nr, r => ∃ w F G, T.entries[nr]? = some (w, F) ∧ r = none ∧ T'.entries = T.entries ∧ T.store.n ≤ T'.store.n ∧ T'.store.n ≤ max T.store.n w ∧
      T'.store.slots = T.store.slots ++ [some G] ∧ I T'.store.n G (fun x => F (padTo w x))
  | .coll op, r => T'.store = T.store ∧ op.Means T.entries T'.entries r

/-- One step of the client, with the documented functions. -/
def SStore.Step (cfg : Cfg) (ord : Prop) (T T' : SStore) (op : SOp) (r : Option Nat) : Prop := SStore.StepBy (fun n f => f.Means cfg ord n) SameFn T T' op r

/-- A history of steps of the client. -/
inductive SStore.Runs (cfg : Cfg) (ord : Prop) : List (SOp × Option Nat) → SStore → Prop
  | init : SStore.Runs cfg ord [] SStore.init
  | step {h : List (SOp × Option Nat)} {op : SOp} {r : Option Nat} {T T' : SStore} : SStore.Runs cfg ord h T → SStore.Step cfg ord T T' op r →
      SStore.Runs cfg ord (h ++ [(op, r)]) T'

/-- Entry `nr` looks like `(w, F)`: its variables are below `w`, and `evaluate(nr, x)` returns `F x`. -/
def EntryIs (cfg : Cfg) (c : Coll) (nr : Nat) (e : Nat × BoolFn) : Prop :=
  (∀ v, c.Var nr v → v < e.1) ∧ ∀ x, e.1 ≤ x.length → cEvaluate cfg c nr x = .ok (e.2 x) ()

/-- The collection looks like the list of functions. -/
structure CLooks (cfg : Cfg) (c : Coll) (es : Entries) : Prop where
  len : c.nrBdds = es.length
  entry : ∀ nr e, es[nr]? = some e → EntryIs cfg c nr e

/-- The state of the client looks like `T`. -/
structure SLooks (cfg : Cfg) (S : Sys) (T : SStore) : Prop where
  api : Looks cfg S.api T.store
  coll : CLooks cfg S.coll T.entries

end LBDD
