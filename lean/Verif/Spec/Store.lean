import Verif.Spec.Api
import Verif.Spec.Residual
/-!
# The manager as its user sees it: a store of Boolean functions

The user owns handles; every handle stands for a Boolean function of the variables of the manager. `Store` is that view and nothing else: no nodes, addresses, hash
tables, caches, reference counts or orders of evaluation. `Fn.Means` says what each function of the API computes in terms of Boolean functions, `Store.Step` what
each step of the client does to the store. The names of the functions and steps (`Fn`, `Op`) are those of the API.
-/
namespace LBDD

/-- A Boolean function. The value at `x` matters only if `x` has a value for each variable of the manager. -/
abbrev BoolFn := List Bool → Bool

structure Store where
  /-- number of variables -/
  n : Nat
  /-- the function of each handle, in order of creation; `none` for a null handle -/
  slots : List (Option BoolFn)

def Store.init : Store := ⟨0, []⟩

/-- The functions of the given handles; `none` if one of them is null or does not exist. -/
def Store.args (S : Store) (is : List Nat) : Option (List BoolFn) := is.mapM fun i => (S.slots[i]?).join

/-- The result is one handle, to the function `G`. -/
def Gives (n' : Nat) (Gs : List BoolFn) (G : BoolFn) : Prop := ∃ G', Gs = [G'] ∧ SameFn n' G' G

/-- `F` depends on variable `v`: flipping it in some assignment changes the value. -/
def DependsOn (n : Nat) (F : BoolFn) (v : Nat) : Prop := ∃ x, n ≤ x.length ∧ F x ≠ F (x.set v (!x.getD v false))

/-- The smallest variable on which `F` depends. -/
def LeastVar (n : Nat) (F : BoolFn) (v : Nat) : Prop := v < n ∧ DependsOn n F v ∧ ∀ w, DependsOn n F w → v ≤ w

/-- The assignment `y` of `n` variables with `y[v] = x[m v]`. -/
def renamed (n : Nat) (m : Nat → Nat) (x : List Bool) : List Bool := (List.range n).map fun v => x.getD (m v) false

/-- What the function `f` of the API computes: applied to handles to the functions `Fs` of `n` variables, it leaves `n'` variables and returns handles to the
functions `Gs`. If the history respects the variable order (`ord`), then walking the nodes of a BDD reveals cofactors of its function; otherwise that is not
specified, or less precisely. -/
def Fn.Means (cfg : Cfg) (ord : Prop) (n : Nat) : Fn → List BoolFn → Nat → List BoolFn → Prop
  | .addVariable, Fs, n', Gs => Fs = [] ∧ n' = n + 1 ∧ Gs = []
  | .botsink, Fs, n', Gs => Fs = [] ∧ n' = n ∧ Gives n' Gs (fun _ => false)
  | .topsink, Fs, n', Gs => Fs = [] ∧ n' = n ∧ Gives n' Gs (fun _ => true)
  | .projection v, Fs, n', Gs => Fs = [] ∧ n' = max n (v + 1) ∧ Gives n' Gs (fun x => x.getD v false)
  | .negProjection v, Fs, n', Gs => Fs = [] ∧ n' = n ∧ Gives n' Gs (fun x => !x.getD v false)
  | .uniqueFind v, Fs, n', Gs => ∃ L H, Fs = [L, H] ∧ n' = n ∧ Gives n' Gs (fun x => if x.getD v false then H x else L x)
  | .negate, Fs, n', Gs => ∃ F, Fs = [F] ∧ n' = n ∧ Gives n' Gs (fun x => !F x)
  | .and, Fs, n', Gs => ∃ F G, Fs = [F, G] ∧ n' = n ∧ Gives n' Gs (fun x => F x && G x)
  | .or, Fs, n', Gs => ∃ F G, Fs = [F, G] ∧ n' = n ∧ Gives n' Gs (fun x => F x || G x)
  | .xor, Fs, n', Gs => ∃ F G, Fs = [F, G] ∧ n' = n ∧ Gives n' Gs (fun x => F x != G x)
  | .ite, Fs, n', Gs => ∃ F G H, Fs = [F, G, H] ∧ n' = n ∧ Gives n' Gs (fun x => if F x then G x else H x)
  | .andRange, Fs, n', Gs => n' = n ∧ Gives n' Gs (fun x => Fs.all fun F => F x)
  | .andAll, Fs, n', Gs => n' = n ∧ Gives n' Gs (fun x => Fs.all fun F => F x)
  | .orRange, Fs, n', Gs => n' = n ∧ Gives n' Gs (fun x => Fs.any fun F => F x)
  | .orAll, Fs, n', Gs => n' = n ∧ Gives n' Gs (fun x => Fs.any fun F => F x)
  | .xorRange, Fs, n', Gs => n' = n ∧ Gives n' Gs (fun x => decide (countTrue Fs x % 2 = 1))
  | .xorAll, Fs, n', Gs => n' = n ∧ Gives n' Gs (fun x => decide (countTrue Fs x % 2 = 1))
  | .allFalse, Fs, n', Gs => n' = n ∧ Gives n' Gs (fun x => decide (countTrue Fs x = 0))
  | .atMostOne, Fs, n', Gs => n' = n ∧ Gives n' Gs (fun x => decide (countTrue Fs x ≤ 1))
  | .atLeastOne, Fs, n', Gs => n' = n ∧ Gives n' Gs (fun x => decide (1 ≤ countTrue Fs x))
  | .simplex, Fs, n', Gs => n' = n ∧ Gives n' Gs (fun x => decide (countTrue Fs x = 1))
  | .atLeast b, Fs, n', Gs => n' = n ∧ Gives n' Gs (fun x => decide (b ≤ countTrue Fs x))
  -- a bound larger than the number of functions gives false (finding 4)
  | .atMost b, Fs, n', Gs => n' = n ∧ Gives n' Gs (fun x => decide (b ≤ Fs.length) && decide (countTrue Fs x ≤ b))
  | .cardinality b, Fs, n', Gs => n' = n ∧ Gives n' Gs (fun x => decide (countTrue Fs x = b))
  | .rebaseMap m, Fs, n', Gs => ∃ F, Fs = [F] ∧ n' = max n ((m.map (·.2)).foldl max 0 + 1) ∧ Gives n' Gs (fun x => F (renamed n (fun v => (m.lookup v).getD 0) x))
  | .rebaseVec m, Fs, n', Gs => ∃ F, Fs = [F] ∧ n' = max n (m.foldl max 0 + 1) ∧ Gives n' Gs (fun x => F (renamed n (fun v => m.getD v 0) x))
  -- no handle if the limit was exceeded
  | .andLimited _, Fs, n', Gs => ∃ F G, Fs = [F, G] ∧ n' = n ∧ (Gs = [] ∨ Gives n' Gs (fun x => F x && G x))
  | .nrNodes, Fs, n', Gs => ∃ F, Fs = [F] ∧ n' = n ∧ Gs = []
  | .nodesPostorder, Fs, n', Gs => ∃ F, Fs = [F] ∧ n' = n ∧ (ord → ListsResiduals n F Gs)
  | .nodesBfs, Fs, n', Gs => ∃ F, Fs = [F] ∧ n' = n ∧ (ord → ListsResiduals n F Gs)
  | .variables, Fs, n', Gs => ∃ F, Fs = [F] ∧ n' = n ∧ Gs = []
  | .exactlyOneSolution, Fs, n', Gs => ∃ F, Fs = [F] ∧ n' = n ∧ Gs = []
  | .print, Fs, n', Gs => ∃ F, Fs = [F] ∧ n' = n ∧ Gs = []
  | .low, Fs, n', Gs => ∃ F G v, Fs = [F] ∧ n' = n ∧ Gs = [G] ∧ v < n ∧ (∀ x, n ≤ x.length → x.getD v false = false → G x = F x) ∧
      (ord → LeastVar n F v ∧ SameFn n G (fun x => F (x.set v false)))
  | .high, Fs, n', Gs => ∃ F G v, Fs = [F] ∧ n' = n ∧ Gs = [G] ∧ v < n ∧ (∀ x, n ≤ x.length → x.getD v false = true → G x = F x) ∧
      (ord → LeastVar n F v ∧ SameFn n G (fun x => F (x.set v true)))
  | .refBotsink, Fs, n', Gs => ∃ F, Fs = [F] ∧ n' = n ∧ Gives n' Gs (fun _ => false)
  | .refTopsink, Fs, n', Gs => ∃ F, Fs = [F] ∧ n' = n ∧ Gives n' Gs (fun _ => true)
  | .exportBdd c nr, Fs, n', Gs => ∃ F, Fs = [] ∧ n' = n ∧ CDenotes cfg c nr F ∧ Gives n' Gs F
  | .importBdd c nr, Fs, n', Gs => ∃ F, Fs = [] ∧ n ≤ n' ∧ (∀ v, c.Var nr v → v < n') ∧ (n' = n ∨ ∃ v, c.Var nr v ∧ n' = v + 1) ∧
      CDenotes cfg c nr F ∧ Gives n' Gs F

/-- One step of the client, as seen by the client; `M n f Fs n' Gs` is what the function `f` of the API does. -/
def Store.StepBy (M : Nat → Fn → List BoolFn → Nat → List BoolFn → Prop) (S S' : Store) : Op → Prop
  | .call f is => ∃ Fs Gs, S.args is = some Fs ∧ M S.n f Fs S'.n Gs ∧ S'.slots = S.slots ++ Gs.map some
  | .copy i => ∃ o, S.slots[i]? = some o ∧ S'.n = S.n ∧ S'.slots = S.slots ++ [o]
  | .move i => ∃ o, S.slots[i]? = some o ∧ S'.n = S.n ∧ S'.slots = S.slots.set i none ++ [o]
  | .assign i j => ∃ o, i < S.slots.length ∧ S.slots[j]? = some o ∧ S'.n = S.n ∧ S'.slots = S.slots.set i o
  | .drop i => i < S.slots.length ∧ S'.n = S.n ∧ S'.slots = S.slots.set i none
  | .gc => S'.n = S.n ∧ S'.slots = S.slots

/-- One step of the client, with the documented functions. -/
def Store.Step (cfg : Cfg) (ord : Prop) (S S' : Store) (op : Op) : Prop := Store.StepBy (fun n f => f.Means cfg ord n) S S' op

/-- A history of steps of the client. -/
inductive Store.Runs (cfg : Cfg) (ord : Prop) : List Op → Store → Prop
  | init : Store.Runs cfg ord [] Store.init
  | step {ops : List Op} {op : Op} {S S' : Store} : Store.Runs cfg ord ops S → Store.Step cfg ord S S' op → Store.Runs cfg ord (ops ++ [op]) S'

/-- The same history executed by the library. -/
inductive History (cfg : Cfg) (u : Use) : List Op → Api → Prop
  | init : History cfg u [] (Api.init cfg)
  | step {ops : List Op} {op : Op} {a a' : Api} : History cfg u ops a → Legal cfg u a op → LBDD.step cfg op a = .ok () a' → History cfg u (ops ++ [op]) a'

/-- `evaluate` on the handle returns the values of the function; null handles correspond to null handles. -/
def SlotOk (cfg : Cfg) (s : Mgr) : Option Nat → Option BoolFn → Prop
  | none, none => True
  | some p, some F => Denotes cfg s p F
  | _, _ => False

/-- The client state `a` looks like the store `S`. -/
structure Looks (cfg : Cfg) (a : Api) (S : Store) : Prop where
  nvars : a.mgr.nvars = S.n
  len : a.hs.length = S.slots.length
  slot : ∀ (i : Nat) (o : Option Nat) (w : Option BoolFn), a.hs[i]? = some o → S.slots[i]? = some w → SlotOk cfg a.mgr o w

end LBDD
