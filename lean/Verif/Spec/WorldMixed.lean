import Verif.Spec.World
import Verif.Spec.StoreMixed
import Verif.Spec.Safe
/-!
# Managers and collections when some managers combine `xor_rec` with `or_rec`

A manager whose history does that has the weak guarantees of `Fn.WeakMeans` (finding 1); every other manager, and every collection, has the documented ones: the damage
does not spread through the shared random generator or through collections.
-/
namespace LBDD

/-- What the function `f` of the API computes in a manager that is used as `u` says. -/
def Fn.MeansIn (u : Use) (cfg : Cfg) (n : Nat) (f : Fn) (Fs : List BoolFn) (n' : Nat) (Gs : List BoolFn) : Prop :=
  (u = .mixed → f.WeakMeans cfg (u = .ordered) n Fs n' Gs) ∧ (u ≠ .mixed → f.Means cfg (u = .ordered) n Fs n' Gs)

/-- `G` is true only where `F` is. -/
def Below (n : Nat) (G F : BoolFn) : Prop := ∀ x, n ≤ x.length → G x = true → F x = true

/-- What `mgr.add_bdd(collection, nr)` returns for an entry with function `F`. -/
def ImportIn (u : Use) (n : Nat) (G F : BoolFn) : Prop := (u = .mixed → Below n G F) ∧ (u ≠ .mixed → SameFn n G F)

/-- A history of one manager and one collection. -/
inductive SStore.AnyRuns (cfg : Cfg) (u : Use) : List (SOp × Option Nat) → SStore → Prop
  | init : SStore.AnyRuns cfg u [] SStore.init
  | step {h : List (SOp × Option Nat)} {op : SOp} {r : Option Nat} {T T' : SStore} : SStore.AnyRuns cfg u h T →
      SStore.StepBy (fun n f => f.MeansIn u cfg n) (ImportIn u) T T' op r → SStore.AnyRuns cfg u (h ++ [(op, r)]) T'

/-- A history of a program. -/
inductive WStore.AnyRuns (env : Nat → Cfg) (us : Nat → Use) : List (WOp × Option Nat) → WStore → Prop
  | init : WStore.AnyRuns env us [] ⟨[], []⟩
  | step {h : List (WOp × Option Nat)} {op : WOp} {r : Option Nat} {T T' : WStore} : WStore.AnyRuns env us h T →
      WStore.StepBy (fun i n f => f.MeansIn (us i) (env i) n) (fun i => ImportIn (us i)) T T' op r → WStore.AnyRuns env us (h ++ [(op, r)]) T'

/-- What the step of a program needs beyond `WOp.Legal` in order to succeed. -/
def WOp.Safe (env : Nat → Cfg) (us : Nat → Use) (W : World) : WOp → Prop
  | .newMgr => True
  | .newColl => True
  | .copyColl k => k < W.colls.length
  | .mgr i op => ∃ a, W.mgrs[i]? = some a ∧ op.Safe (env i) (us i) a
  | .coll k op => ∃ c, W.colls[k]? = some c ∧ op.Safe (env 0) c
  | .move i k op => op.IsMove ∧ ∃ S : Sys, W.mgrs[i]? = some S.api ∧ W.colls[k]? = some S.coll ∧ op.Safe (env i) (us i) S

/-- The step throws because a variable of the manager concerned has more than 2^18 nodes; the user's handles are as before. -/
def World.Full (env : Nat → Cfg) (W : World) : WOp → Prop
  | .mgr i op => ∃ a a', W.mgrs[i]? = some a ∧ LBDD.step (env i) op a = .throw a' ∧ TableFull a'.mgr ∧ a'.hs = a.hs
  | .move i k op => ∃ S : Sys, W.mgrs[i]? = some S.api ∧ W.colls[k]? = some S.coll ∧ S.Full (env i) op
  | _ => False

end LBDD
