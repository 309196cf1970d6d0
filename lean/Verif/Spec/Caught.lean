import Verif.Spec.Safe
import Verif.Spec.Seen
/-!
# Going on after an exception

A client that catches the exception of a call still has its handles. `Caught`: the states it can get into as long as it only copies, moves, assigns and destroys
handles (and asks questions, which change nothing).
-/
namespace LBDD

inductive Caught (cfg : Cfg) (u : Use) : Api → Prop where
  /-- an admissible call has thrown -/
  | thrown {a a' : Api} {f : Fn} {is : List Nat} : Reachable cfg u a → Legal cfg u a (.call f is) → Op.Safe cfg u a (.call f is) →
      step cfg (.call f is) a = .throw a' → Caught cfg u a'
  /-- a handle operation -/
  | handle {a a' : Api} {o : Op} : Caught cfg u a → (∀ f is, o ≠ .call f is) → o ≠ .gc → step cfg o a = .ok () a' → Caught cfg u a'

end LBDD
