import Verif.Spec.Api
import Verif.Spec.Heap
import Verif.Model.Handle
/-! # Mark bits set by the user -/
namespace LBDD

/-- The two states are the same except for mark bits. -/
def SameButMarks (a b : Api) : Prop := b.hs = a.hs ∧ b.mgr = { a.mgr with marks := b.mgr.marks }

/-- No inner node of the BDD `p` is marked. -/
def Unmarked (s : Mgr) (p : Nat) : Prop := ∀ q, 2 ≤ q → Reaches s.cells p q → s.marks q = false

/-- A path from `p` to `q` through marked inner nodes, both ends included. -/
inductive MarkedPath (c : Nat → Cell) (m : Nat → Bool) : Nat → Nat → Prop
  | refl {p : Nat} : 2 ≤ p → m p = true → MarkedPath c m p p
  | lo {p q : Nat} : 2 ≤ p → m p = true → MarkedPath c m (c p).lo q → MarkedPath c m p q
  | hi {p q : Nat} : 2 ≤ p → m p = true → MarkedPath c m (c p).hi q → MarkedPath c m p q

/-- Calls that look at mark bits: the traversals and what is built on them. -/
def Fn.looks : Fn → Bool
  | .rebaseMap _ | .rebaseVec _ | .andLimited _ | .nrNodes | .nodesPostorder | .nodesBfs | .variables | .print => true
  | _ => false
/-- Of these, the calls that only traverse their argument. -/
def Fn.traverses : Fn → Bool
  | .nrNodes | .nodesPostorder | .nodesBfs | .variables | .print => true
  | _ => false

/-- `op` is no traversal, or a traversal of a non-terminal BDD without marked nodes. -/
def MarkFree (a : Api) : Op → Prop
  | .call f is => f.looks = false ∨ (f.traverses = true ∧ ∀ ps, a.args is = some ps → ∀ p ∈ ps, 2 ≤ p ∧ Unmarked a.mgr p)
  | _ => True

/-- Two processes in the same reachable state go on to make the same legal calls; the second one also sets and clears mark bits through its handles, and calls traversals only on BDDs
without marked nodes. -/
inductive MarkHistory (cfg : Cfg) (u : Use) : Api → Api → Prop
  | start {a : Api} : Reachable cfg u a → MarkHistory cfg u a a
  | step {a b a' b' : Api} {op : Op} : MarkHistory cfg u a b → Legal cfg u a op → MarkFree b op →
      step cfg op a = .ok () a' → step cfg op b = .ok () b' → MarkHistory cfg u a' b'
  | mark {a b : Api} {p : Nat} {s' : Mgr} : MarkHistory cfg u a b → b.Holds p → refMark p b.mgr = .ok () s' →
      MarkHistory cfg u a { b with mgr := s' }
  | unmark {a b : Api} {p : Nat} {s' : Mgr} : MarkHistory cfg u a b → b.Holds p → refUnmark p b.mgr = .ok () s' →
      MarkHistory cfg u a { b with mgr := s' }
  | unmarkRec {a b : Api} {p : Nat} {s' : Mgr} : MarkHistory cfg u a b → b.Holds p → refUnmarkRec cfg p b.mgr = .ok () s' →
      MarkHistory cfg u a { b with mgr := s' }
  | nodeMark {a b : Api} {p : Nat} {s' : Mgr} : MarkHistory cfg u a b → b.Holds p → nodeMark cfg p b.mgr = .ok () s' →
      MarkHistory cfg u a { b with mgr := s' }

/-- The two calls end alike: same kind of outcome, same result, same states except for mark bits. -/
def SameEnd {α : Type} : Res Api α → Res Api α → Prop
  | .ok x a, .ok y b => x = y ∧ SameButMarks a b
  | .throw a, .throw b => SameButMarks a b
  | .assertFail, .assertFail => True
  | .ub, .ub => True
  | .hang, .hang => True
  | _, _ => False

end LBDD
