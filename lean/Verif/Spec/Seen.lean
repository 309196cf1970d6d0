import Verif.Model.Query
import Verif.Spec.Api
import Verif.Spec.Heap
/-!
# What a client sees

A session is a sequence of handle operations, garbage collections and questions; the client sees the answers to its questions.
-/
namespace LBDD

inductive Event where
  /-- copying, moving, assigning and destroying handles, `collect_garbage()`, calls -/
  | op (o : Op)
  /-- a question -/
  | ask (q : Query)

/-- Run a session; the result lists the answers. -/
def session (cfg : Cfg) : List Event → M Api (List Answer)
  | [] => pure []
  | .op o :: es => do
    step cfg o
    session cfg es
  | .ask q :: es => do
    let r ← q.run cfg
    let rs ← session cfg es
    pure (r :: rs)

/-- The session without its collections. -/
def dropGc : List Event → List Event
  | [] => []
  | .op .gc :: es => dropGc es
  | e :: es => e :: dropGc es

/-- No event is a call of a function that makes handles out of handles (`and_rec`, `add_variable`, ...). -/
def NoCalls (es : List Event) : Prop := ∀ f is, Event.op (.call f is) ∉ es

/-- The client sees the same: both sessions end with the same answers, the same handles in its slots and the same number of variables, or both end
in the same failure. -/
def SeenAs : Res Api (List Answer) → Res Api (List Answer) → Prop
  | .ok rs a, .ok rs' b => rs = rs' ∧ a.hs = b.hs ∧ a.mgr.nvars = b.mgr.nvars
  | .throw a, .throw b => a.hs = b.hs ∧ a.mgr.nvars = b.mgr.nvars
  | .assertFail, .assertFail => True
  | .ub, .ub => True
  | .hang, .hang => True
  | _, _ => False

/-- The session without its questions. -/
def dropAsk : List Event → List Event
  | [] => []
  | .ask _ :: es => dropAsk es
  | e :: es => e :: dropAsk es

/-- Every operation of the session is admissible when it is executed. -/
def SessionLegal (cfg : Cfg) (u : Use) (a : Api) (es : List Event) : Prop :=
  ∀ pre post o, es = pre ++ .op o :: post → ∀ rs a1, session cfg pre a = .ok rs a1 → Legal cfg u a1 o

/-- Questions a client may ask, in terms of its handles: about handles that exist and are not null; `evaluate` with a value for each variable; `nr_nodes()` of a
sink only where the mark bit of the sinks, which the library does not initialise, is not set or is not looked at. -/
def Query.Admissible (cfg : Cfg) (a : Api) : Query → Prop
  | .nrVariables => True
  | .evaluate i x => (∃ p, a.hs[i]? = some (some p)) ∧ Covers a.mgr x
  | .equal i j => i < a.hs.length ∧ j < a.hs.length
  | .nrNodes i => ∃ p, a.hs[i]? = some (some p) ∧ (SinkOk cfg ∨ p ≠ botId ∧ p ≠ topId)
  | .isBotsink i | .isTopsink i | .isTerminal i | .topVariable i | .variables i | .exactlyOneSolution i => ∃ p, a.hs[i]? = some (some p)

end LBDD
