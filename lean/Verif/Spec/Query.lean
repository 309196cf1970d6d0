import Verif.Spec.Store
import Verif.Model.Query
/-!
# The answers to the questions of a client, in terms of its store of Boolean functions
-/
namespace LBDD

/-- The right answer to the question `q` for the store `S`. -/
def Query.Right (S : Store) : Query → Answer → Prop
  | .nrVariables, r => r = .num S.n
  | .evaluate i x, r => ∃ F, S.slots[i]? = some (some F) ∧ r = .bool (F x)
  -- two null handles are equal
  | .equal i j, r => ∃ o w b, S.slots[i]? = some o ∧ S.slots[j]? = some w ∧ r = .bool b ∧
      (b = true ↔ (o = none ∧ w = none) ∨ ∃ F G, o = some F ∧ w = some G ∧ SameFn S.n F G)
  | .isBotsink i, r => ∃ F b, S.slots[i]? = some (some F) ∧ r = .bool b ∧ (b = true ↔ SameFn S.n F (fun _ => false))
  | .isTopsink i, r => ∃ F b, S.slots[i]? = some (some F) ∧ r = .bool b ∧ (b = true ↔ SameFn S.n F (fun _ => true))
  | .isTerminal i, r => ∃ F b, S.slots[i]? = some (some F) ∧ r = .bool b ∧ (b = true ↔ ConstFn S.n F)
  | .topVariable i, r => ∃ F v, S.slots[i]? = some (some F) ∧ r = .num v ∧ LeastVar S.n F v
  -- the number of different functions that are not constant and arise by fixing some of the first variables
  | .nrNodes i, r => ∃ F Gs, S.slots[i]? = some (some F) ∧ ListsResiduals S.n F Gs ∧ r = .num Gs.length
  | .variables i, r => ∃ F l, S.slots[i]? = some (some F) ∧ r = .list l ∧ l.Pairwise (· < ·) ∧ ∀ v, v ∈ l ↔ DependsOn S.n F v
  -- one and only one assignment of the variables on which `F` depends makes `F` true
  | .exactlyOneSolution i, r => ∃ F b, S.slots[i]? = some (some F) ∧ r = .bool b ∧
      (b = true ↔ ∃ x, S.n ≤ x.length ∧ F x = true ∧ ∀ y, S.n ≤ y.length → F y = true → ∀ v, DependsOn S.n F v → y.getD v false = x.getD v false)

/-- The questions a client may ask: about handles that exist and are not null; `evaluate` with a value for each variable; `variable()` of a function that is not
constant; `nr_nodes()` of a constant only where the mark bit of the sinks, which the library does not initialise, is not set or is not looked at. -/
def Query.Legal (cfg : Cfg) (S : Store) : Query → Prop
  | .nrVariables => True
  | .evaluate i x => (∃ F, S.slots[i]? = some (some F)) ∧ S.n ≤ x.length
  | .equal i j => i < S.slots.length ∧ j < S.slots.length
  | .isBotsink i => ∃ F, S.slots[i]? = some (some F)
  | .isTopsink i => ∃ F, S.slots[i]? = some (some F)
  | .isTerminal i => ∃ F, S.slots[i]? = some (some F)
  | .topVariable i => ∃ F, S.slots[i]? = some (some F) ∧ ¬ ConstFn S.n F
  | .nrNodes i => ∃ F, S.slots[i]? = some (some F) ∧ (SinkOk cfg ∨ ¬ ConstFn S.n F)
  | .variables i => ∃ F, S.slots[i]? = some (some F)
  | .exactlyOneSolution i => ∃ F, S.slots[i]? = some (some F)

end LBDD
