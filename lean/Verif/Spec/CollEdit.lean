import Verif.Model.CollEdit
import Verif.Spec.Coll
/-!
# Specification vocabulary for `bdd_or_var` and for editing entries
-/
namespace LBDD

/-- Evaluating from position `i` under `x` comes by position `j`: at every inner node the arc chosen by `x` is followed. -/
inductive CVisits (ins : List Instr) (x : List Bool) : Nat → Nat → Prop
  | refl (i : Nat) : CVisits ins x i i
  | step {i j : Nat} {e : Instr} : ins[i]? = some e → e.Inner → CVisits ins x (if x[e.index]? = some true then e.hi else e.lo) j → CVisits ins x i j

/-- Evaluating entry `nr` under `x` looks at the value of variable `v`. -/
def Coll.Tests (c : Coll) (nr : Nat) (x : List Bool) (v : Nat) : Prop :=
  ∃ d0 j e, c.del[nr]? = some d0 ∧ CVisits c.ins x d0 j ∧ c.ins[j]? = some e ∧ e.Inner ∧ e.index = v

/-- Position `j` of entry `nr` is the true sink. -/
def Coll.TopAt (c : Coll) (nr j : Nat) : Prop := ∃ e, c.At nr j e ∧ e.index = cTop

/-- Setting the hi arcs of the nodes with variables in `pos` and the lo arcs of the nodes with variables in `neg` to the true sink leaves entry `nr`
reduced: no node gets two equal arcs, no two nodes become equal. -/
structure OrSimple (c : Coll) (nr : Nat) (pos neg : List Nat) : Prop where
  both : ∀ v, c.Var nr v → v ∈ pos → v ∉ neg
  lo : ∀ j e, c.At nr j e → e.Inner → e.index ∈ pos → ¬ c.TopAt nr e.lo
  hi : ∀ j e, c.At nr j e → e.Inner → e.index ∈ neg → ¬ c.TopAt nr e.hi
  dist : ∀ j e j' e', c.At nr j e → c.At nr j' e' → e.Inner → e.index = e'.index → (e.index ∈ neg ∨ e.lo = e'.lo) → (e.index ∈ pos ∨ e.hi = e'.hi) → j = j'

/-- After setting the hi arcs of the nodes with variables in `pos` and the lo arcs of the nodes with variables in `neg` to the true sink, both arcs of
the inner node at position `j` of entry `nr` lead to the true sink. -/
def Coll.BothTop (c : Coll) (nr : Nat) (pos neg : List Nat) (j : Nat) : Prop :=
  ∃ e, c.At nr j e ∧ e.Inner ∧ (e.index ∈ neg ∨ c.TopAt nr e.lo) ∧ (e.index ∈ pos ∨ c.TopAt nr e.hi)

/-- The call neither returns nor throws: a failed assertion or undefined behaviour. -/
def Crashes {α : Type} (o : Res Coll α) : Prop := o = .assertFail ∨ o = .ub

end LBDD
