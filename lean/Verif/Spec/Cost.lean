import Verif.Model.Cost
import Verif.Spec.Api
import Verif.Spec.Coll
/-! Specification vocabulary for numbers of calls. -/
namespace LBDD

/-- Without the counter `mk` is `m`. -/
def Counts {σ α : Type} (mk : MK σ α) (m : M σ α) : Prop := ∀ s, (mk s).1 = m s

/-- Number of calls of a run from `s`. -/
def MK.calls {σ α : Type} (mk : MK σ α) (s : σ) : Nat := (mk s).2

/-- The BDD at `p`, unfolded into a tree (nodes copied for every path that leads to them), has `k` nodes, counting the sinks. -/
inductive Unfolded (cells : Nat → Cell) : Nat → Nat → Prop
  | sink {p : Nat} : p < 2 → Unfolded cells p 1
  | node {p k l : Nat} : 2 ≤ p → Unfolded cells (cells p).lo k → Unfolded cells (cells p).hi l → Unfolded cells p (1 + k + l)

/-- The same for the instructions of a collection. -/
inductive CUnfolded (ins : List Instr) : Nat → Nat → Prop
  | sink {p : Nat} {e : Instr} : ins[p]? = some e → ¬ e.Inner → CUnfolded ins p 1
  | node {p k l : Nat} {e : Instr} : ins[p]? = some e → e.Inner → CUnfolded ins e.lo k → CUnfolded ins e.hi l → CUnfolded ins p (1 + k + l)

/-- The pair of BDDs at positions `f` and `g`, descended simultaneously by their smallest root variable until `f` is the false sink or both are sinks,
and unfolded into a tree (no two paths share a pair), has `k` nodes. -/
inductive PairUnfolded (ins : List Instr) : Nat → Nat → Nat → Prop
  | sinks {f g : Nat} {a b : Instr} : ins[f]? = some a → ins[g]? = some b → ¬ a.Inner → ¬ b.Inner → PairUnfolded ins f g 1
  | bot {f g : Nat} {a : Instr} : ins[f]? = some a → a.index = cBot → PairUnfolded ins f g 1
  | split {f g k l v : Nat} {a b : Instr} : ins[f]? = some a → ins[g]? = some b → a.index ≠ cBot → a.Inner ∨ b.Inner → v = min a.index b.index →
      PairUnfolded ins (if a.index = v then a.lo else f) (if b.index = v then b.lo else g) k →
      PairUnfolded ins (if a.index = v then a.hi else f) (if b.index = v then b.hi else g) l → PairUnfolded ins f g (1 + k + l)

/-- The BDDs at the positions `key`, descended simultaneously by their smallest root variable until one of them is the false sink, and unfolded into a
tree (no two paths share a tuple), have `k` nodes. -/
inductive KeyUnfolded (ins : List Instr) : List Nat → Nat → Prop
  | bot {key : List Nat} {p : Nat} {e : Instr} : p ∈ key → ins[p]? = some e → e.index = cBot → KeyUnfolded ins key 1
  | split {key : List Nat} {es : List Instr} {k l v : Nat} : key.map (ins[·]?) = es.map some → (∀ e ∈ es, e.index ≠ cBot ∧ v ≤ e.index) →
      (∃ e ∈ es, e.index = v ∧ e.Inner) → KeyUnfolded ins (List.zipWith (fun p (e : Instr) => if e.index = v then e.lo else p) key es) k →
      KeyUnfolded ins (List.zipWith (fun p (e : Instr) => if e.index = v then e.hi else p) key es) l → KeyUnfolded ins key (1 + k + l)

/-- An odd number of the variables `vs` is true. -/
def parity : List Nat → List Bool → Bool
  | [], _ => false
  | v :: vs, x => (x.getD v false) ^^ parity vs x

end LBDD
