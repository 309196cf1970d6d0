import Verif.Model.Coll
/-!
# Specification vocabulary for collections

Entry `nr` of a collection is a stretch of the instruction vector; its last two instructions are the sinks, its first one is the root.
-/
namespace LBDD

/-- Entry `nr` occupies the positions `d0 .. d1-1`. -/
def Coll.Entry (c : Coll) (nr d0 d1 : Nat) : Prop := c.del[nr]? = some d0 ∧ c.del[nr + 1]? = some d1

/-- An instruction that is not a sink. -/
def Instr.Inner (e : Instr) : Prop := e.index ≠ cBot ∧ e.index ≠ cTop

/-- Position `i` belongs to entry `nr` and holds the instruction `e`. -/
def Coll.At (c : Coll) (nr i : Nat) (e : Instr) : Prop :=
  ∃ d0 d1, c.Entry nr d0 d1 ∧ d0 ≤ i ∧ i < d1 ∧ c.ins[i]? = some e

/-- Variable `v` labels a node of entry `nr`. -/
def Coll.Var (c : Coll) (nr v : Nat) : Prop := ∃ i e, c.At nr i e ∧ e.Inner ∧ e.index = v

/-- The assignment `x` has a value for every variable of entry `nr`. -/
def CCovers (c : Coll) (nr : Nat) (x : List Bool) : Prop := ∀ v, c.Var nr v → v < x.length

/-- Entry `nr` denotes the Boolean function `F`: `evaluate(nr, x)` returns `F x` for every assignment to its variables. -/
def CDenotes (cfg : Cfg) (c : Coll) (nr : Nat) (F : List Bool → Bool) : Prop :=
  ∀ x, CCovers c nr x → cEvaluate cfg c nr x = .ok (F x) ()

/-- The stretch `d0 .. d1-1` is a DAG in topological order: the two different sinks last, all other instructions inner nodes with two
different arcs pointing forward inside the stretch. -/
structure WfRange (ins : List Instr) (d0 d1 : Nat) : Prop where
  two : d0 + 2 ≤ d1
  inner : ∀ i, d0 ≤ i → i + 2 < d1 → ∃ e, ins[i]? = some e ∧ e.index < cBot ∧ e.lo ≠ e.hi ∧ i < e.lo ∧ e.lo < d1 ∧ i < e.hi ∧ e.hi < d1
  sinks : ∃ a b, ins[d1 - 2]? = some a ∧ ins[d1 - 1]? = some b ∧ a.lo = a.hi ∧ b.lo = b.hi ∧
    (a.index = cBot ∧ b.index = cTop ∨ a.index = cTop ∧ b.index = cBot)

/-- Entry `nr` exists and is a DAG in topological order. -/
def Coll.Wf (c : Coll) (nr : Nat) : Prop := ∃ d0 d1, c.Entry nr d0 d1 ∧ WfRange c.ins d0 d1

/-- Variables increase along every arc of entry `nr`. -/
def Coll.Ordered (c : Coll) (nr : Nat) : Prop :=
  ∀ i e j e', c.At nr i e → e.Inner → (j = e.lo ∨ j = e.hi) → c.At nr j e' → e'.Inner → e.index < e'.index

/-- Entry `nr` has no node with equal arcs and no two equal nodes. -/
def Coll.Reduced (c : Coll) (nr : Nat) : Prop :=
  (∀ i e, c.At nr i e → e.Inner → e.lo ≠ e.hi) ∧ ∀ i j e, c.At nr i e → c.At nr j e → e.Inner → i = j

/-- Position `j` can be reached from `i` along arcs of inner nodes. -/
inductive CReach (ins : List Instr) : Nat → Nat → Prop
  | refl (i : Nat) : CReach ins i i
  | lo {i j : Nat} {e : Instr} : ins[i]? = some e → e.Inner → CReach ins e.lo j → CReach ins i j
  | hi {i j : Nat} {e : Instr} : ins[i]? = some e → e.Inner → CReach ins e.hi j → CReach ins i j

/-- Every inner node of entry `nr` can be reached from its root, the first position. -/
def Coll.Connected (c : Coll) (nr : Nat) : Prop :=
  ∀ d0 i e, c.del[nr]? = some d0 → c.At nr i e → e.Inner → CReach c.ins d0 i

/-- Entry `nr'` of `c'` is a copy of entry `nr` of `c`: as long, with the same labels, and with the same arcs relative to its start. -/
def SameEntry (c : Coll) (nr : Nat) (c' : Coll) (nr' : Nat) : Prop :=
  ∃ d0 d0' n, c.Entry nr d0 (d0 + n) ∧ c'.Entry nr' d0' (d0' + n) ∧
    ∀ i, i < n → ∃ e e', c.ins[d0 + i]? = some e ∧ c'.ins[d0' + i]? = some e' ∧ e'.index = e.index ∧ (¬ e.Inner → e' = e) ∧
      (e.Inner → d0 ≤ e.lo ∧ d0 ≤ e.hi ∧ e'.lo = e.lo - d0 + d0' ∧ e'.hi = e.hi - d0 + d0')

/-- The numbers from `nr` to `nr + n - 1` that are not in `l`, in increasing order. -/
def keptOf (n nr : Nat) (l : List Nat) : List Nat := (List.range' nr n).filter (fun i => !l.contains i)

/-- Entry `nr` has inner nodes. -/
def Coll.Big (c : Coll) (nr : Nat) : Prop := ∀ d0 d1, c.Entry nr d0 d1 → d0 + 2 < d1

/-- Number of instructions of entry `nr`. -/
def Coll.Size (c : Coll) (nr k : Nat) : Prop := ∃ d0 d1, c.Entry nr d0 d1 ∧ d1 = d0 + k

/-- Entry `nr` of `c'` is the conjunction of the entries `l` of `c`: on every assignment to the variables of these entries, `evaluate(nr, x)`
is true exactly when all of them evaluate to true. -/
def IsConj (cfg : Cfg) (c : Coll) (l : List Nat) (c' : Coll) (nr : Nat) : Prop :=
  ∀ x, (∀ i ∈ l, CCovers c i x) → ∃ b, cEvaluate cfg c' nr x = .ok b () ∧ (b = true ↔ ∀ i ∈ l, cEvaluate cfg c i x = .ok true ())

/-- Some assignment makes all the entries `l` true. -/
def Satisfiable (cfg : Cfg) (c : Coll) (l : List Nat) : Prop := ∃ x, (∀ i ∈ l, CCovers c i x) ∧ ∀ i ∈ l, cEvaluate cfg c i x = .ok true ()

/-- Some assignment makes one of the entries `l` false. -/
def Refutable (cfg : Cfg) (c : Coll) (l : List Nat) : Prop := ∃ x, (∀ i ∈ l, CCovers c i x) ∧ ∃ i ∈ l, cEvaluate cfg c i x = .ok false ()

end LBDD
