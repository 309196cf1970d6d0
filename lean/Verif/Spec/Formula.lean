import Verif.Spec.Api
/-!
# Propositional formulas and their construction by a client

A formula over held BDDs, its truth value, and the straightforward client program that builds its BDD bottom-up with the functions of the library.
-/
namespace LBDD

/-- The functions of the library that take a range of BDDs. -/
inductive Range where
  /-- `and_rec(begin, end)` -/
  | all
  /-- `or_rec(begin, end)` -/
  | any
  /-- `all_false(begin, end)` -/
  | none
  /-- `at_least_one(begin, end)` -/
  | some
  /-- `at_most_one(begin, end)` -/
  | atMostOne
  /-- `simplex(begin, end)` -/
  | one
  /-- `at_least(begin, end, b)` -/
  | atLeast (b : Nat)
  /-- `at_most(begin, end, b)` -/
  | atMost (b : Nat)
  /-- `cardinality(begin, end, b)` -/
  | exactly (b : Nat)

/-- Number of true values. -/
def trues (l : List Bool) : Nat := (l.filter id).length

/-- What the range functions mean. -/
def Range.holds : Range → List Bool → Bool
  | .all, l => decide (trues l = l.length)
  | .any, l => decide (1 ≤ trues l)
  | .none, l => decide (trues l = 0)
  | .some, l => decide (1 ≤ trues l)
  | .atMostOne, l => decide (trues l ≤ 1)
  | .one, l => decide (trues l = 1)
  | .atLeast b, l => decide (b ≤ trues l)
  | .atMost b, l => decide (trues l ≤ b)
  | .exactly b, l => decide (trues l = b)

/-- The lengths of ranges for which the functions are correct: `and_rec` and `or_rec` want two elements, the others one; `at_most` is wrong for bounds above the
length (`C19_refuted`). -/
def Range.Ok (n : Nat) : Range → Prop
  | .all => 2 ≤ n
  | .any => 2 ≤ n
  | .atMost b => 1 ≤ n ∧ b ≤ n
  | _ => 1 ≤ n

/-- The call. -/
def Range.call (cfg : Cfg) : Range → List Nat → M Mgr Nat
  | .all, l => andRange cfg l
  | .any, l => orRange cfg l
  | .none, l => allFalse cfg l
  | .some, l => atLeastOne cfg l
  | .atMostOne, l => LBDD.atMostOne cfg l
  | .one, l => simplex cfg l
  | .atLeast b, l => LBDD.atLeast cfg l b
  | .atMost b, l => LBDD.atMost cfg l b
  | .exactly b, l => cardinality cfg l b

/-- Formulas over a list of held BDDs. -/
inductive Formula where
  /-- the `i`th held BDD -/
  | held (i : Nat)
  | ff
  | tt
  | not (φ : Formula)
  | and (φ ψ : Formula)
  | or (φ ψ : Formula)
  | range (q : Range) (φs : List Formula)

mutual
/-- The truth value, when the held BDDs have the values `v`. -/
def Formula.value (v : List Bool) : Formula → Bool
  | .held i => v.getD i false
  | .ff => false
  | .tt => true
  | .not φ => !φ.value v
  | .and φ ψ => φ.value v && ψ.value v
  | .or φ ψ => φ.value v || ψ.value v
  | .range q φs => q.holds (Formula.values v φs)
/-- The truth values of a list of formulas. -/
def Formula.values (v : List Bool) : List Formula → List Bool
  | [] => []
  | φ :: φs => φ.value v :: Formula.values v φs
end

mutual
/-- The formula only refers to the first `n` held BDDs and its ranges have admissible lengths. -/
def Formula.Wf (n : Nat) : Formula → Prop
  | .held i => i < n
  | .ff => True
  | .tt => True
  | .not φ => φ.Wf n
  | .and φ ψ => φ.Wf n ∧ ψ.Wf n
  | .or φ ψ => φ.Wf n ∧ ψ.Wf n
  | .range q φs => q.Ok φs.length ∧ Formula.Wfs n φs
/-- All formulas of the list are well-formed. -/
def Formula.Wfs (n : Nat) : List Formula → Prop
  | [] => True
  | φ :: φs => φ.Wf n ∧ Formula.Wfs n φs
end

mutual
/-- The client program: build the arguments (of a function with two arguments in the order the compiler chooses, of a range one after the other), then call the
function. -/
def Formula.build (cfg : Cfg) (ps : List Nat) : Formula → M Mgr Nat
  | .held i => pure (ps.getD i 0)
  | .ff => pure botId
  | .tt => pure topId
  | .not φ => do
    let r ← φ.build cfg ps
    negateOp cfg r
  | .and φ ψ => do
    let r ← args2 cfg (φ.build cfg ps) (ψ.build cfg ps)
    andOp cfg r.1 r.2
  | .or φ ψ => do
    let r ← args2 cfg (φ.build cfg ps) (ψ.build cfg ps)
    orOp cfg r.1 r.2
  | .range q φs => do
    let l ← Formula.builds cfg ps φs
    q.call cfg l
/-- Build all elements of a range. -/
def Formula.builds (cfg : Cfg) (ps : List Nat) : List Formula → M Mgr (List Nat)
  | [] => pure []
  | φ :: φs => do
    let r ← φ.build cfg ps
    let l ← Formula.builds cfg ps φs
    pure (r :: l)
end

/-- Two formulas over `n` atoms are logically equivalent. -/
def Formula.Equiv (n : Nat) (φ ψ : Formula) : Prop := ∀ v : List Bool, v.length = n → φ.value v = ψ.value v

/-- The formula is true for all values of the `n` atoms. -/
def Formula.Valid (n : Nat) (φ : Formula) : Prop := ∀ v : List Bool, v.length = n → φ.value v = true

/-- Some values of the `n` atoms make the formula true. -/
def Formula.Sat (n : Nat) (φ : Formula) : Prop := ∃ v : List Bool, v.length = n ∧ φ.value v = true

end LBDD
