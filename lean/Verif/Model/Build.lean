import Verif.Model.Mgr
/-!
# Model of the range and cardinality templates of include/bdd_mgr.h

A range `[begin, end)` of handles is the list of the pool positions they refer to.
-/
namespace LBDD

/-- A `for` loop that pushes back one result per element. -/
def mapM' {α : Type} (f : α → M Mgr Nat) : List α → M Mgr (List Nat)
  | [] => pure []
  | a :: l => do
    let r ← f a
    let rs ← mapM' f l
    pure (r :: rs)

/-- `and_rec(begin,end)` / `or_rec(begin,end)` / `xor_rec(begin,end)` (include/bdd_mgr.h:164-177, 185-198,
206-219), which differ only in the binary operation. The first argument bounds the recursion depth: for ranges
of fewer than two elements the C++ (without asserts) calls itself on an empty range for ever. -/
def rangeRec (cfg : Cfg) (op : Nat → Nat → M Mgr Nat) : Nat → List Nat → M Mgr Nat
  | 0, _ => M.hang
  | n + 1, l => do
    M.assert cfg.ndebug (2 ≤ l.length)
    match l with
    | [a, b] => op a b
    | [a, b, c] => do
      let r ← op b c
      op a r
    | l => do
      let a1 ← rangeRec cfg op n (l.take (l.length / 2))
      let a2 ← rangeRec cfg op n (l.drop (l.length / 2))
      op a1 a2

def andRange (cfg : Cfg) (l : List Nat) : M Mgr Nat := rangeRec cfg (andOp cfg) (l.length + 1) l
def orRange (cfg : Cfg) (l : List Nat) : M Mgr Nat := rangeRec cfg (orOp cfg) (l.length + 1) l
def xorRange (cfg : Cfg) (l : List Nat) : M Mgr Nat := rangeRec cfg (xorOp cfg) (l.length + 1) l

/-- The variadic templates `and_rec(p, tail...)` etc. (include/bdd_mgr.h:157-162, 179-184, 200-205); with fewer
than two arguments they do not compile (`hang` stands for that). -/
def variadic (op : Nat → Nat → M Mgr Nat) : List Nat → M Mgr Nat
  | [] => M.hang
  | [_] => M.hang
  | [a, b] => op a b
  | a :: l => do
    let t ← variadic op l
    op a t

/-- `all_false` (include/bdd_mgr.h:247-260). -/
def allFalseRec (cfg : Cfg) : Nat → List Nat → M Mgr Nat
  | 0, _ => M.hang
  | n + 1, l => do
    M.assert cfg.ndebug (0 < l.length)
    match l with
    | [a] => negateOp cfg a
    | [a, b] => do
      let r ← args2 cfg (negateOp cfg a) (negateOp cfg b)
      andOp cfg r.1 r.2
    | l => do
      let r ← args2 cfg (allFalseRec cfg n (l.take (l.length / 2))) (allFalseRec cfg n (l.drop (l.length / 2)))
      andOp cfg r.1 r.2

def allFalse (cfg : Cfg) (l : List Nat) : M Mgr Nat := allFalseRec cfg (l.length + 1) l

/-- `or_rec(negate(a), negate(b))` as used in `at_most_one`. -/
def orNeg (cfg : Cfg) (a b : Nat) : M Mgr Nat := do
  let r ← args2 cfg (negateOp cfg a) (negateOp cfg b)
  orOp cfg r.1 r.2

/-- Evaluation of three call arguments. -/
def args3 (cfg : Cfg) (m1 m2 m3 : M Mgr Nat) : M Mgr (Nat × Nat × Nat) :=
  if cfg.rtl then do
    let c ← m3
    let b ← m2
    let a ← m1
    pure (a, b, c)
  else do
    let a ← m1
    let b ← m2
    let c ← m3
    pure (a, b, c)

/-- `at_most_one` (include/bdd_mgr.h:278-302). -/
def atMostOneRec (cfg : Cfg) : Nat → List Nat → M Mgr Nat
  | 0, _ => M.hang
  | n + 1, l => do
    M.assert cfg.ndebug (0 < l.length)
    match l with
    | [_] => pure topId
    | [a, b] => orNeg cfg a b
    | [a, b, c] => do
      let r ← args3 cfg (orNeg cfg a b) (orNeg cfg a c) (orNeg cfg b c)
      variadic (andOp cfg) [r.1, r.2.1, r.2.2]
    | l => do
      let a1 ← atMostOneRec cfg n (l.take (l.length / 2))
      let f1 ← allFalse cfg (l.take (l.length / 2))
      let a2 ← atMostOneRec cfg n (l.drop (l.length / 2))
      let f2 ← allFalse cfg (l.drop (l.length / 2))
      let r ← args2 cfg (andOp cfg a1 f2) (andOp cfg a2 f1)
      orOp cfg r.1 r.2

def atMostOne (cfg : Cfg) (l : List Nat) : M Mgr Nat := atMostOneRec cfg (l.length + 1) l

/-- `simplex` (include/bdd_mgr.h:262-276). -/
def simplex (cfg : Cfg) (l : List Nat) : M Mgr Nat := do
  M.assert cfg.ndebug (0 < l.length)
  match l with
  | [a] => pure a
  | l => do
    let alo ← orRange cfg l
    let amo ← atMostOne cfg l
    andOp cfg alo amo

/-- `at_least_one` (include/bdd_mgr.h:304-308). -/
def atLeastOne (cfg : Cfg) (l : List Nat) : M Mgr Nat := do
  let r ← allFalse cfg l
  negateOp cfg r

/-- Common part of `at_least`, `at_most` and `cardinality` (include/bdd_mgr.h:324-339, 358-373, 392-407): the
first matching early return `leaf`, otherwise the results for all ways to split `b` over the two halves. `combine[i]`
uses `left[i]` and `right[b-i]`, i.e. `left` zipped with the reverse of `right`. -/
def countRec (cfg : Cfg) (leaf : List Nat → Nat → Option (M Mgr Nat)) : Nat → List Nat → Nat → M Mgr Nat
  | 0, _, _ => M.hang
  | n + 1, l, b => do
    M.assert cfg.ndebug (0 < l.length)
    match leaf l b with
    | some m => m
    | none => do
      let left ← mapM' (fun i => countRec cfg leaf n (l.take (l.length / 2)) i) (List.range (b + 1))
      let right ← mapM' (fun i => countRec cfg leaf n (l.drop (l.length / 2)) i) (List.range (b + 1))
      let combine ← mapM' (fun p : Nat × Nat => andOp cfg p.1 p.2) (left.zip right.reverse)
      orRange cfg combine

/-- Early returns of `at_least` (include/bdd_mgr.h:316-322). -/
def atLeastLeaf (l : List Nat) (b : Nat) : Option (M Mgr Nat) :=
  if l.length < b then some (pure botId)
  else if l.length = 1 ∧ b = 1 then some (pure (l.headD 0))
  else if b = 0 then some (pure topId)
  else none

/-- Early returns of `at_most` (include/bdd_mgr.h:348-356). -/
def atMostLeaf (cfg : Cfg) (l : List Nat) (b : Nat) : Option (M Mgr Nat) :=
  if l.length < b then some (pure botId)
  else if l.length = 1 ∧ b = 1 then some (pure topId)
  else if l.length = 1 ∧ b = 0 then some (negateOp cfg (l.headD 0))
  else if b = 0 then some (allFalse cfg l)
  else none

/-- Early returns of `cardinality` (include/bdd_mgr.h:382-390). -/
def cardLeaf (cfg : Cfg) (l : List Nat) (b : Nat) : Option (M Mgr Nat) :=
  if l.length < b then some (pure botId)
  else if l.length = 1 ∧ b = 1 then some (pure (l.headD 0))
  else if l.length = 1 ∧ b = 0 then some (negateOp cfg (l.headD 0))
  else if b = 0 then some (allFalse cfg l)
  else none

/-- `at_least` (include/bdd_mgr.h:310-340). -/
def atLeast (cfg : Cfg) (l : List Nat) (b : Nat) : M Mgr Nat := countRec cfg atLeastLeaf (l.length + 1) l b
/-- `at_most` (include/bdd_mgr.h:342-374). -/
def atMost (cfg : Cfg) (l : List Nat) (b : Nat) : M Mgr Nat := countRec cfg (atMostLeaf cfg) (l.length + 1) l b
/-- `cardinality` (include/bdd_mgr.h:376-408). -/
def cardinality (cfg : Cfg) (l : List Nat) (b : Nat) : M Mgr Nat := countRec cfg (cardLeaf cfg) (l.length + 1) l b

end LBDD
