/-!
# Specification layer: decision trees and the Boolean functions they denote

Nothing here mentions the heap, tables, caches or any function of the modelled code.
-/
namespace LBDD

/-- An assignment of truth values to variables (variables are numbered from 0). -/
abbrev Assign := Nat → Bool

/-- A Boolean function. -/
abbrev BFun := Assign → Bool

/-- Binary decision trees: what a BDD node unfolds to. -/
inductive Tree where
  | bot
  | top
  | node (v : Nat) (lo hi : Tree)
  deriving DecidableEq, Repr

namespace Tree

/-- The Boolean function denoted by a tree. -/
def eval : Tree → BFun
  | bot, _ => false
  | top, _ => true
  | node v lo hi, x => if x v then hi.eval x else lo.eval x

/-- Variable `w` labels some node of the tree. -/
def Mem (w : Nat) : Tree → Prop
  | bot => False
  | top => False
  | node v lo hi => w = v ∨ lo.Mem w ∨ hi.Mem w

/-- On every root-to-leaf path the variables strictly increase. -/
def Ordered : Tree → Prop
  | bot => True
  | top => True
  | node v lo hi => (∀ w, lo.Mem w → v < w) ∧ (∀ w, hi.Mem w → v < w) ∧ lo.Ordered ∧ hi.Ordered

/-- No node has two equal children. -/
def Reduced : Tree → Prop
  | bot => True
  | top => True
  | node _ lo hi => lo ≠ hi ∧ lo.Reduced ∧ hi.Reduced

/-- Length of the longest root-to-leaf path. -/
def height : Tree → Nat
  | bot => 0
  | top => 0
  | node _ lo hi => max lo.height hi.height + 1

/-- Number of inner nodes of the tree (not of the DAG). -/
def size : Tree → Nat
  | bot => 0
  | top => 0
  | node _ lo hi => lo.size + hi.size + 1

end Tree

/-- A Boolean function depends on variable `v`. -/
def BFun.DependsOn (f : BFun) (v : Nat) : Prop :=
  ∃ x : Assign, f x ≠ f (fun w => if w = v then !(x w) else x w)

/-- Exactly one assignment of the variables `f` depends on makes `f` true. -/
def BFun.UniqueSol (f : BFun) : Prop :=
  ∃ x : Assign, f x = true ∧ ∀ y : Assign, f y = true → ∀ v, f.DependsOn v → y v = x v

end LBDD
