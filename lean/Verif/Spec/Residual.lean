/-!
# What is left of a Boolean function when its first variables are fixed

Used to say how many nodes the BDD of a function has. Nothing here mentions the heap, tables, caches or any function of the modelled code.
-/
namespace LBDD

/-- `F` with its first `c.length` inputs fixed to `c`. -/
def residual (F : List Bool → Bool) (c : List Bool) : List Bool → Bool := fun x => F (c ++ x.drop c.length)

/-- `F` and `G` are the same function of `n` variables. -/
def SameFn (n : Nat) (F G : List Bool → Bool) : Prop := ∀ x, n ≤ x.length → F x = G x

/-- `F` is constant as a function of `n` variables. -/
def ConstFn (n : Nat) (F : List Bool → Bool) : Prop := ∀ x y, n ≤ x.length → n ≤ y.length → F x = F y

/-- `Gs` lists the functions that are not constant and that one gets from the function `F` of `n` variables by fixing some number of its first variables;
each of them once. -/
structure ListsResiduals (n : Nat) (F : List Bool → Bool) (Gs : List (List Bool → Bool)) : Prop where
  residual : ∀ G ∈ Gs, ∃ c, c.length ≤ n ∧ SameFn n G (residual F c)
  inconstant : ∀ G ∈ Gs, ¬ ConstFn n G
  distinct : Gs.Pairwise (fun G H => ¬ SameFn n G H)
  all : ∀ c, c.length ≤ n → ¬ ConstFn n (LBDD.residual F c) → ∃ G ∈ Gs, SameFn n G (LBDD.residual F c)

end LBDD
