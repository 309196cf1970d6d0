import Verif.Spec.Store
/-!
# What the library still guarantees when `xor_rec` is combined with `or_rec`

`xor_rec` and `or_rec` use the same tag in the memo table (finding 1), so that one may return the result of the other. `Fn.WeakMeans` says what each function of the
API still computes then, in terms of Boolean functions: most functions what they are documented to compute, the others a function with the stated relation to it.
-/
namespace LBDD

/-- The result is one handle, to a function whose value at each assignment `x` satisfies `P x`. -/
def GivesSome (n' : Nat) (Gs : List BoolFn) (P : List Bool → Bool → Prop) : Prop := ∃ R, Gs = [R] ∧ ∀ x, n' ≤ x.length → P x (R x)

/-- What the function `f` of the API computes in every history: applied to handles to the functions `Fs` of `n` variables, it leaves `n'` variables and returns
handles to the functions `Gs`. -/
def Fn.WeakMeans (cfg : Cfg) (ord : Prop) (n : Nat) : Fn → List BoolFn → Nat → List BoolFn → Prop
  -- at each assignment the disjunction or the exclusive disjunction
  | .or, Fs, n', Gs => ∃ F G, Fs = [F, G] ∧ n' = n ∧ GivesSome n' Gs (fun x r => r = (F x || G x) ∨ r = (F x != G x))
  | .xor, Fs, n', Gs => ∃ F G, Fs = [F, G] ∧ n' = n ∧ GivesSome n' Gs (fun x r => r = (F x || G x) ∨ r = (F x != G x))
  -- may be wrongly false where all operands are true
  | .ite, Fs, n', Gs => ∃ F G H, Fs = [F, G, H] ∧ n' = n ∧
      GivesSome n' Gs (fun x r => r = (if F x then G x else H x) ∨ (F x = true ∧ G x = true ∧ H x = true ∧ r = false))
  -- right where at most one operand is true
  | .orRange, Fs, n', Gs => n' = n ∧ GivesSome n' Gs (fun x r => countTrue Fs x ≤ 1 → r = Fs.any fun F => F x)
  | .orAll, Fs, n', Gs => n' = n ∧ GivesSome n' Gs (fun x r => countTrue Fs x ≤ 1 → r = Fs.any fun F => F x)
  | .xorRange, Fs, n', Gs => n' = n ∧ GivesSome n' Gs (fun x r => countTrue Fs x ≤ 1 → r = decide (countTrue Fs x % 2 = 1))
  | .xorAll, Fs, n', Gs => n' = n ∧ GivesSome n' Gs (fun x r => countTrue Fs x ≤ 1 → r = decide (countTrue Fs x % 2 = 1))
  -- never wrongly true
  | .atMostOne, Fs, n', Gs => n' = n ∧ GivesSome n' Gs (fun x r => r = true → countTrue Fs x ≤ 1)
  | .simplex, Fs, n', Gs => n' = n ∧ GivesSome n' Gs (fun x r => r = true → countTrue Fs x = 1)
  -- never wrongly true, and right where at most (at least) `b` operands are true
  | .atLeast b, Fs, n', Gs => n' = n ∧ GivesSome n' Gs (fun x r => (r = true → b ≤ countTrue Fs x) ∧ (countTrue Fs x ≤ b → r = decide (b ≤ countTrue Fs x)))
  | .atMost b, Fs, n', Gs => n' = n ∧ GivesSome n' Gs (fun x r => (r = true → b ≤ Fs.length ∧ countTrue Fs x ≤ b) ∧ (b ≤ countTrue Fs x → r = decide (countTrue Fs x ≤ b)))
  | .importBdd c nr, Fs, n', Gs => ∃ F, Fs = [] ∧ n ≤ n' ∧ (∀ v, c.Var nr v → v < n') ∧ (n' = n ∨ ∃ v, c.Var nr v ∧ n' = v + 1) ∧
      CDenotes cfg c nr F ∧ GivesSome n' Gs (fun x r => r = true → F x = true)
  | f, Fs, n', Gs => f.Means cfg ord n Fs n' Gs

/-- A history of steps of the client. -/
inductive Store.WeakRuns (cfg : Cfg) (ord : Prop) : List Op → Store → Prop
  | init : Store.WeakRuns cfg ord [] Store.init
  | step {ops : List Op} {op : Op} {S S' : Store} : Store.WeakRuns cfg ord ops S → Store.StepBy (fun n f => f.WeakMeans cfg ord n) S S' op →
      Store.WeakRuns cfg ord (ops ++ [op]) S'

end LBDD
