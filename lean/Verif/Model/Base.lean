/-!
# Execution outcomes of the modelled C++ code

A modelled function is a state transformer `M σ α := σ → Res σ α`.
-/
namespace LBDD

/-- Outcome of running a piece of the C++ program.
`throw s`: a C++ exception was thrown and `s` is the state at that point;
`assertFail`: an `assert` failed (only in builds without `NDEBUG`);
`ub`: undefined behaviour; `hang`: the call never returns. -/
inductive Res (σ α : Type) where
  | ok (a : α) (s : σ)
  | throw (s : σ)
  | assertFail
  | ub
  | hang

/-- State transformer with the outcomes of `Res`. -/
def M (σ α : Type) : Type := σ → Res σ α

namespace M
variable {σ α β : Type}

def pure (a : α) : M σ α := fun s => .ok a s

def bind (m : M σ α) (f : α → M σ β) : M σ β := fun s =>
  match m s with
  | .ok a s' => f a s'
  | .throw s' => .throw s'
  | .assertFail => .assertFail
  | .ub => .ub
  | .hang => .hang

instance : Monad (M σ) where
  pure := M.pure
  bind := M.bind

def get : M σ σ := fun s => .ok s s
def set (s : σ) : M σ Unit := fun _ => .ok () s
def modify (f : σ → σ) : M σ Unit := fun s => .ok () (f s)
def ub : M σ α := fun _ => .ub
def hang : M σ α := fun _ => .hang
def throw : M σ α := fun s => .throw s

/-- `assert(c)`: no effect in an `NDEBUG` build. -/
def assert (ndebug : Bool) (c : Bool) : M σ Unit := fun s =>
  if ndebug || c then .ok () s else .assertFail

/-- `Sat m s Q E`: running `m` from `s` either returns normally with a result and state satisfying
`Q`, or throws with a state satisfying `E`; it does not fail an assert, is not undefined and
does not hang. -/
def Sat (m : M σ α) (s : σ) (Q : α → σ → Prop) (E : σ → Prop) : Prop :=
  match m s with
  | .ok a s' => Q a s'
  | .throw s' => E s'
  | .assertFail => False
  | .ub => False
  | .hang => False

end M

/-- The two ways a pointer-probing loop can go wrong: out-of-bounds access, or it never ends. -/
inductive Stop where
  | ub
  | hang

def M.lift {σ α : Type} : Except Stop α → M σ α
  | .ok a => fun s => .ok a s
  | .error .ub => fun _ => .ub
  | .error .hang => fun _ => .hang

/-- Pointwise update of a function (array write). -/
def upd {α : Type} (f : Nat → α) (k : Nat) (a : α) : Nat → α := fun i => if i = k then a else f i

/-- `size_t` subtraction. -/
def sub64 (a b : Nat) : Nat := (a + 2 ^ 64 - b % 2 ^ 64) % 2 ^ 64

end LBDD
