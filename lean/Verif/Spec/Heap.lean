import Verif.Model.Mgr
/-! Specification vocabulary for the heap of nodes: reachability along arcs. -/
namespace LBDD

/-- `q` can be reached from `p` by following arcs. -/
inductive Reaches (cells : Nat → Cell) : Nat → Nat → Prop
  | refl (p : Nat) : Reaches cells p p
  | lo {p q : Nat} : 2 ≤ p → (cells p).live = true → Reaches cells (cells p).lo q → Reaches cells p q
  | hi {p q : Nat} : 2 ≤ p → (cells p).live = true → Reaches cells (cells p).hi q → Reaches cells p q

/-- There is a path of `n` arcs from `p` to `q`. -/
inductive Path (cells : Nat → Cell) : Nat → Nat → Nat → Prop
  | refl (p : Nat) : Path cells p p 0
  | lo {p q n : Nat} : Path cells p q n → 2 ≤ q → (cells q).live = true → Path cells p (cells q).lo (n + 1)
  | hi {p q n : Nat} : Path cells p q n → 2 ≤ q → (cells q).live = true → Path cells p (cells q).hi (n + 1)

/-- Builds in which calling a traversal on a sink is harmless: asserts are off, or the sinks' uninitialised mark bits happen to be 0. -/
def SinkOk (cfg : Cfg) : Prop := cfg.ndebug = true ∨ ∀ b, cfg.sinkMark b = false

/-- Variable `w` labels an inner node of the BDD rooted at `p`. -/
def Occurs (s : Mgr) (p w : Nat) : Prop := ∃ q, 2 ≤ q ∧ Reaches s.cells p q ∧ (s.cells q).index = w

/-- High-water mark of the node pool: every node ever used is below it. -/
def Pool.hw (c : Pool) : Nat := (c.pages - 1) * 4096 + c.off

/-- Number of low/high arcs of live inner nodes `< n` that point to `p`. -/
def arcsTo (cells : Nat → Cell) (p : Nat) : Nat → Nat
  | 0 => 0
  | n + 1 => arcsTo cells p n +
      (if 2 ≤ n ∧ (cells n).live = true then
        (if (cells n).lo = p then 1 else 0) + (if (cells n).hi = p then 1 else 0) else 0)

end LBDD
