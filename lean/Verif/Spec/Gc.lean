import Verif.Model.Api
import Verif.Spec.Heap
/-!
# When a garbage collection is harmless

`collect_garbage` has defects (see the `C32_refuted`, `C33_refuted`, `C34_refuted`, `C35_refuted` theorems). `GcSafe` describes the
states in which none of them is triggered.
-/
namespace LBDD

/-- Node `p` is a sink or is reachable from one of the user's handles. -/
def Api.Kept (a : Api) (p : Nat) : Prop := p < 2 ∨ ∃ h, some h ∈ a.hs ∧ Reaches a.mgr.cells h p

/-- No defect of the collector is triggered: in every unique table a slot with a node that is no longer needed is followed by an empty slot
(cyclically), every grown table keeps more than an eighth of its slots filled, and no entry of the memo cache mentions a node that is no
longer needed. -/
structure GcSafe (cfg : Cfg) (a : Api) : Prop where
  isolated : ∀ v k p, v < a.mgr.nvars → k ≤ (a.mgr.tabs v).mask → (a.mgr.tabs v).slots k = some p → ¬ a.Kept p →
    (a.mgr.tabs v).slots ((k + 1) % ((a.mgr.tabs v).mask + 1)) = none
  filled : ∀ v, v < a.mgr.nvars → 63 < (a.mgr.tabs v).mask →
    ∃ l : List Nat, l.Nodup ∧ (∀ p ∈ l, 2 ≤ p ∧ (a.mgr.cells p).index = v ∧ a.Kept p) ∧ (a.mgr.tabs v).mask + 1 < 8 * l.length
  memo : ∀ k, k < a.mgr.memo.size → ∀ r, (a.mgr.memo.entries k).r = some r →
    ∀ p, (a.mgr.memo.entries k).f = some p ∨ (a.mgr.memo.entries k).g = some p ∨ r = p ∨ (a.mgr.memo.entries k).h = cfg.addr p → a.Kept p

/-- The cells around slot `k` of a table with `n` slots, `hsh` being the home position of each node: the next slot (cyclically) is occupied, and
either the slot after that is occupied too or the node in the next slot sits in its own home slot. -/
def Traps (n : Nat) (sl : Nat → Option Nat) (hsh : Nat → Nat) (k : Nat) : Prop :=
  ∃ q, sl ((k + 1) % n) = some q ∧ (sl ((k + 2) % n) ≠ none ∨ hsh q % n = (k + 1) % n)

/-- `Traps` for slot `k` of the unique table of variable `v`. -/
def Mgr.TrapsAt (s : Mgr) (v k : Nat) : Prop :=
  Traps ((s.tabs v).mask + 1) (s.tabs v).slots (fun q => hashCode s.cells (s.cells q).lo (s.cells q).hi) k

/-- Freeing one node of variable `v` leaves its table too empty: it has grown beyond 64 slots and at most an eighth of the slots stays in use. -/
def Mgr.SparseAfter (s : Mgr) (v : Nat) : Prop := 63 < (s.tabs v).mask ∧ 8 * ((s.tabs v).mask - (s.tabs v).free) ≤ (s.tabs v).mask + 1

end LBDD
