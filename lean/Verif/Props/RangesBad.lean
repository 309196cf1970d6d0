import Verif.Props.Ranges
/-!
# Ranges and cardinality constraints in histories that mix `or_rec` and `xor_rec`: refutations (C15, C17, C18, C19, C21)

`or_rec` and `xor_rec` answer each other's memo entries (`C02_refuted`, `C04_refuted`), and everything built on `or_rec` inherits the defect. Only
`cardinality` is right in every history (`C20_cardinality`).
-/
namespace LBDD

/-- Handles x0, x1, x0 xor x1. -/
def mixA (nd : Bool) : Api := stateAfter (envOf nd) .mixed [.call (.projection 0) [], .call (.projection 1) [], .call .xor [0, 1]]
/-- Handles x0, x1, x0 ∨ x1. -/
def mixB (nd : Bool) : Api := stateAfter (envOf nd) .mixed [.call (.projection 0) [], .call (.projection 1) [], .call .or [0, 1]]
/-- Handles x0, x1, x2, ¬x0, ¬x1, ¬x0 xor ¬x1. -/
def mixC (nd : Bool) : Api := stateAfter (envOf nd) .mixed
  [.call (.projection 0) [], .call (.projection 1) [], .call (.projection 2) [], .call .negate [0], .call .negate [1], .call .xor [3, 4]]

theorem mixA_holds (nd : Bool) : ∀ p ∈ [2, 3], (mixA nd).Holds p := by
  unfold Api.Holds; cases nd <;> decide +kernel
theorem mixB_holds (nd : Bool) : ∀ p ∈ [2, 3], (mixB nd).Holds p := by
  unfold Api.Holds; cases nd <;> decide +kernel
theorem mixC_holds (nd : Bool) : ∀ p ∈ [2, 3, 4], (mixC nd).Holds p := by
  unfold Api.Holds; cases nd <;> decide +kernel

/-- Does the call return a BDD with value `b` under `x`? -/
def resEvB (cfg : Cfg) (o : Res Mgr Nat) (x : List Bool) (b : Bool) : Bool :=
  match o with
  | .ok r s => evalsB cfg s r x b && decide (s.nvars ≤ x.length)
  | _ => false

theorem resEvB_sound {cfg : Cfg} {o : Res Mgr Nat} {x : List Bool} {b : Bool} (h : resEvB cfg o x b = true) :
    ∃ r s, o = .ok r s ∧ Covers s x ∧ EvalsTo cfg s r x b := by
  unfold resEvB at h
  cases o with
  | ok r s =>
    simp only [Bool.and_eq_true, decide_eq_true_eq] at h
    exact ⟨r, s, rfl, h.2, evalsB_sound h.1⟩
  | _ => cases h

/-- The full C15 is false for disjunctions: after `xor_rec(x0, x1)`, `or_rec` over the range {x0, x1} is false where both are true. -/
theorem C15_or_refuted : ∀ nd : Bool, ∃ a p q, Reachable (envOf nd) .mixed a ∧ a.Holds p ∧ a.Holds q ∧
    EvalsTo (envOf nd) a.mgr p [true, true] true ∧ EvalsTo (envOf nd) a.mgr q [true, true] true ∧
    ∃ r s', orRange (envOf nd) [p, q] a.mgr = .ok r s' ∧ Covers s' [true, true] ∧ EvalsTo (envOf nd) s' r [true, true] false := by
  intro nd
  refine ⟨mixA nd, 2, 3, stateAfter_reachable _ _ _, mixA_holds nd 2 (by simp), mixA_holds nd 3 (by simp), evalsB_sound ?_, evalsB_sound ?_, resEvB_sound ?_⟩ <;>
    (cases nd <;> decide +kernel)

/-- The full C15 is false for parities: after `or_rec(x0, x1)`, `xor_rec` over the range {x0, x1} is true where both are true. -/
theorem C15_xor_refuted : ∀ nd : Bool, ∃ a p q, Reachable (envOf nd) .mixed a ∧ a.Holds p ∧ a.Holds q ∧
    EvalsTo (envOf nd) a.mgr p [true, true] true ∧ EvalsTo (envOf nd) a.mgr q [true, true] true ∧
    ∃ r s', xorRange (envOf nd) [p, q] a.mgr = .ok r s' ∧ Covers s' [true, true] ∧ EvalsTo (envOf nd) s' r [true, true] true := by
  intro nd
  refine ⟨mixB nd, 2, 3, stateAfter_reachable _ _ _, mixB_holds nd 2 (by simp), mixB_holds nd 3 (by simp), evalsB_sound ?_, evalsB_sound ?_, resEvB_sound ?_⟩ <;>
    (cases nd <;> decide +kernel)

/-- The full C17 is false for `at_most_one`: after `xor_rec(¬x0, ¬x1)`, `at_most_one({x0, x1})` is false where neither is true. -/
theorem C17_at_most_one_refuted : ∀ nd : Bool, ∃ a p q, Reachable (envOf nd) .mixed a ∧ a.Holds p ∧ a.Holds q ∧
    EvalsTo (envOf nd) a.mgr p [false, false, false] false ∧ EvalsTo (envOf nd) a.mgr q [false, false, false] false ∧
    ∃ r s', atMostOne (envOf nd) [p, q] a.mgr = .ok r s' ∧ Covers s' [false, false, false] ∧ EvalsTo (envOf nd) s' r [false, false, false] false := by
  intro nd
  refine ⟨mixC nd, 2, 3, stateAfter_reachable _ _ _, mixC_holds nd 2 (by simp), mixC_holds nd 3 (by simp), evalsB_sound ?_, evalsB_sound ?_, resEvB_sound ?_⟩ <;>
    (cases nd <;> decide +kernel)

/-- The full C17 is false for `simplex`: after `xor_rec(¬x0, ¬x1)`, `simplex({x0, x1, x2})` is false where only x2 is true. -/
theorem C17_simplex_refuted : ∀ nd : Bool, ∃ a p q t, Reachable (envOf nd) .mixed a ∧ a.Holds p ∧ a.Holds q ∧ a.Holds t ∧
    EvalsTo (envOf nd) a.mgr p [false, false, true] false ∧ EvalsTo (envOf nd) a.mgr q [false, false, true] false ∧
    EvalsTo (envOf nd) a.mgr t [false, false, true] true ∧
    ∃ r s', simplex (envOf nd) [p, q, t] a.mgr = .ok r s' ∧ Covers s' [false, false, true] ∧ EvalsTo (envOf nd) s' r [false, false, true] false := by
  intro nd
  refine ⟨mixC nd, 2, 3, 4, stateAfter_reachable _ _ _, mixC_holds nd 2 (by simp), mixC_holds nd 3 (by simp), mixC_holds nd 4 (by simp),
    evalsB_sound ?_, evalsB_sound ?_, evalsB_sound ?_, resEvB_sound ?_⟩ <;> (cases nd <;> decide +kernel)

/-- The full C18 is false: after `xor_rec(x0, x1)`, `at_least({x0, x1}, 1)` is false where both are true. -/
theorem C18_refuted : ∀ nd : Bool, ∃ a p q, Reachable (envOf nd) .mixed a ∧ a.Holds p ∧ a.Holds q ∧
    EvalsTo (envOf nd) a.mgr p [true, true] true ∧ EvalsTo (envOf nd) a.mgr q [true, true] true ∧
    ∃ r s', atLeast (envOf nd) [p, q] 1 a.mgr = .ok r s' ∧ Covers s' [true, true] ∧ EvalsTo (envOf nd) s' r [true, true] false := by
  intro nd
  refine ⟨mixA nd, 2, 3, stateAfter_reachable _ _ _, mixA_holds nd 2 (by simp), mixA_holds nd 3 (by simp), evalsB_sound ?_, evalsB_sound ?_, resEvB_sound ?_⟩ <;>
    (cases nd <;> decide +kernel)

/-- Do the two calls return different handles? -/
def differB (m1 m2 : M Mgr Nat) (s : Mgr) : Bool :=
  match both m1 m2 s with
  | .ok rq _ => rq.1 != rq.2
  | _ => false

theorem differB_sound {m1 m2 : M Mgr Nat} {s : Mgr} (h : differB m1 m2 s = true) : ¬ SameHandle m1 m2 s := by
  unfold differB at h
  unfold SameHandle
  intro hs
  cases e : both m1 m2 s with
  | ok rq t => rw [e] at h hs; exact (bne_iff_ne.1 h) hs
  | _ => rw [e] at h; cases h

/-- The full C21 is false: after `xor_rec(¬x0, ¬x1)` the two constructions of "exactly one of x0, x1, x2" give different handles, and after
`xor_rec(x0, x1)` the two constructions of "at least one of x0, x1" do. -/
theorem C21_refuted : ∀ nd : Bool, ∃ a b, Reachable (envOf nd) .mixed a ∧ Reachable (envOf nd) .mixed b ∧ (∀ p ∈ [2, 3, 4], a.Holds p) ∧ (∀ p ∈ [2, 3], b.Holds p) ∧
    ¬ SameHandle (simplex (envOf nd) [2, 3, 4]) (cardinality (envOf nd) [2, 3, 4] 1) a.mgr ∧
    ¬ SameHandle (atLeastOne (envOf nd) [2, 3]) (atLeast (envOf nd) [2, 3] 1) b.mgr := by
  intro nd
  refine ⟨mixC nd, mixA nd, stateAfter_reachable _ _ _, stateAfter_reachable _ _ _, mixC_holds nd, mixA_holds nd, differB_sound ?_, differB_sound ?_⟩ <;>
    (cases nd <;> decide +kernel)

end LBDD
