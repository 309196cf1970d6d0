import Verif.Proof.CostTree
import Verif.Props.Query
import Verif.Props.Demo
import Verif.Props.Canon
import Verif.Props.Handle
/-!
# Numbers of recursive calls (C76, C78)

`negateOpK`, `nrNodesK`, ... (Model/Cost.lean) are the functions of the model with a counter of calls; `Counts` says that without the counter they are
the functions of the other properties.
-/
namespace LBDD
section
variable {cfg : Cfg} {u : Use} {a : Api} {p : Nat}

/-! ## C76 -/

/-- C76: the counted `negate` is `negate`. -/
theorem C76_counts (cfg : Cfg) (p : Nat) : Counts (negateOpK cfg p) (negateOp cfg p) := negateOpK_counts p

/-- C76, in every history: a negation that returns has made as many calls as the operand has nodes when it is unfolded into a tree, sinks included: it
visits a shared node once for every path that leads to it. -/
theorem C76_negate_calls (hR : Reachable cfg u a) (hp : a.Holds p) {r : Nat} {s' : Mgr} (e : negateOp cfg p a.mgr = .ok r s') :
    Unfolded a.mgr.cells p ((negateOpK cfg p).calls a.mgr) := by
  obtain ⟨t, ht⟩ := hR.good.any hp
  have h : (negateOpK cfg p).calls a.mgr = 2 * t.size + 1 := by
    unfold negateOpK
    rw [calls_of_bind (m := M.get) (s' := a.mgr) (a := a.mgr) rfl]
    unfold negateOp at e
    rw [M.get_bind_apply] at e
    exact negateRecK_calls (fuel1 a.mgr) p t a.mgr r s' hR.good ht (by have := hR.good.ht _ _ ht; unfold fuel1; omega) e
  rw [h]
  exact .of_repr ht

/-- C76: the negation of the parity of `n ≥ 1` variables makes `2^(n+1) - 1` calls, although the operand has at most `2n - 1` nodes (`nr_nodes`). -/
theorem C76_parity (hR : Reachable cfg .ordered a) (hp : a.Holds p) {v : Nat} {vs : List Nat} (hn : (v :: vs).Nodup) (hv : ∀ w ∈ v :: vs, w < a.mgr.nvars)
    (hd : Denotes cfg a.mgr p (parity (v :: vs))) {r : Nat} {s' : Mgr} (e : negateOp cfg p a.mgr = .ok r s') :
    (negateOpK cfg p).calls a.mgr + 1 = 2 ^ (vs.length + 2) ∧ ∃ k, nrNodes cfg p a.mgr = .ok k a.mgr ∧ k ≤ 2 * vs.length + 1 := by
  obtain ⟨t, ht⟩ := hR.good.any hp
  have ho : t.Ordered := hR.good.ord (Use.ordered_iff.2 rfl) _ _ ht
  have hr := hR.good.reduced ht
  have he : ∀ x, t.eval x = (false ^^ parityF (v :: vs) x) := by
    intro x
    have h := (denotes_repr hR.good ht _ (covers_toList a.mgr x)).symm.trans (hd _ (covers_toList a.mgr x))
    injection h with h
    have h : t.eval (asg (toList a.mgr.nvars x)) = _ := h
    rw [eval_toList hR.good ht, parity_eq] at h
    rw [h, Bool.false_xor]
    exact parityF_congr fun w hw => asg_toList (hv w hw)
  have hs := parity_size _ t false (v :: vs) rfl ho hr hn he
  have hc := (C76_negate_calls hR hp e).unique (.of_repr ht)
  refine ⟨?_, ?_⟩
  · rw [hc]
    have : 2 ^ (vs.length + 2) = 2 * 2 ^ (v :: vs).length := by rw [List.length_cons, Nat.pow_succ, Nat.mul_comm]
    omega
  · have p2 : 2 ≤ p := by
      refine Classical.byContradiction fun h => ?_
      have h0 : t.size = 0 := by
        have : p = 0 ∨ p = 1 := by omega
        rcases this with h | h <;> subst h
        · rw [Repr.bot_iff.1 ht]; rfl
        · rw [Repr.top_iff.1 ht]; rfl
      rw [h0] at hs
      have : 2 ^ (v :: vs).length = 2 * 2 ^ vs.length := by rw [List.length_cons, Nat.pow_succ, Nat.mul_comm]
      omega
    obtain ⟨l, hl, el⟩ := C24_nr_nodes hR hp (Or.inr p2)
    refine ⟨_, el, ?_⟩
    obtain ⟨m, hm, hsub⟩ := parity_subs1 ho hr hn he
    refine Nat.le_trans ?_ hm
    refine pigeon (Repr a.mgr.cells) hl.1 ?_ ?_
    · intro q hq
      obtain ⟨q2, hr⟩ := (hl.2 q).1 hq
      obtain ⟨tq, hq, _⟩ := hr.height ht
      exact ⟨tq, hsub _ ((ht.sub_iff tq).2 ⟨q, q2, hr, hq⟩), hq⟩
    · intro q q' tq _ _ h h'
      exact hR.good.repr_inj h h'

/-! ## C78 -/


/-- C78: the counted traversals are the traversals. -/
theorem C78_counts (cfg : Cfg) (p : Nat) : Counts (nrNodesK cfg p) (nrNodes cfg p) ∧ Counts (nodesPostorderK cfg p) (nodesPostorder cfg p) ∧
    Counts (nodesBfsK cfg p) (nodesBfs cfg p) ∧ Counts (variablesK cfg p) (variables cfg p) :=
  ⟨nrNodesK_counts p, nodesPostorderK_counts p, nodesBfsK_counts p, variablesK_counts p⟩

/-- C78, `nr_nodes()`: at most `4k + 2` calls of the two recursive functions, where `k` is the result. -/
theorem C78_nr_nodes (hR : Reachable cfg u a) (hp : a.Holds p) (hs : SinkOk cfg ∨ 2 ≤ p) :
    ∃ k, nrNodes cfg p a.mgr = .ok k a.mgr ∧ (nrNodesK cfg p).calls a.mgr ≤ 4 * k + 2 := by
  obtain ⟨l, _, e⟩ := C24_nr_nodes hR hp hs
  exact ⟨_, e, nrNodesK_calls e rfl⟩

/-- C78, `nodes_postorder()`: at most `4k + 2` calls in release builds and `8k + 4` in debug builds (which also call `nr_nodes()`). -/
theorem C78_postorder (hR : Reachable cfg u a) (hp : a.Holds p) (hs : SinkOk cfg ∨ 2 ≤ p) :
    ∃ l, nodesPostorder cfg p a.mgr = .ok l a.mgr ∧
      (nodesPostorderK cfg p).calls a.mgr ≤ if cfg.ndebug then 4 * l.length + 2 else 8 * l.length + 4 := by
  obtain ⟨l, e, _⟩ := C25_nodes_postorder hR hp hs
  obtain ⟨t, ht⟩ := hR.good.any hp
  refine ⟨l, e, ?_⟩
  have := nodesPostorderK_calls hR.good ht (.of hR.good hs) e
  revert this
  split <;> omega

/-- C78, `nodes_bfs()`: at most `3k + 1` loop iterations and calls in release builds and `7k + 3` in debug builds. -/
theorem C78_bfs (hR : Reachable cfg u a) (hp : a.Holds p) (p2 : 2 ≤ p) :
    ∃ l, nodesBfs cfg p a.mgr = .ok l a.mgr ∧ (nodesBfsK cfg p).calls a.mgr ≤ if cfg.ndebug then 3 * l.length + 1 else 7 * l.length + 3 := by
  obtain ⟨l, e, _⟩ := C26_nodes_bfs hR hp p2
  obtain ⟨t, ht⟩ := hR.good.any hp
  refine ⟨l, e, ?_⟩
  have := nodesBfsK_calls hR.good ht p2 e
  revert this
  split <;> omega

/-- C78, `variables()`: at most `4k + 2` calls, where `k` is the number of nodes of the BDD. -/
theorem C78_variables (hR : Reachable cfg u a) (hp : a.Holds p) {l : List Nat} (hl : ListsOnce a.mgr p l) :
    (variablesK cfg p).calls a.mgr ≤ 4 * l.length + 2 := by
  obtain ⟨t, ht⟩ := hR.good.any hp
  obtain ⟨l', h, hc⟩ := variablesK_calls (cfg := cfg) hR.good ht
  rw [Lists.length_eq ⟨hl.1, hl.2⟩ h]
  exact hc

end

/-! ## Concrete cases -/

def parity3Ops : List Op :=
  [.call (.projection 0) [], .call (.projection 1) [], .call (.projection 2) [], .call .negate [1], .call .ite [0, 3, 1], .call .negate [4], .call .ite [2, 5, 4]]
/-- A state in which the parity of three variables has been built with `ite_rec` (no `xor_rec`). -/
def parity3 : Api := stateAfter (envOf false) .ordered parity3Ops
theorem parity3_reachable : Reachable (envOf false) .ordered parity3 := stateAfter_reachable _ _ _
theorem parity3_holds : parity3.Holds 11 := by
  have : some 11 ∈ parity3.hs := by decide +kernel
  exact this
theorem parity3_nvars : parity3.mgr.nvars = 3 := by decide +kernel
theorem parity3_eval (b0 b1 b2 : Bool) : evalsB (envOf false) parity3.mgr 11 [b0, b1, b2] (parity [0, 1, 2] [b0, b1, b2]) = true := by
  cases b0 <;> cases b1 <;> cases b2 <;> decide +kernel
theorem parity3_denotes : Denotes (envOf false) parity3.mgr 11 (parity [0, 1, 2]) := by
  intro x hx
  show evaluate _ _ _ _ = _
  rw [evaluate_take parity3_reachable parity3_holds hx]
  unfold Covers at hx
  rw [parity3_nvars] at hx ⊢
  match x, hx with
  | b0 :: b1 :: b2 :: l, _ =>
    simp only [List.take_succ_cons, List.take_zero]
    exact evalsB_sound (parity3_eval b0 b1 b2)

theorem resOf_fst {α : Type} {o : Res Mgr α} {v : α} {s' : Mgr} (h : o = .ok v s') (d : α) (s : Mgr) : (resOf o d s).1 = v := by
  subst h; rfl

/-- The hypotheses of `C76_negate_calls` and `C76_parity` are met: the parity of three variables has five nodes and its negation makes 15 calls. -/
theorem C76_concrete : ∃ r s', negateOp (envOf false) 11 parity3.mgr = .ok r s' ∧ (negateOpK (envOf false) 11).calls parity3.mgr = 15 ∧
    nrNodes (envOf false) 11 parity3.mgr = .ok 5 parity3.mgr := by
  obtain ⟨r, s', e⟩ : ∃ r s', negateOp (envOf false) 11 parity3.mgr = .ok r s' := ⟨_, _, resOf_eq (d := 0) (s := parity3.mgr) (by decide +kernel)⟩
  obtain ⟨h1, k, h2, h3⟩ := C76_parity parity3_reachable parity3_holds (v := 0) (vs := [1, 2]) (by decide)
    (by intro w hw; rw [parity3_nvars]; simp at hw; omega) parity3_denotes e
  refine ⟨r, s', e, by simp at h1; omega, ?_⟩
  have : (resOf (nrNodes (envOf false) 11 parity3.mgr) 0 parity3.mgr).1 = 5 := by decide +kernel
  have hk := (resOf_fst h2 0 parity3.mgr).symm.trans this
  rw [← hk]
  exact h2

/-- The hypotheses of the C78 theorems are met, and `k` is not trivial. -/
theorem C78_concrete : parity3.Holds 11 ∧ (nrNodesK (envOf false) 11).calls parity3.mgr ≤ 22 := by
  obtain ⟨k, h1, h2⟩ := C78_nr_nodes parity3_reachable parity3_holds (Or.inr (by omega))
  obtain ⟨_, _, _, _, h3⟩ := C76_concrete
  have hk := (resOf_fst h1 0 parity3.mgr).symm.trans (resOf_fst h3 0 parity3.mgr)
  rw [hk] at h2
  exact ⟨parity3_holds, h2⟩
end LBDD
