import Verif.Props.CollAnd
/-!
# Collections and managers are canonical for each other (C73)
-/
namespace LBDD
section
variable {cfg : Cfg} {a : Api} {c c' : Coll} {p : Nat} {l : List Nat}

/-- The tree of an entry that evaluates like a BDD of the manager evaluates like the tree of that BDD. -/
theorem entry_eval {md : Md} {refs : Nat → Nat} {s : Mgr} (hi : Inv cfg md refs s) {nr d0 d1 : Nat} (he : c.Entry nr d0 d1) (hw : WfRange c.ins d0 d1)
    {t tp : Tree} (ht : CRepr c.ins d0 t) (hp : Repr s.cells p tp) (hv : ∀ v, c.Var nr v → v < s.nvars)
    (h : ∀ x, Covers s x → evaluate cfg s p x = cEvaluate cfg c nr x) (y : Assign) : tp.eval y = t.eval y := by
  have hc := covers_toList s y
  have hcov : CCovers c nr (toList s.nvars y) := fun v h => Nat.lt_of_lt_of_le (hv v h) hc
  have h1 := h _ hc
  rw [cEvaluate_ok he hw ht (hcov.mem he hw ht), show evaluate cfg s p _ = _ from evals_repr hi hp hc] at h1
  injection h1 with h1
  rw [← eval_toList hi hp y, h1]
  have two := hw.two
  refine Tree.eval_congr fun w hm => ?_
  obtain ⟨j, e, g1, g2, g3, g4, g5⟩ := hw.mem ht (Nat.le_refl _) (by omega) hm
  exact asg_toList (hv w ⟨j, e, ⟨d0, d1, he, g1, g2, g3⟩, g4, g5⟩)

/-! ## C73 -/

/-- C73, for histories that respect the variable order: exporting an ordered entry into a manager that holds a BDD `p` of the same function returns `p`,
whether or not the entry is reduced and wherever it came from. -/
theorem C73_export_handle (hR : Reachable cfg .ordered a) (hC : CReachable cfg c) (hp : a.Holds p) {nr : Nat} (hn : nr < c.nrBdds) (hb : c.Big nr)
    (hv : ∀ v, c.Var nr v → v < a.mgr.nvars) (ho : c.Ordered nr) (h : ∀ x, Covers a.mgr x → evaluate cfg a.mgr p x = cEvaluate cfg c nr x) :
    Returns (exportBdd cfg c nr a.mgr) (fun r _ => r = p) := by
  obtain ⟨d0, d1, he, hwr⟩ := hC.inv.wf nr hn
  obtain ⟨tp, rp⟩ := hR.good.any hp
  have hord : Use.ordered.md.ordered := Use.ordered_iff.2 rfl
  refine (exportBdd_ok hR.good (hC.inv.wf nr hn) he (hb d0 d1 he) (fun _ => ho) hv).returns ?_
  rintro r s' hx hi' ⟨t, t', h1, h2, h3⟩
  have rp' := rp.ext hx.cells
  refine hi'.repr_inj h2 ?_
  have : t' = tp := Tree.eq_of_eval (hi'.ord hord _ _ h2) (hi'.ord hord _ _ rp') (hi'.reduced h2) (hi'.reduced rp')
    fun y => by rw [h3.eval, entry_eval hR.good he hwr h1 rp hv h y]
  rw [this]; exact rp'

/-- C73: if moreover the entry is reduced and connected (as every entry made by `add_bdd` and `bdd_and` is), the export allocates nothing. -/
theorem C73_export_nothing (hR : Reachable cfg .ordered a) (hC : CReachable cfg c) (hp : a.Holds p) {nr : Nat} (hn : nr < c.nrBdds) (hb : c.Big nr)
    (hv : ∀ v, c.Var nr v → v < a.mgr.nvars) (ho : c.Ordered nr) (hr : c.Reduced nr) (hcon : c.Connected nr)
    (h : ∀ x, Covers a.mgr x → evaluate cfg a.mgr p x = cEvaluate cfg c nr x) : exportBdd cfg c nr a.mgr = .ok p a.mgr := by
  obtain ⟨d0, d1, he, hwr⟩ := hC.inv.wf nr hn
  have two := hwr.two
  obtain ⟨tp, rp⟩ := hR.good.any hp
  obtain ⟨t, ht⟩ := (hC.inv.wf nr hn).tree he
  have hord : Use.ordered.md.ordered := Use.ordered_iff.2 rfl
  have : t = tp := Tree.eq_of_eval ((hC.inv.wf nr hn).tree_ordered he ho ht (Nat.le_refl _) (by omega)) (hR.good.ord hord _ _ rp)
    (tree_reduced (hC.inv.wf nr hn) hr he ht (Nat.le_refl _) (by omega)) (hR.good.reduced rp)
    fun y => (entry_eval hR.good he hwr ht rp hv h y).symm
  subst this
  exact exportBdd_hit hR.good (hC.inv.wf nr hn) he (hb d0 d1 he) hcon ht rp

/-- C73 for the other direction of transfer: `mgr.add_bdd(collection, nr)` of an ordered entry, reduced or not, into a manager that holds a BDD `p` of the same
function returns `p` (in debug builds for entries that end before position 1002, see `C41_refuted`). -/
theorem C73_import_handle (hR : Reachable cfg .ordered a) (hC : CReachable cfg c) (hp : a.Holds p) {nr : Nat} (hn : nr < c.nrBdds)
    (hv : ∀ v, c.Var nr v → v < a.mgr.nvars) (ho : c.Ordered nr) (h : ∀ x, Covers a.mgr x → evaluate cfg a.mgr p x = cEvaluate cfg c nr x)
    (hd : cfg.ndebug = true ∨ ∀ d1, c.del[nr + 1]? = some d1 → d1 ≤ 1002) :
    Returns (mgrAddBdd cfg c nr a.mgr) (fun r _ => r = p) := by
  obtain ⟨d0, d1, he, hwr⟩ := hC.inv.wf nr hn
  obtain ⟨tp, rp⟩ := hR.good.any hp
  have hord : Use.ordered.md.ordered := Use.ordered_iff.2 rfl
  refine (mgrAddBdd_ok (Use.orMode (Or.inl rfl)) hR.good (hC.inv.wf nr hn) he ho (fun v h => Nat.lt_of_lt_of_le (hv v h) hR.good.nv)
    (by rcases hd with h | h; exact Or.inl h; exact Or.inr (h d1 he.2))).returns ?_
  rintro r s' hx hi' ⟨t, t', h1, h2, h3⟩
  have rp' := rp.ext hx.cells
  refine hi'.repr_inj h2 ?_
  have : t' = tp := Tree.eq_of_eval (hi'.ord hord _ _ h2) (hi'.ord hord _ _ rp') (hi'.reduced h2) (hi'.reduced rp')
    fun y => by rw [h3.eval, entry_eval hR.good he hwr h1 rp hv h y]
  rw [this]; exact rp'

/-- The core of the agreement of the two conjunctions. -/
theorem and_agrees_core {run : Cfg → Nat → Res Coll (Option Nat)} (hs : ∃ K c' t, Anded c c' K l t ∧ AndSpec c K c' run)
    {md : Md} {refs : Nat → Nat} {s : Mgr} (hord : md.ordered) (hi : Inv cfg md refs s) {tp : Tree} (rp : Repr s.cells p tp) (p2 : 2 ≤ p)
    (ho : ∀ i ∈ l, c.Ordered i) (hv : ∀ i ∈ l, ∀ v, c.Var i v → v < s.nvars)
    (h : ∀ x, Covers s x → (evaluate cfg s p x = .ok true () ↔ ∀ i ∈ l, cEvaluate cfg c i x = .ok true ())) :
    ∃ c' k, (∀ limit, 2 < limit → run cfg limit = if k + 2 ≤ limit then .ok (some c.nrBdds) c' else .ok none c) ∧
      nrNodes cfg p s = .ok k s ∧ cNrNodes cfg c.nrBdds c' = .ok (k + 2) c' ∧ exportBdd cfg c' c.nrBdds s = .ok p s := by
  obtain ⟨K, c', t, ha, hs⟩ := hs
  have hmem : ∀ w, t.Mem w → w < s.nvars := fun w hw => by
    obtain ⟨i, h1, h2⟩ := ha.mem w hw
    exact hv i h1 w h2
  have ht : t = tp := by
    refine Tree.eq_of_eval (ha.ordered ho) (hi.ord hord _ _ rp) ha.treeRed (hi.reduced rp) fun y => ?_
    have hc := covers_toList s y
    have hev : evaluate cfg s p (toList s.nvars y) = .ok (tp.eval (asg (toList s.nvars y))) () := evals_repr hi rp hc
    have h1 := h _ hc
    have h2 := ha.conj cfg _ (fun i hi' v hw => Nat.lt_of_lt_of_le (hv i hi' v hw) hc)
    rw [hev, ← h2, eval_toList hi rp, Tree.eval_congr (fun w hw => asg_toList (hmem w hw))] at h1
    cases e1 : t.eval y <;> cases e2 : tp.eval y
    · rfl
    · rw [e1, e2] at h1; exact absurd (h1.1 rfl) (by decide)
    · rw [e1, e2] at h1; have := h1.2 rfl; cases this
    · rfl
  subst ht
  have hK : K ≠ 2 := by
    intro h2
    obtain ⟨tl, th, e, _⟩ := rp.inv p2
    rcases (ha.small h2).1 with h' | h' <;> rw [h'] at e <;> cases e
  obtain ⟨hrt, hcon, _⟩ := ha.big hK
  obtain ⟨c2, d0, d1, L, _, had⟩ := added (cfg := cfg) hi ha.inv rp p2
  obtain ⟨L', hL', hn⟩ := nrNodes_ok hi rp (.of hi (Or.inr p2))
  have hlen : L'.length = L.length := Lists.length_eq hL' had.lists
  have q1 := size_le ha.wf ha.reduced hcon ha.entry had.wf had.entry hrt had.repr
  have q2 := size_le had.wf had.reduced had.connected had.entry ha.wf ha.entry had.repr hrt
  have hsz := had.size
  have hKL : K = L'.length + 2 := by omega
  refine ⟨c', L'.length, ?_, hn, ?_, ?_⟩
  · intro limit hl
    rw [hs cfg limit, if_neg (by omega), ← hKL]
    by_cases h3 : K ≤ limit
    · rw [if_pos (Or.inl h3), if_neg (by simp [hK]), if_pos h3]
    · rw [if_neg (by omega), if_neg h3]
  · rw [cNrNodes_ok ha.entry, hKL]; congr 1; omega
  · exact exportBdd_hit hi ha.wf ha.entry (by have := ha.two; omega) hcon hrt rp

/-- C73: the two conjunctions agree. If the manager (history respecting the order) computes `r = and_rec(f, g)`, not a sink, and the ordered entries `i` and `j`
of any collection have the functions of `f` and `g`, then `bdd_and(i, j, limit)` succeeds exactly for the limits from `nr_nodes(r) + 2` on, the new entry has
`nr_nodes(r) + 2` instructions, and exporting it into the manager returns `r` itself and allocates nothing. -/
theorem C73_and_agrees (hR : Reachable cfg .ordered a) (hC : CReachable cfg c) {f g r i j : Nat} {s' : Mgr} (hf : a.Holds f) (hg : a.Holds g)
    (e : andOp cfg f g a.mgr = .ok r s') (r2 : 2 ≤ r) (hi : i < c.nrBdds) (hj : j < c.nrBdds) (oi : c.Ordered i) (oj : c.Ordered j)
    (vi : ∀ v, c.Var i v → v < a.mgr.nvars) (vj : ∀ v, c.Var j v → v < a.mgr.nvars)
    (hfi : ∀ x, Covers a.mgr x → evaluate cfg a.mgr f x = cEvaluate cfg c i x)
    (hgj : ∀ x, Covers a.mgr x → evaluate cfg a.mgr g x = cEvaluate cfg c j x) :
    ∃ c' k, (∀ limit, 2 < limit → bddAnd cfg i j limit c = if k + 2 ≤ limit then .ok (some c.nrBdds) c' else .ok none c) ∧
      nrNodes cfg r s' = .ok k s' ∧ cNrNodes cfg c.nrBdds c' = .ok (k + 2) c' ∧ exportBdd cfg c' c.nrBdds s' = .ok r s' := by
  obtain ⟨tf, rf⟩ := hR.good.any hf
  obtain ⟨tg, rg⟩ := hR.good.any hg
  have hsp := andOp_ok hR.good rf rg
  unfold Spec M.Sat at hsp
  rw [e] at hsp
  obtain ⟨hx, hi', tr, rr, he, _⟩ := hsp
  refine and_agrees_core (run := fun cfg limit => bddAnd cfg i j limit c) (and2 hC hi hj) (Use.ordered_iff.2 rfl) hi' rr r2 ?_ ?_ ?_
  · intro k hk; simp at hk; rcases hk with rfl | rfl <;> assumption
  · intro k hk; simp at hk; rw [hx.nvars]; rcases hk with rfl | rfl <;> assumption
  · intro x hc
    have hc' := hc.anti (s := a.mgr) (by rw [hx.nvars]; exact Nat.le_refl _)
    have h1 : evaluate cfg s' r x = .ok (tr.eval (asg x)) () := evals_repr hi' rr hc
    have h2 : evaluate cfg a.mgr f x = .ok (tf.eval (asg x)) () := evals_repr hR.good rf hc'
    have h3 : evaluate cfg a.mgr g x = .ok (tg.eval (asg x)) () := evals_repr hR.good rg hc'
    simp only [List.mem_cons, List.not_mem_nil, or_false, forall_eq_or_imp, forall_eq]
    rw [← hfi x hc', ← hgj x hc', h1, h2, h3, he]
    cases tf.eval (asg x) <;> cases tg.eval (asg x) <;> simp

/-- C73 for ranges: if a held BDD `r`, not a sink, is true exactly when all entries of the list are, then `bdd_and` of the list succeeds exactly for the limits
from `nr_nodes(r) + 2` on, and exporting the new entry returns `r` and allocates nothing. -/
theorem C73_and_range_agrees (hR : Reachable cfg .ordered a) (hC : CReachable cfg c) (hp : a.Holds p) (p2 : 2 ≤ p) (hl : ∀ i ∈ l, i < c.nrBdds)
    (h2 : 2 ≤ l.length) (h49 : l.length ≤ 49) (ho : ∀ i ∈ l, c.Ordered i) (hv : ∀ i ∈ l, ∀ v, c.Var i v → v < a.mgr.nvars)
    (h : ∀ x, Covers a.mgr x → (evaluate cfg a.mgr p x = .ok true () ↔ ∀ i ∈ l, cEvaluate cfg c i x = .ok true ())) :
    ∃ c' k, (∀ limit, 2 < limit → bddAndRange cfg l limit c = if k + 2 ≤ limit then .ok (some c.nrBdds) c' else .ok none c) ∧
      nrNodes cfg p a.mgr = .ok k a.mgr ∧ cNrNodes cfg c.nrBdds c' = .ok (k + 2) c' ∧ exportBdd cfg c' c.nrBdds a.mgr = .ok p a.mgr := by
  obtain ⟨tp, rp⟩ := hR.good.any hp
  exact and_agrees_core (run := fun cfg limit => bddAndRange cfg l limit c) (andN hC hl h2 h49) (Use.ordered_iff.2 rfl) hR.good rp p2 ho hv h

/-- Values beyond the variables of an entry do not matter. -/
theorem cEvaluate_take (hC : CReachable cfg c) {nr n : Nat} (hn : nr < c.nrBdds) (hv : ∀ v, c.Var nr v → v < n) {x : List Bool} (hx : n ≤ x.length) :
    cEvaluate cfg c nr x = cEvaluate cfg c nr (x.take n) := by
  obtain ⟨d0, d1, he, hw⟩ := hC.inv.wf nr hn
  obtain ⟨t, ht⟩ := (hC.inv.wf nr hn).tree he
  have c1 : CCovers c nr x := fun v h => Nat.lt_of_lt_of_le (hv v h) hx
  have c2 : CCovers c nr (x.take n) := fun v h => by rw [List.length_take]; have := hv v h; omega
  rw [cEvaluate_ok he hw ht (c1.mem he hw ht), cEvaluate_ok he hw ht (c2.mem he hw ht)]
  congr 1
  have two := hw.two
  refine Tree.eval_congr fun w hm => ?_
  obtain ⟨j, e, g1, g2, g3, g4, g5⟩ := hw.mem ht (Nat.le_refl _) (by omega) hm
  have := hv w ⟨j, e, ⟨d0, d1, he, g1, g2, g3⟩, g4, g5⟩
  simp [this]

/-- The entries of the demo collection have the functions of the BDDs of the demo manager. -/
theorem demoC_same (nd : Bool) {f i : Nat} (h : (f, i) ∈ [(5, 0), (7, 1), (9, 2)]) (x : List Bool) (hx : Covers (demoOf nd).mgr x) :
    evaluate (envOf nd) (demoOf nd).mgr f x = cEvaluate (envOf nd) (demoC nd) i x := by
  have hm : f ∈ [5, 7, 9, 3] ∧ i < 4 := by
    simp only [List.mem_cons, List.not_mem_nil, or_false, Prod.mk.injEq] at h ⊢
    omega
  have hn : (demoOf nd).mgr.nvars = 3 := by cases nd <;> decide +kernel
  unfold Covers at hx
  rw [evaluate_take (demoOf_reachable nd) (demoOf_holds nd f hm.1).1 hx, hn,
    cEvaluate_take (demoC_reachable nd) (n := 3) (by rw [demoC_nrBdds]; exact hm.2) (demoC_vars nd i hm.2) (by omega)]
  have key : ∀ y ∈ [[false, false, false], [false, false, true], [false, true, false], [false, true, true], [true, false, false], [true, false, true],
      [true, true, false], [true, true, true]], ∃ b, evaluate (envOf nd) (demoOf nd).mgr f y = .ok b () ∧ cEvaluate (envOf nd) (demoC nd) i y = .ok b () := by
    have : ([[false, false, false], [false, false, true], [false, true, false], [false, true, true], [true, false, false], [true, false, true],
      [true, true, false], [true, true, true]].all fun y => [(5, 0), (7, 1), (9, 2)].all fun q => [false, true].any fun b =>
        cevB (evaluate (envOf nd) (demoOf nd).mgr q.1 y) b && cevB (cEvaluate (envOf nd) (demoC nd) q.2 y) b) = true := by cases nd <;> decide +kernel
    intro y hy
    have := List.all_eq_true.1 (List.all_eq_true.1 this y hy) _ h
    obtain ⟨b, _, hb⟩ := List.any_eq_true.1 this
    rw [Bool.and_eq_true] at hb
    exact ⟨b, cevB_sound hb.1, cevB_sound hb.2⟩
  match x, hx with
  | b0 :: b1 :: b2 :: _, _ =>
    simp only [List.take_succ_cons, List.take_zero]
    obtain ⟨b, h1, h2⟩ := key [b0, b1, b2] (by cases b0 <;> cases b1 <;> cases b2 <;> simp)
    rw [h1, h2]
  | [], h => rw [hn] at h; simp at h
  | [_], h => rw [hn] at h; simp at h
  | [_, _], h => rw [hn] at h; simp at h

/-- The hypotheses are met: ((x0∧x1)∨x2) ∧ ¬(x0∧x1), computed in the manager and in the collection. -/
theorem C73_example (nd : Bool) : ∃ r s' c' k, andOp (envOf nd) 9 7 (demoOf nd).mgr = .ok r s' ∧ 2 ≤ r ∧
    (∀ limit, 2 < limit → bddAnd (envOf nd) 2 1 limit (demoC nd) = if k + 2 ≤ limit then .ok (some 4) c' else .ok none (demoC nd)) ∧
    nrNodes (envOf nd) r s' = .ok k s' ∧ exportBdd (envOf nd) c' 4 s' = .ok r s' := by
  have hn : (demoOf nd).mgr.nvars = 3 := by cases nd <;> decide +kernel
  have : (match andOp (envOf nd) 9 7 (demoOf nd).mgr with | .ok r _ => decide (2 ≤ r) | _ => false) = true := by cases nd <;> decide +kernel
  split at this
  · rename_i r s' e
    obtain ⟨c', k, h1, h2, _, h4⟩ := C73_and_agrees (demoOf_reachable nd) (demoC_reachable nd) (demoOf_holds nd 9 (by simp)).1 (demoOf_holds nd 7 (by simp)).1 e
      (of_decide_eq_true this) (i := 2) (j := 1) (by rw [demoC_nrBdds]; omega) (by rw [demoC_nrBdds]; omega) (demoC_ordered nd 2 (by omega))
      (demoC_ordered nd 1 (by omega)) (by rw [hn]; exact demoC_vars nd 2 (by omega)) (by rw [hn]; exact demoC_vars nd 1 (by omega))
      (demoC_same nd (by simp)) (demoC_same nd (by simp))
    rw [demoC_nrBdds] at h1 h4
    exact ⟨r, s', c', k, e, of_decide_eq_true this, h1, h2, h4⟩
  · cases this

/-- Why the history must respect the order: after `xor_rec` a manager can hold two BDDs of one function, and exporting an ordered, reduced, connected entry of that function
returns only one of them. -/
theorem C73_refuted (nd : Bool) : ∃ a c nr p q, Reachable (envOf nd) .parity a ∧ CReachable (envOf nd) c ∧ nr < c.nrBdds ∧ a.Holds p ∧ a.Holds q ∧
    (∀ x, Covers a.mgr x → evaluate (envOf nd) a.mgr p x = cEvaluate (envOf nd) c nr x) ∧
    (∀ x, Covers a.mgr x → evaluate (envOf nd) a.mgr q x = cEvaluate (envOf nd) c nr x) ∧
    c.Ordered nr ∧ c.Reduced nr ∧ c.Connected nr ∧ exportBdd (envOf nd) c nr a.mgr = .ok q a.mgr ∧ p ≠ q := by
  have hR : Reachable (envOf nd) .parity (twoXors nd) := stateAfter_reachable _ _ _
  have h5 : (twoXors nd).Holds 5 := by unfold Api.Holds; rw [twoXors_hs]; decide
  have h12 : (twoXors nd).Holds 12 := by unfold Api.Holds; rw [twoXors_hs]; decide
  obtain ⟨t, ht⟩ := hR.good.any h12
  obtain ⟨c', d0, d1, L, e, h⟩ := added (cfg := envOf nd) hR.good (CReachable.init (cfg := envOf nd)).inv ht (by omega)
  obtain ⟨c1, k, e1, g1, g2, _⟩ := C39_add_bdd hR (CReachable.init (cfg := envOf nd)) h12 (by omega)
  rw [e] at e1
  cases e1
  have hord : c'.Ordered 0 := by
    refine Coll.orderedB_sound ?_
    have : (match addBdd (envOf nd) 12 ((twoXors nd).mgr, Coll.init) with | .ok _ (_, c) => c.orderedB 0 | _ => false) = true := by cases nd <;> decide +kernel
    rw [e] at this
    exact this
  refine ⟨twoXors nd, c', 0, 5, 12, hR, .add .init rfl hR h12 (by omega) e, by rw [g1]; decide, h5, h12, ?_, fun x hx => (g2 x hx).symm, hord, h.reduced, h.connected,
    C40_round_trip hR .init h12 (by omega) e .refl (.refl h.wf), by decide⟩
  intro x hx
  refine Eq.trans ?_ (g2 x hx).symm
  rw [evaluate_take hR h5 hx, evaluate_take hR h12 hx]
  unfold Covers at hx
  rw [twoXors_nvars] at hx ⊢
  match x, hx with
  | b0 :: b1 :: _, _ =>
    simp only [List.take_succ_cons, List.take_zero]
    obtain ⟨e1, e2⟩ := twoXors_eval nd b0 b1
    exact (evalsB_sound e1).trans (evalsB_sound e2).symm

end
end LBDD
