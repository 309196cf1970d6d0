import Verif.Props.Demo
/-!
# Boolean operations (C01–C06, C57)

`a` is any state reachable by a history of API calls in discipline `u` (`Reachable`), `f`, `g`, `h` are BDDs the user holds
handles to (`Holds`), `Denotes cfg s p F` says that `evaluate` on `p` computes `F`, and `Returns` says that a call returns (or
throws because some variable has more than 2^18 nodes): no failed assert, no undefined behaviour, no non-termination.
-/
namespace LBDD
section
variable {cfg : Cfg} {u : Use} {a : Api} {f g h : Nat} {F G H : List Bool → Bool}

/-! ## C01 -/

/-- C01: `and_rec(f, g)` is the conjunction, in every discipline. -/
theorem C01_and_correct (hR : Reachable cfg u a) (hf : a.Holds f) (hg : a.Holds g) (dF : Denotes cfg a.mgr f F) (dG : Denotes cfg a.mgr g G) :
    Returns (andOp cfg f g a.mgr) (fun r s' => Denotes cfg s' r (fun x => F x && G x)) := by
  obtain ⟨tf, rf⟩ := hR.good.any hf
  obtain ⟨tg, rg⟩ := hR.good.any hg
  refine (andOp_ok hR.good rf rg).returns ?_
  rintro r s' hx hi' ⟨tr, rr, he, _⟩ x hc
  have hc' := hc.anti (s := a.mgr) (by rw [hx.nvars]; exact Nat.le_refl _)
  have h1 := dF.eq (denotes_repr hR.good rf) hc'
  have h2 := dG.eq (denotes_repr hR.good rg) hc'
  show EvalsTo cfg s' r x (F x && G x)
  rw [h1, h2, ← he]
  exact evals_repr hi' rr hc

/-! ## C02 -/

/-- C02, for histories that do not use `xor_rec` (see `C02_refuted`). -/
theorem C02_or_correct_partial (hR : Reachable cfg u a) (hu : u = .ordered ∨ u = .unordered) (hf : a.Holds f) (hg : a.Holds g)
    (dF : Denotes cfg a.mgr f F) (dG : Denotes cfg a.mgr g G) :
    Returns (orOp cfg f g a.mgr) (fun r s' => Denotes cfg s' r (fun x => F x || G x)) := by
  obtain ⟨tf, rf⟩ := hR.good.any hf
  obtain ⟨tg, rg⟩ := hR.good.any hg
  have hm : u.md.sem = fun a b c => c = (a || b) := (Use.orMode hu).sem
  refine (orOp_ok ((Use.orMode hu).semIte.toSemOr) hR.good rf rg).returns ?_
  rintro r s' hx hi' ⟨tr, rr, he, _⟩ x hc
  rw [hm] at he
  have hc' := hc.anti (s := a.mgr) (by rw [hx.nvars]; exact Nat.le_refl _)
  have h1 := dF.eq (denotes_repr hR.good rf) hc'
  have h2 := dG.eq (denotes_repr hR.good rg) hc'
  show EvalsTo cfg s' r x (F x || G x)
  rw [h1, h2, ← he]
  exact evals_repr hi' rr hc

/-- In every history, mixed or not, `or_rec` returns a BDD that is right at every assignment that does not make both operands true. -/
theorem C02_or_mixed_partial (hR : Reachable cfg u a) (hf : a.Holds f) (hg : a.Holds g)
    (dF : Denotes cfg a.mgr f F) (dG : Denotes cfg a.mgr g G) :
    Returns (orOp cfg f g a.mgr) (fun r s' => ∀ x, Covers s' x → (F x && G x) = false → EvalsTo cfg s' r x (F x || G x)) := by
  have hR := hR.mixed
  obtain ⟨tf, rf⟩ := hR.good.any hf
  obtain ⟨tg, rg⟩ := hR.good.any hg
  refine (orOp_ok (md := Use.mixed.md) semIte_mixed.toSemOr hR.good rf rg).returns ?_
  rintro r s' hx hi' ⟨tr, rr, he, _⟩ x hc hz
  have hc' := hc.anti (s := a.mgr) (by rw [hx.nvars]; exact Nat.le_refl _)
  have h1 := dF.eq (denotes_repr hR.good rf) hc'
  have h2 := dG.eq (denotes_repr hR.good rg) hc'
  have e := he (asg x)
  simp only [Use.md] at e
  rw [h1, h2] at hz
  rw [h1, h2, show (tf.eval (asg x) || tg.eval (asg x)) = tr.eval (asg x) by
    cases e1 : tf.eval (asg x) <;> cases e2 : tg.eval (asg x) <;> simp_all]
  exact evals_repr hi' rr hc

/-! ## C03 -/

/-- C03: `negate(f)` is the complement, and negating twice gives back the same handle, in every discipline. -/
theorem C03_negate_correct (hR : Reachable cfg u a) (hf : a.Holds f) (dF : Denotes cfg a.mgr f F) :
    Returns (negateOp cfg f a.mgr) (fun r s' => Denotes cfg s' r (fun x => !F x) ∧ Returns (negateOp cfg r s') (fun q _ => q = f)) := by
  obtain ⟨tf, rf⟩ := hR.good.any hf
  refine (negateOp_tree hR.good rf).returns ?_
  rintro r s' hx hi' ⟨rr, _⟩
  refine ⟨?_, ?_⟩
  · intro x hc
    have hc' := hc.anti (s := a.mgr) (by rw [hx.nvars]; exact Nat.le_refl _)
    have h1 := dF.eq (denotes_repr hR.good rf) hc'
    show EvalsTo cfg s' r x (!F x)
    rw [h1, ← negTree_eval]
    exact evals_repr hi' rr hc
  · refine (negateOp_tree hi' rr).returns ?_
    rintro q s'' hx' hi'' ⟨rq, _⟩
    rw [negTree_negTree] at rq
    exact hi''.repr_inj rq (rf.ext (hx.cells.trans hx'.cells))

/-! ## C04 -/

/-- C04, for histories that use neither `or_rec` nor `ite_rec` nor anything built on them (see `C04_refuted`). -/
theorem C04_xor_correct_partial (hR : Reachable cfg .parity a) (hf : a.Holds f) (hg : a.Holds g)
    (dF : Denotes cfg a.mgr f F) (dG : Denotes cfg a.mgr g G) :
    Returns (xorOp cfg f g a.mgr) (fun r s' => Denotes cfg s' r (fun x => F x != G x)) := by
  obtain ⟨tf, rf⟩ := hR.good.any hf
  obtain ⟨tg, rg⟩ := hR.good.any hg
  refine (xorOp_ok (md := Use.parity.md) Use.xorMode.semXor id hR.good rf rg).returns ?_
  rintro r s' hx hi' ⟨tr, rr, he, _⟩ x hc
  have hc' := hc.anti (s := a.mgr) (by rw [hx.nvars]; exact Nat.le_refl _)
  have h1 := dF.eq (denotes_repr hR.good rf) hc'
  have h2 := dG.eq (denotes_repr hR.good rg) hc'
  have e := he (asg x)
  simp only [Use.md] at e
  show EvalsTo cfg s' r x (F x != G x)
  rw [h1, h2, show (tf.eval (asg x) != tg.eval (asg x)) = tr.eval (asg x) by rw [e]]
  exact evals_repr hi' rr hc

/-- In every history, mixed or not, `xor_rec` returns a BDD that is the exclusive or or the disjunction at each assignment:
the only possible error is at assignments where both operands are true. -/
theorem C04_xor_mixed_partial (hR : Reachable cfg u a) (hf : a.Holds f) (hg : a.Holds g)
    (dF : Denotes cfg a.mgr f F) (dG : Denotes cfg a.mgr g G) :
    Returns (xorOp cfg f g a.mgr) (fun r s' => ∀ x, Covers s' x → (F x && G x) = false → EvalsTo cfg s' r x (F x != G x)) := by
  have hR := hR.mixed
  obtain ⟨tf, rf⟩ := hR.good.any hf
  obtain ⟨tg, rg⟩ := hR.good.any hg
  refine (xorOp_ok (md := Use.mixed.md) semXor_mixed id hR.good rf rg).returns ?_
  rintro r s' hx hi' ⟨tr, rr, he, _⟩ x hc hz
  have hc' := hc.anti (s := a.mgr) (by rw [hx.nvars]; exact Nat.le_refl _)
  have h1 := dF.eq (denotes_repr hR.good rf) hc'
  have h2 := dG.eq (denotes_repr hR.good rg) hc'
  have e := he (asg x)
  simp only [Use.md] at e
  rw [h1, h2] at hz
  rw [h1, h2, show (tf.eval (asg x) != tg.eval (asg x)) = tr.eval (asg x) by
    cases e1 : tf.eval (asg x) <;> cases e2 : tg.eval (asg x) <;> simp_all]
  exact evals_repr hi' rr hc

/-! ## C05 -/

/-- C05, for histories without `xor_rec` and when the last variable of the manager does not occur in the condition, or
occurs in neither branch (see `C05_refuted`). -/
theorem C05_ite_correct_partial (hR : Reachable cfg u a) (hu : u = .ordered ∨ u = .unordered)
    (hf : a.Holds f) (hg : a.Holds g) (hh : a.Holds h)
    (hs : (∀ w, Occurs a.mgr f w → w + 1 < a.mgr.nvars) ∨ (∀ w, Occurs a.mgr g w ∨ Occurs a.mgr h w → w + 1 < a.mgr.nvars))
    (dF : Denotes cfg a.mgr f F) (dG : Denotes cfg a.mgr g G) (dH : Denotes cfg a.mgr h H) :
    Returns (iteOp cfg f g h a.mgr) (fun r s' => Denotes cfg s' r (fun x => if F x then G x else H x)) := by
  obtain ⟨tf, rf⟩ := hR.good.any hf
  obtain ⟨tg, rg⟩ := hR.good.any hg
  obtain ⟨th, rh⟩ := hR.good.any hh
  have hm : u.md.sem = fun a b c => c = (a || b) := (Use.orMode hu).sem
  have hsafe : IteSafe a.mgr.nvars tf tg th := by
    rcases hs with hs | hs
    · exact Or.inl fun w hw => hs w ((occurs_iff rf w).2 hw)
    · refine Or.inr fun w hw => hs w ?_
      rcases hw with hw | hw
      · exact Or.inl ((occurs_iff rg w).2 hw)
      · exact Or.inr ((occurs_iff rh w).2 hw)
  refine (iteOp_ok ((Use.orMode hu).semIte) hR.good rf rg rh hsafe).returns ?_
  rintro r s' hx hi' ⟨tr, rr, he, _⟩ x hc
  rw [hm] at he
  have hc' := hc.anti (s := a.mgr) (by rw [hx.nvars]; exact Nat.le_refl _)
  have h1 := dF.eq (denotes_repr hR.good rf) hc'
  have h2 := dG.eq (denotes_repr hR.good rg) hc'
  have h3 := dH.eq (denotes_repr hR.good rh) hc'
  show EvalsTo cfg s' r x (if F x then G x else H x)
  have e : tr.eval (asg x) = if F x then G x else H x := by
    rw [h1, h2, h3]
    rcases he (asg x) with e | ⟨e1, e2, e3, e4⟩
    · exact e
    · rw [e1, e2, e4]; simp
  rw [← e]
  exact evals_repr hi' rr hc

/-- Without the side condition: whenever `ite_rec` returns (instead of following an arc of a sink), the result is right. -/
theorem C05_ite_if_returns_partial (hR : Reachable cfg u a) (hu : u = .ordered ∨ u = .unordered)
    (hf : a.Holds f) (hg : a.Holds g) (hh : a.Holds h)
    (dF : Denotes cfg a.mgr f F) (dG : Denotes cfg a.mgr g G) (dH : Denotes cfg a.mgr h H) {r : Nat} {s' : Mgr}
    (e : iteOp cfg f g h a.mgr = .ok r s') : Denotes cfg s' r (fun x => if F x then G x else H x) := by
  obtain ⟨tf, rf⟩ := hR.good.any hf
  obtain ⟨tg, rg⟩ := hR.good.any hg
  obtain ⟨th, rh⟩ := hR.good.any hh
  have hm : u.md.sem = fun a b c => c = (a || b) := (Use.orMode hu).sem
  have hspec := iteOp_okB (cfg := cfg) ((Use.orMode hu).semIte) True hR.good rf rg rh (Or.inl trivial)
  unfold SpecB at hspec
  rw [e] at hspec
  obtain ⟨hx, hi', tr, rr, he, _⟩ := hspec
  intro x hc
  rw [hm] at he
  have hc' := hc.anti (s := a.mgr) (by rw [hx.nvars]; exact Nat.le_refl _)
  have h1 := dF.eq (denotes_repr hR.good rf) hc'
  have h2 := dG.eq (denotes_repr hR.good rg) hc'
  have h3 := dH.eq (denotes_repr hR.good rh) hc'
  show EvalsTo cfg s' r x (if F x then G x else H x)
  have e : tr.eval (asg x) = if F x then G x else H x := by
    rw [h1, h2, h3]
    rcases he (asg x) with e | ⟨e1, e2, e3, e4⟩
    · exact e
    · rw [e1, e2, e4]; simp
  rw [← e]
  exact evals_repr hi' rr hc

/-- In every history, mixed or not: whenever `ite_rec` returns, the result is right at every assignment that does not make condition, then-branch and
else-branch all true. -/
theorem C05_ite_mixed_partial (hR : Reachable cfg u a) (hf : a.Holds f) (hg : a.Holds g) (hh : a.Holds h)
    (dF : Denotes cfg a.mgr f F) (dG : Denotes cfg a.mgr g G) (dH : Denotes cfg a.mgr h H) {r : Nat} {s' : Mgr}
    (e : iteOp cfg f g h a.mgr = .ok r s') :
    ∀ x, Covers s' x → (F x && G x && H x) = false → EvalsTo cfg s' r x (if F x then G x else H x) := by
  have hR := hR.mixed
  obtain ⟨tf, rf⟩ := hR.good.any hf
  obtain ⟨tg, rg⟩ := hR.good.any hg
  obtain ⟨th, rh⟩ := hR.good.any hh
  have hspec := iteOp_okB (cfg := cfg) (md := Use.mixed.md) semIte_mixed True hR.good rf rg rh (Or.inl trivial)
  unfold SpecB at hspec
  rw [e] at hspec
  obtain ⟨hx, hi', tr, rr, he, _⟩ := hspec
  intro x hc hz
  have hc' := hc.anti (s := a.mgr) (by rw [hx.nvars]; exact Nat.le_refl _)
  have h1 := dF.eq (denotes_repr hR.good rf) hc'
  have h2 := dG.eq (denotes_repr hR.good rg) hc'
  have h3 := dH.eq (denotes_repr hR.good rh) hc'
  rw [h1, h2, h3] at hz ⊢
  have e : tr.eval (asg x) = if tf.eval (asg x) then tg.eval (asg x) else th.eval (asg x) := by
    rcases he (asg x) with e | ⟨e1, e2, e3, e4⟩
    · exact e
    · rw [e1, e2, e3] at hz; cases hz
  rw [← e]
  exact evals_repr hi' rr hc

/-! ## C06 -/

/-- C06: `projection(v)` is the value of variable `v`; it creates missing variables and changes no existing BDD. -/
theorem C06_projection_correct (hR : Reachable cfg u a) {v : Nat} (hv : v < topsinkIndex) :
    Returns (projection cfg v a.mgr) (fun r s' => Denotes cfg s' r (fun x => x.getD v false) ∧ s'.nvars = max a.mgr.nvars (v + 1) ∧
      ∀ p F, a.Holds p → Denotes cfg a.mgr p F → Denotes cfg s' p F) := by
  refine (projection_ok hR.good hv).returns ?_
  rintro r s' hg hi' ⟨rr, hn, _⟩
  refine ⟨?_, hn, ?_⟩
  · intro x hc
    have e : (Tree.node v .bot .top).eval (asg x) = x.getD v false := by
      simp only [Tree.eval, asg]
      by_cases h : x.getD v false = true <;> simp [h]
    show EvalsTo cfg s' r x (x.getD v false)
    rw [← e]
    exact evals_repr hi' rr hc
  · intro p F hp dF x hc
    obtain ⟨t, ht⟩ := hR.good.any hp
    rw [dF.eq (denotes_repr hR.good ht) (hc.anti hg.nvars)]
    exact evals_repr hi' (ht.ext hg.cells) hc

/-- C06: `neg_projection(v)` is the complement of variable `v`. -/
theorem C06_negProjection_correct (hR : Reachable cfg u a) {v : Nat} (hv : v < a.mgr.nvars) :
    Returns (negProjection cfg v a.mgr) (fun r s' => Denotes cfg s' r (fun x => !x.getD v false)) := by
  refine (negProjection_ok hR.good hv).returns ?_
  rintro r s' hg hi' ⟨rr, _⟩ x hc
  have e : (Tree.node v .top .bot).eval (asg x) = !x.getD v false := by
    simp only [Tree.eval, asg]
    by_cases h : x.getD v false = true <;> simp [h]
  show EvalsTo cfg s' r x (!x.getD v false)
  rw [← e]
  exact evals_repr hi' rr hc

/-- C06: `add_variable()` returns the next index and changes no existing BDD. -/
theorem C06_addVariable_correct (hR : Reachable cfg u a) (hv : a.mgr.nvars < topsinkIndex) :
    Returns (addVariable cfg a.mgr) (fun v s' => v = a.mgr.nvars ∧ s'.nvars = a.mgr.nvars + 1 ∧
      ∀ p F, a.Holds p → Denotes cfg a.mgr p F → Denotes cfg s' p F) := by
  refine (addVariable_ok hR.good hv).returns ?_
  rintro r s' hg hi' ⟨h1, h2, _⟩
  refine ⟨h1, h2, ?_⟩
  intro p F hp dF x hc
  obtain ⟨t, ht⟩ := hR.good.any hp
  rw [dF.eq (denotes_repr hR.good ht) (hc.anti hg.nvars)]
  exact evals_repr hi' (ht.ext hg.cells) hc

/-- C06, the limit of `neg_projection` and `unique_find`: unlike `projection`, they do not create the variable. For an index that is not a variable of the
manager, in any state, debug builds stop at an assert and release builds index a vector out of range. -/
theorem C06_undeclared (s : Mgr) {v : Nat} (hv : s.nvars ≤ v) (l h : Nat) :
    negProjection cfg v s = (if cfg.ndebug then .ub else .assertFail) ∧ mgrUniqueFind cfg v l h s = (if cfg.ndebug then .ub else .assertFail) := by
  have hd : decide (v < s.nvars) = false := by simp; omega
  have key : ∀ l h, (M.assert cfg.ndebug (decide (v < s.nvars)) >>= fun _ => uniqueFind cfg v l h) s = (if cfg.ndebug then .ub else .assertFail) := by
    intro l h
    show M.bind _ _ s = _
    unfold M.bind M.assert uniqueFind
    rw [hd]
    cases hn : cfg.ndebug with
    | false => simp
    | true =>
      simp only [Bool.true_or, if_true]
      rw [M.get_bind_apply, if_pos hv]
      rfl
  exact ⟨by unfold negProjection; rw [M.get_bind_apply]; exact key _ _, by unfold mgrUniqueFind; rw [M.get_bind_apply]; exact key _ _⟩

/-! ## C57 -/

theorem post2_occurs {R : Bool → Bool → Bool → Prop} {s s' : Mgr} {tf tg : Tree} {r : Nat} (rf : Repr s.cells f tf) (rg : Repr s.cells g tg)
    (hp : Post2 R tf tg s r s') (w : Nat) (hw : Occurs s' r w) : Occurs s f w ∨ Occurs s g w := by
  obtain ⟨tr, rr, _, hv, _⟩ := hp
  rcases hv w ((occurs_iff rr w).1 hw) with h | h
  · exact Or.inl ((occurs_iff rf w).2 h)
  · exact Or.inr ((occurs_iff rg w).2 h)

/-- C57: the variables of `and_rec(f, g)` occur in `f` or in `g`. -/
theorem C57_and_vars (hR : Reachable cfg u a) (hf : a.Holds f) (hg : a.Holds g) :
    Returns (andOp cfg f g a.mgr) (fun r s' => ∀ w, Occurs s' r w → Occurs a.mgr f w ∨ Occurs a.mgr g w) := by
  obtain ⟨tf, rf⟩ := hR.good.any hf
  obtain ⟨tg, rg⟩ := hR.good.any hg
  exact (andOp_ok hR.good rf rg).returns (fun r s' _ _ h => post2_occurs rf rg h)

/-- C57 for `or_rec`, in every history in which it may be called. -/
theorem C57_or_vars (hR : Reachable cfg u a) (hu : u ≠ .parity) (hf : a.Holds f) (hg : a.Holds g) :
    Returns (orOp cfg f g a.mgr) (fun r s' => ∀ w, Occurs s' r w → Occurs a.mgr f w ∨ Occurs a.mgr g w) := by
  obtain ⟨tf, rf⟩ := hR.good.any hf
  obtain ⟨tg, rg⟩ := hR.good.any hg
  exact (orOp_ok (Use.semIte hu).toSemOr hR.good rf rg).returns (fun r s' _ _ h => post2_occurs rf rg h)

/-- C57 for `xor_rec`, in every history in which it may be called. -/
theorem C57_xor_vars (hR : Reachable cfg u a) (hu : u = .parity ∨ u = .mixed) (hf : a.Holds f) (hg : a.Holds g) :
    Returns (xorOp cfg f g a.mgr) (fun r s' => ∀ w, Occurs s' r w → Occurs a.mgr f w ∨ Occurs a.mgr g w) := by
  obtain ⟨tf, rf⟩ := hR.good.any hf
  obtain ⟨tg, rg⟩ := hR.good.any hg
  exact (xorOp_ok (Use.semXor hu).1 (Use.semXor hu).2 hR.good rf rg).returns (fun r s' _ _ h => post2_occurs rf rg h)

/-- C57 for `negate`: exactly the variables of the operand. -/
theorem C57_negate_vars (hR : Reachable cfg u a) (hf : a.Holds f) :
    Returns (negateOp cfg f a.mgr) (fun r s' => ∀ w, Occurs s' r w ↔ Occurs a.mgr f w) := by
  obtain ⟨tf, rf⟩ := hR.good.any hf
  refine (negateOp_tree hR.good rf).returns ?_
  rintro r s' _ _ ⟨rr, _⟩ w
  rw [occurs_iff rr, occurs_iff rf, negTree_mem]

/-- C57 for `ite_rec`: whenever it returns. -/
theorem C57_ite_vars (hR : Reachable cfg u a) (hu : u ≠ .parity) (hf : a.Holds f) (hg : a.Holds g) (hh : a.Holds h) {r : Nat} {s' : Mgr}
    (e : iteOp cfg f g h a.mgr = .ok r s') (w : Nat) (hw : Occurs s' r w) : Occurs a.mgr f w ∨ Occurs a.mgr g w ∨ Occurs a.mgr h w := by
  obtain ⟨tf, rf⟩ := hR.good.any hf
  obtain ⟨tg, rg⟩ := hR.good.any hg
  obtain ⟨th, rh⟩ := hR.good.any hh
  have hspec := iteOp_okB (cfg := cfg) (Use.semIte hu) True hR.good rf rg rh (Or.inl trivial)
  unfold SpecB at hspec
  rw [e] at hspec
  obtain ⟨_, _, tr, rr, _, hv, _⟩ := hspec
  rcases hv w ((occurs_iff rr w).1 hw) with h | h | h
  · exact Or.inl ((occurs_iff rf w).2 h)
  · exact Or.inr (Or.inl ((occurs_iff rg w).2 h))
  · exact Or.inr (Or.inr ((occurs_iff rh w).2 h))
end

/-! ## The hypotheses are met -/

/-- Does `evaluate` return `b`? -/
def evalsB (cfg : Cfg) (s : Mgr) (p : Nat) (x : List Bool) (b : Bool) : Bool :=
  match evaluate cfg s p x with
  | .ok c _ => c == b
  | _ => false

theorem evalsB_sound {cfg : Cfg} {s : Mgr} {p : Nat} {x : List Bool} {b : Bool} (h : evalsB cfg s p x b = true) : EvalsTo cfg s p x b := by
  unfold evalsB at h
  unfold EvalsTo
  cases e : evaluate cfg s p x with
  | ok c t => rw [e] at h; simp at h; subst h; rfl
  | _ => rw [e] at h; simp at h

/-- Result and state of a call that returned. -/
def resOf {α : Type} (o : Res Mgr α) (d : α) (s : Mgr) : α × Mgr :=
  match o with
  | .ok r s' => (r, s')
  | _ => (d, s)

def okB {α : Type} (o : Res Mgr α) : Bool :=
  match o with
  | .ok _ _ => true
  | _ => false

theorem resOf_eq {α : Type} {o : Res Mgr α} {d : α} {s : Mgr} (h : okB o = true) : o = .ok (resOf o d s).1 (resOf o d s).2 := by
  cases o <;> simp [okB] at h; rfl

/-- C01, C03, C57: a state with the conjunction of x0 and x1 and its negation; conjoining the two operands `x0 ∧ x1` and
`(x0 ∧ x1) ∨ x2` is a non-trivial instance. -/
example : Reachable (envOf false) .ordered (demo .ordered) ∧ (demo .ordered).Holds 5 ∧ (demo .ordered).Holds 9 ∧
    okB (andOp (envOf false) 5 9 (demo .ordered).mgr) = true := by
  refine ⟨demo_reachable _, ?_, ?_, by decide +kernel⟩ <;> (unfold Api.Holds; rw [demo_hs]; decide)

theorem occurs_literal {s : Mgr} {p w : Nat} (h2 : (s.cells p).lo < 2) (h3 : (s.cells p).hi < 2) (h : Occurs s p w) :
    w = (s.cells p).index := by
  obtain ⟨q, q2, hr, rfl⟩ := h
  cases hr with
  | refl => rfl
  | lo _ _ hr => exact absurd ⟨q, q2, hr, rfl⟩ (not_occurs_sink h2)
  | hi _ _ hr => exact absurd ⟨q, q2, hr, rfl⟩ (not_occurs_sink h3)

/-- C05: condition x0, branches x1 and ¬(x0∧x1), in a manager with the spare variable x2. -/
example : (∀ w, Occurs (demo .ordered).mgr 2 w → w + 1 < (demo .ordered).mgr.nvars) ∧ (demo .ordered).Holds 2 ∧
    (demo .ordered).Holds 3 ∧ (demo .ordered).Holds 7 := by
  refine ⟨?_, ?_, ?_, ?_⟩
  · intro w hw
    rw [occurs_literal (by decide +kernel) (by decide +kernel) hw]
    decide +kernel
  all_goals (unfold Api.Holds; rw [demo_hs]; decide)

/-- C04: a history with exclusive or and conjunction. Handles: x0, x1, x0 xor x1, (x0 xor x1) ∧ x0. -/
def parityDemo : Api := stateAfter (envOf false) .parity
  [.call (.projection 0) [], .call (.projection 1) [], .call .xor [0, 1], .call .and [2, 0]]

example : Reachable (envOf false) .parity parityDemo ∧ parityDemo.Holds 5 ∧ parityDemo.Holds 6 ∧ 
    okB (xorOp (envOf false) 5 6 parityDemo.mgr) = true := by
  refine ⟨stateAfter_reachable _ _ _, ?_, ?_, by decide +kernel⟩ <;>
    (unfold Api.Holds; rw [show parityDemo.hs = [some 2, some 3, some 5, some 6] by decide +kernel]; decide)

/-! ## Refutations -/

/-- The full C04 is false: after `or_rec(x0, x1)`, `xor_rec(x0, x1)` answers with the disjunction, in debug and release builds. -/
theorem C04_refuted : ∀ nd : Bool, ∃ a f g r s', Reachable (envOf nd) .mixed a ∧ a.Holds f ∧ a.Holds g ∧
    xorOp (envOf nd) f g a.mgr = .ok r s' ∧ EvalsTo (envOf nd) a.mgr f [true, true] true ∧
    EvalsTo (envOf nd) a.mgr g [true, true] true ∧ Covers s' [true, true] ∧ EvalsTo (envOf nd) s' r [true, true] true := by
  intro nd
  let a := stateAfter (envOf nd) .mixed [.call (.projection 0) [], .call (.projection 1) [], .call .or [0, 1]]
  refine ⟨a, 2, 3, _, _, stateAfter_reachable _ _ _, ?_, ?_, resOf_eq (d := 0) (s := a.mgr) ?_, evalsB_sound ?_, evalsB_sound ?_, ?_, evalsB_sound ?_⟩
  · revert a; unfold Api.Holds; cases nd <;> decide +kernel
  · revert a; unfold Api.Holds; cases nd <;> decide +kernel
  · revert a; cases nd <;> decide +kernel
  · revert a; cases nd <;> decide +kernel
  · revert a; cases nd <;> decide +kernel
  · revert a; unfold Covers; cases nd <;> decide +kernel
  · revert a; cases nd <;> decide +kernel

/-- The full C02 is false: after `xor_rec(x0, x1)`, `or_rec(x0, x1)` answers with the exclusive or. -/
theorem C02_refuted : ∀ nd : Bool, ∃ a f g r s', Reachable (envOf nd) .mixed a ∧ a.Holds f ∧ a.Holds g ∧
    orOp (envOf nd) f g a.mgr = .ok r s' ∧ EvalsTo (envOf nd) a.mgr f [true, true] true ∧
    Covers s' [true, true] ∧ EvalsTo (envOf nd) s' r [true, true] false := by
  intro nd
  let a := stateAfter (envOf nd) .mixed [.call (.projection 0) [], .call (.projection 1) [], .call .xor [0, 1]]
  refine ⟨a, 2, 3, _, _, stateAfter_reachable _ _ _, ?_, ?_, resOf_eq (d := 0) (s := a.mgr) ?_, evalsB_sound ?_, ?_, evalsB_sound ?_⟩
  · revert a; unfold Api.Holds; cases nd <;> decide +kernel
  · revert a; unfold Api.Holds; cases nd <;> decide +kernel
  · revert a; cases nd <;> decide +kernel
  · revert a; cases nd <;> decide +kernel
  · revert a; unfold Covers; cases nd <;> decide +kernel
  · revert a; cases nd <;> decide +kernel

def ubB {α : Type} (o : Res Mgr α) : Bool :=
  match o with
  | .ub => true
  | _ => false

theorem ubB_sound {α : Type} {o : Res Mgr α} (h : ubB o = true) : o = .ub := by
  cases o <;> simp [ubB] at h; rfl

/-- The full C05 is false: in a manager with one variable, `ite_rec(x0, false, ¬x0)` is undefined behaviour, in debug and
release builds and in the most restrictive discipline. -/
theorem C05_refuted : ∀ nd : Bool, ∃ a f g h, Reachable (envOf nd) .ordered a ∧ a.Holds f ∧ a.Holds g ∧ a.Holds h ∧
    iteOp (envOf nd) f g h a.mgr = .ub := by
  intro nd
  let a := stateAfter (envOf nd) .ordered [.call (.projection 0) [], .call (.negProjection 0) [], .call .botsink []]
  refine ⟨a, 2, 0, 3, stateAfter_reachable _ _ _, ?_, ?_, ?_, ubB_sound ?_⟩
  · revert a; unfold Api.Holds; cases nd <;> decide +kernel
  · revert a; unfold Api.Holds; cases nd <;> decide +kernel
  · revert a; unfold Api.Holds; cases nd <;> decide +kernel
  · revert a; cases nd <;> decide +kernel

end LBDD
