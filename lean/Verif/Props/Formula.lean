import Verif.Props.Ranges
import Verif.Spec.Formula
/-!
# Deciding formulas (C87)

`ps` are held BDDs, `Fs` the functions they denote, `φ`, `ψ` formulas over them.
-/
namespace LBDD

theorem trues_cnt (l : List Bool) : trues l = cnt l := by
  unfold trues cnt; rw [List.countP_eq_length_filter]

theorem all_id_iff (l : List Bool) : l.all id = decide (cnt l = l.length) := by
  induction l with
  | nil => rfl
  | cons a l ih =>
    rw [List.all_cons, ih, cnt_cons]
    have := cnt_le l
    cases a with
    | true => simp; omega
    | false => simp; omega

theorem Range.det (q : Range) (Gs : List BFun) (h : q.Ok Gs.length) :
    DetE OrMode (fun c l => Reps c l Gs) (fun cfg l => q.call cfg l) (fun r c => Rep c r (fun x => q.holds (vals Gs x))) := by
  have hl : ∀ x, (vals Gs x).length = Gs.length := fun x => by simp [vals]
  cases q with
  | all => exact (andRange_det _ Gs h).fn fun x => by rw [all_id_iff, ← trues_cnt]; rfl
  | any => exact (orRange_det Gs h).fn fun x => by rw [any_id_iff, ← trues_cnt]; rfl
  | none => exact (allFalse_det _ Gs h).fn fun x => by rw [all_not_iff, ← trues_cnt]; rfl
  | some => exact (atLeastOne_det _ Gs h).fn fun x => by rw [← trues_cnt]; rfl
  | atMostOne => exact (atMostOne_det Gs h).fn fun x => by rw [← trues_cnt]; rfl
  | one => exact (simplex_det Gs h).fn fun x => by rw [← trues_cnt]; rfl
  | atLeast b => exact (atLeast_det Gs b h).fn fun x => by rw [← trues_cnt]; rfl
  | atMost b => exact (atMost_det Gs b h.1).fn fun x => by rw [← trues_cnt]; simp [h.2, Range.holds]
  | exactly b => exact (cardinality_det Gs b h).fn fun x => by rw [← trues_cnt]; rfl

/-- The functions of a list of formulas. -/
def Formula.funs (Gs : List BFun) (φs : List Formula) : List BFun := φs.map fun φ x => φ.value (vals Gs x)

theorem Formula.vals_funs (Gs : List BFun) (x : Assign) : ∀ φs : List Formula, vals (Formula.funs Gs φs) x = Formula.values (vals Gs x) φs
  | [] => by simp [funs, vals, Formula.values]
  | φ :: φs => by
    have := Formula.vals_funs Gs x φs
    simp only [vals, funs, List.map_cons, Formula.values] at this ⊢
    rw [this]

mutual
theorem Formula.det (Gs : List BFun) : ∀ φ : Formula, φ.Wf Gs.length →
    DetE OrMode (fun c l => Reps c l Gs) (fun cfg l => φ.build cfg l) (fun r c => Rep c r (fun x => φ.value (vals Gs x)))
  | .held i, h => by
    simp only [Formula.Wf] at h
    simp only [Formula.build]
    refine (det_nth OrMode i h).fn fun x => ?_
    simp [Formula.value, vals, h]
  | .ff, _ => by
    simp only [Formula.build]
    exact DetE.pure (f := fun _ => botId) fun c _ _ => ⟨.bot, .bot, fun x => by simp [Formula.value, Tree.eval]⟩
  | .tt, _ => by
    simp only [Formula.build]
    exact DetE.pure (f := fun _ => topId) fun c _ _ => ⟨.top, .top, fun x => by simp [Formula.value, Tree.eval]⟩
  | .not φ, h => by
    simp only [Formula.Wf] at h
    simp only [Formula.build]
    refine (DetE.bind (k := fun cfg r (_ : List Nat) => negateOp cfg r) Reps.pers (Formula.det Gs φ h)
      (DetE.neg (F := fun x => φ.value (vals Gs x)) (fun p : Nat × List Nat => p.1) (fun c p hp => hp.1))).fn fun x => ?_
    simp [Formula.value]
  | .and φ ψ, h => by
    simp only [Formula.Wf] at h
    simp only [Formula.build]
    refine (DetE.args2op Reps.pers (Formula.det Gs φ h.1) (Formula.det Gs ψ h.2) (det_and OrMode _ _)).fn fun x => ?_
    simp [Formula.value]
  | .or φ ψ, h => by
    simp only [Formula.Wf] at h
    simp only [Formula.build]
    refine (DetE.args2op Reps.pers (Formula.det Gs φ h.1) (Formula.det Gs ψ h.2) (det_or _ _)).fn fun x => ?_
    simp [Formula.value]
  | .range q φs, h => by
    simp only [Formula.Wf] at h
    simp only [Formula.build]
    refine (DetE.bind (k := fun cfg (rs : List Nat) (_ : List Nat) => q.call cfg rs) Reps.pers (Formula.dets Gs φs h.2)
      ((q.det (Formula.funs Gs φs) (by simpa [Formula.funs] using h.1)).map (fun p : List Nat × List Nat => p.1) (fun c p hp => hp.1)
        (fun _ _ h => h))).fn fun x => ?_
    rw [Formula.vals_funs, Formula.value]
theorem Formula.dets (Gs : List BFun) : ∀ φs : List Formula, Formula.Wfs Gs.length φs →
    DetE OrMode (fun c l => Reps c l Gs) (fun cfg l => Formula.builds cfg l φs) (fun rs c => Reps c rs (Formula.funs Gs φs))
  | [], _ => by
    simp only [Formula.builds]
    exact DetE.pure (f := fun _ => []) (fun _ _ _ => trivial)
  | φ :: φs, h => by
    simp only [Formula.Wfs] at h
    simp only [Formula.builds]
    refine DetE.bind (k := fun cfg r (l : List Nat) => Formula.builds cfg l φs >>= fun rs => Pure.pure (r :: rs)) Reps.pers (Formula.det Gs φ h.1) ?_
    refine DetE.bind (ι := Nat × List Nat) (m := fun cfg p => Formula.builds cfg p.2 φs) (k := fun cfg rs p => Pure.pure (p.1 :: rs))
      (Q := fun rs c => Reps c rs (Formula.funs Gs φs)) ?_ ?_ ?_
    · rintro c c' ⟨a, i⟩ hx ⟨ha, hi⟩; exact ⟨ha.ext hx, Reps.pers _ _ _ hx hi⟩
    · exact (Formula.dets Gs φs h.2).map (fun p : Nat × List Nat => p.2) (fun _ _ h => h.2) (fun _ _ h => h)
    · exact DetE.pure (f := fun p : List Nat × Nat × List Nat => p.2.1 :: p.1) (fun c p hp => ⟨hp.2.1, hp.1⟩)
end

section
variable {cfg : Cfg} {u : Use} {a : Api} {ps vs : List Nat} {Fs : List (List Bool → Bool)} {φ ψ : Formula}

/-- C87: building a formula returns a BDD of its function (or throws because a table is full), in all histories without `xor_rec`. -/
theorem C87_build (hR : Reachable cfg u a) (hu : u = .ordered ∨ u = .unordered) (hh : ∀ p ∈ ps, a.Holds p) (hd : DenotesAll cfg a.mgr ps Fs)
    (hw : φ.Wf ps.length) :
    Returns (φ.build cfg ps a.mgr) (fun r s' => Denotes cfg s' r (fun x => φ.value (Fs.map (fun F => F x)))) :=
  detE_returns (m := fun cfg l => φ.build cfg l) OrMode hR (Use.orMode hu) hh hd φ.value
    (fun Gs hg => φ.det Gs (by rw [hg, ← hd.length]; exact hw))

/-- Two functions given by what they do with the values of the held BDDs. -/
theorem both_of_det {m1 m2 : Cfg → List Nat → M Mgr Nat} {V1 V2 : List Bool → Bool} (hR : Reachable cfg .ordered a) (hh : ∀ p ∈ ps, a.Holds p)
    (hd : DenotesAll cfg a.mgr ps Fs)
    (h1 : ∀ Gs : List BFun, Gs.length = Fs.length → DetE OrMode (fun c l => Reps c l Gs) m1 (fun r c => Rep c r (fun x => V1 (vals Gs x))))
    (h2 : ∀ Gs : List BFun, Gs.length = Fs.length → DetE OrMode (fun c l => Reps c l Gs) m2 (fun r c => Rep c r (fun x => V2 (vals Gs x)))) :
    Returns (both (m1 cfg ps) (m2 cfg ps) a.mgr) (fun rq _ => rq.1 = rq.2 ↔
      ∀ x, Covers a.mgr x → V1 (Fs.map (fun F => F x)) = V2 (Fs.map (fun F => F x))) := by
  obtain ⟨Gs, g1, g2, g3⟩ := denotesAll_reps hR.good (fun p hp => hR.good.any (hh p hp)) hd
  obtain ⟨N1, h1⟩ := h1 Gs g2
  obtain ⟨N2, h2⟩ := h2 Gs g2
  have ho : Use.ordered.md.ordered := Use.ordered_iff.2 rfl
  have hP : OrMode Use.ordered.md := Use.orMode (Or.inl rfl)
  have : Spec cfg Use.ordered.md a.count (both (m1 cfg ps) (m2 cfg ps)) a.mgr (fun rq _ => rq.1 = rq.2 ↔
      ∀ x, Covers a.mgr x → V1 (Fs.map (fun F => F x)) = V2 (Fs.map (fun F => F x))) := by
    unfold both
    refine Spec.bind (h1 cfg _ a.count a.mgr ps hP hR.good g1) ?_
    rintro r s1 x1 i1 ⟨⟨t, ht, et⟩, _⟩
    refine Spec.bind (h2 cfg _ a.count s1 ps hP i1 (Reps.pers _ _ _ x1.cells g1)) ?_
    rintro q s2 x2 i2 ⟨⟨t', ht', et'⟩, _⟩
    refine Spec.pure i2 ?_
    have ht2 := ht.ext x2.cells
    have hn : s2.nvars = a.mgr.nvars := x2.nvars.trans x1.nvars
    constructor
    · intro hrq x hx
      have hrq : r = q := hrq
      subst hrq
      have := ht2.fn ht'
      subst this
      rw [← g3 x hx]
      exact (et _).symm.trans (et' _)
    · intro h
      have key : ∀ x, t'.eval x = t.eval x := by
        intro x
        have e1 := eval_toList i2 ht' x
        have e2 := eval_toList i2 ht2 x
        have hc : Covers a.mgr (toList s2.nvars x) := by unfold Covers; rw [toList_length, hn]; exact Nat.le_refl _
        have := h _ hc
        rw [← g3 _ hc] at this
        rw [← e1, ← e2]
        exact (et' _).trans (this.symm.trans (et _).symm)
      have := Tree.eq_of_eval (i2.ord ho _ _ ht') (i2.ord ho _ _ ht2) (i2.reduced ht') (i2.reduced ht2) key
      subst this
      exact i2.repr_inj ht2 ht'
  exact this.returns fun _ _ _ _ h => h

/-- C87: in histories that respect the variable order, building two formulas gives the same handle exactly when their functions agree. -/
theorem C87_same_handle (hR : Reachable cfg .ordered a) (hh : ∀ p ∈ ps, a.Holds p) (hd : DenotesAll cfg a.mgr ps Fs)
    (hφ : φ.Wf ps.length) (hψ : ψ.Wf ps.length) :
    Returns (both (φ.build cfg ps) (ψ.build cfg ps) a.mgr) (fun rq _ => rq.1 = rq.2 ↔
      ∀ x, Covers a.mgr x → φ.value (Fs.map (fun F => F x)) = ψ.value (Fs.map (fun F => F x))) :=
  both_of_det (m1 := fun cfg l => φ.build cfg l) (m2 := fun cfg l => ψ.build cfg l) (V1 := fun v => φ.value v) (V2 := fun v => ψ.value v) hR hh hd
    (fun Gs hg => φ.det Gs (by rw [hg, ← hd.length]; exact hφ)) (fun Gs hg => ψ.det Gs (by rw [hg, ← hd.length]; exact hψ))

/-- C87: logically equivalent formulas over any held BDDs give the same handle. Every law of propositional logic is an instance. -/
theorem C87_laws (hR : Reachable cfg .ordered a) (hh : ∀ p ∈ ps, a.Holds p) (hφ : φ.Wf ps.length) (hψ : ψ.Wf ps.length)
    (he : φ.Equiv ps.length ψ) : Returns (both (φ.build cfg ps) (ψ.build cfg ps) a.mgr) (fun rq _ => rq.1 = rq.2) := by
  obtain ⟨Fs, hd, hl⟩ := holds_denotesAll hR hh
  exact (C87_same_handle hR hh hd hφ hψ).mono fun rq _ h => h.2 fun x _ => he _ (by simp [hl])

/-- An assignment that gives the variables `vs` the values `v`. -/
theorem assign_exists (n : Nat) : ∀ (vs : List Nat) (v : List Bool), vs.Nodup → v.length = vs.length → (∀ w ∈ vs, w < n) →
    ∃ x : List Bool, x.length = n ∧ vs.map (fun w => x.getD w false) = v
  | [], [], _, _, _ => ⟨List.replicate n false, by simp, rfl⟩
  | w :: vs, b :: v, hn, hl, hv => by
    obtain ⟨x, h1, h2⟩ := assign_exists n vs v (List.nodup_cons.1 hn).2 (by simpa using hl) (fun y hy => hv y (by simp [hy]))
    refine ⟨x.set w b, by simp [h1], ?_⟩
    have hw : w < x.length := by rw [h1]; exact hv w (by simp)
    simp only [List.map_cons, List.cons.injEq]
    constructor
    · simp [hw]
    · rw [← h2]
      refine List.map_congr_left fun y hy => ?_
      have : w ≠ y := fun e => (List.nodup_cons.1 hn).1 (e ▸ hy)
      simp [List.getD, this]
  | [], _ :: _, _, h, _ => by simp at h
  | _ :: _, [], _, h, _ => by simp at h

/-- C87: comparing handles decides logical equivalence: when the atoms are (held projections of) different variables, two formulas get the same handle exactly when
they are logically equivalent. -/
theorem C87_decides (hR : Reachable cfg .ordered a) (hh : ∀ p ∈ ps, a.Holds p)
    (hd : DenotesAll cfg a.mgr ps (vs.map fun w x => x.getD w false)) (hn : vs.Nodup) (hv : ∀ w ∈ vs, w < a.mgr.nvars)
    (hφ : φ.Wf ps.length) (hψ : ψ.Wf ps.length) :
    Returns (both (φ.build cfg ps) (ψ.build cfg ps) a.mgr) (fun rq _ => rq.1 = rq.2 ↔ φ.Equiv ps.length ψ) := by
  refine (C87_same_handle hR hh hd hφ hψ).mono fun rq _ h => h.trans ?_
  have hl : ps.length = vs.length := by simpa using hd.length
  constructor
  · intro h v hvl
    obtain ⟨x, h1, h2⟩ := assign_exists a.mgr.nvars vs v hn (hvl.trans hl) hv
    have := h x (by unfold Covers; rw [h1]; exact Nat.le_refl _)
    simp only [List.map_map, Function.comp_def] at this
    rwa [h2] at this
  · intro h x _
    exact h _ (by simp [hl])

theorem Returns.first {m : M Mgr Nat} {c : Nat} {s : Mgr} {P : Nat × Nat → Mgr → Prop} (h : Returns (both m (pure c) s) P) :
    Returns (m s) (fun r s' => P (r, c) s') := by
  cases e : m s with
  | ok r s' =>
    have b : both m (pure c) s = .ok (r, c) s' := by unfold both; rw [M.bind_ok e]; rfl
    rw [b] at h; exact h
  | _ =>
    have b := h
    simp only [both, Bind.bind, M.bind, e] at b
    exact b

theorem Returns.and {α : Type} {o : Res Mgr α} {P Q : α → Mgr → Prop} (h1 : Returns o P) (h2 : Returns o Q) : Returns o (fun r s => P r s ∧ Q r s) := by
  cases o with
  | ok r s => exact ⟨h1, h2⟩
  | _ => exact h1

/-- C87: a formula over different variables is valid exactly when it gets the top sink, and satisfiable exactly when it does not get the bottom sink. -/
theorem C87_valid_sat (hR : Reachable cfg .ordered a) (hh : ∀ p ∈ ps, a.Holds p)
    (hd : DenotesAll cfg a.mgr ps (vs.map fun w x => x.getD w false)) (hn : vs.Nodup) (hv : ∀ w ∈ vs, w < a.mgr.nvars) (hφ : φ.Wf ps.length) :
    Returns (φ.build cfg ps a.mgr) (fun r _ => (r = topId ↔ φ.Valid ps.length) ∧ (r ≠ botId ↔ φ.Sat ps.length)) := by
  have h1 := C87_decides (ψ := .tt) hR hh hd hn hv hφ (by simp [Formula.Wf])
  have h2 := C87_decides (ψ := .ff) hR hh hd hn hv hφ (by simp [Formula.Wf])
  simp only [Formula.build] at h1 h2
  have tt : φ.Equiv ps.length .tt ↔ φ.Valid ps.length := by simp [Formula.Equiv, Formula.Valid, Formula.value]
  have ff : ¬ φ.Equiv ps.length .ff ↔ φ.Sat ps.length := by simp [Formula.Equiv, Formula.Sat, Formula.value]
  rw [tt] at h1
  exact (h1.first.and h2.first).mono fun r _ h => ⟨h.1, by rw [← ff]; exact not_congr h.2⟩
end

/-! ## The hypotheses are met -/

/-- A state with the projections x0, x1, x2. -/
def threeVars (nd : Bool) : Api := stateAfter (envOf nd) .ordered [.call (.projection 0) [], .call (.projection 1) [], .call (.projection 2) []]

theorem threeVars_hs (nd : Bool) : (threeVars nd).hs = [some 2, some 3, some 4] := by cases nd <;> decide +kernel
theorem threeVars_nvars (nd : Bool) : (threeVars nd).mgr.nvars = 3 := by cases nd <;> decide +kernel
theorem threeVars_eval (nd b0 b1 b2 : Bool) : (evalsB (envOf nd) (threeVars nd).mgr 2 [b0, b1, b2] b0 && evalsB (envOf nd) (threeVars nd).mgr 3 [b0, b1, b2] b1 &&
    evalsB (envOf nd) (threeVars nd).mgr 4 [b0, b1, b2] b2) = true := by revert nd b0 b1 b2; decide +kernel

theorem threeVars_projection (nd : Bool) (w : Nat) (hw : w < 3) : Denotes (envOf nd) (threeVars nd).mgr (w + 2) (fun x => x.getD w false) := by
  have hR : Reachable (envOf nd) .ordered (threeVars nd) := stateAfter_reachable _ _ _
  have hp : (threeVars nd).Holds (w + 2) := by
    unfold Api.Holds; rw [threeVars_hs]
    match w, hw with
    | 0, _ => decide
    | 1, _ => decide
    | 2, _ => decide
  intro x hx
  unfold EvalsTo
  rw [evaluate_take hR hp hx]
  unfold Covers at hx
  rw [threeVars_nvars] at hx ⊢
  match x, hx with
  | b0 :: b1 :: b2 :: _, _ =>
    simp only [List.take_succ_cons, List.take_zero]
    have h := threeVars_eval nd b0 b1 b2
    simp only [Bool.and_eq_true] at h
    match w, hw with
    | 0, _ => exact evalsB_sound h.1.1
    | 1, _ => exact evalsB_sound h.1.2
    | 2, _ => exact evalsB_sound h.2

/-- "exactly two of x0, x1, x2", with `cardinality` -/
def twoOf : Formula := .range (.exactly 2) [.held 0, .held 1, .held 2]
/-- the same by cases -/
def twoOf' : Formula := .or (.and (.held 0) (.range .one [.held 1, .held 2])) (.and (.not (.held 0)) (.and (.held 1) (.held 2)))
/-- "at least two" -/
def majority : Formula := .range .any [.and (.held 0) (.held 1), .and (.held 0) (.held 2), .and (.held 1) (.held 2)]

/-- C87: the hypotheses are met by the projections x0, x1, x2 of the state `threeVars` and the three formulas, the formulas are built without an exception, and the library
finds that the first two are equivalent and the last two are not. -/
theorem C87_concrete : ∀ nd : Bool, Reachable (envOf nd) .ordered (threeVars nd) ∧ (∀ p ∈ [2, 3, 4], (threeVars nd).Holds p) ∧
    DenotesAll (envOf nd) (threeVars nd).mgr [2, 3, 4] ([0, 1, 2].map fun w x => x.getD w false) ∧ [0, 1, 2].Nodup ∧
    (∀ w ∈ [0, 1, 2], w < (threeVars nd).mgr.nvars) ∧ twoOf.Wf 3 ∧ twoOf'.Wf 3 ∧ majority.Wf 3 ∧ twoOf.Equiv 3 twoOf' ∧ ¬ twoOf'.Equiv 3 majority ∧
    okB (both (twoOf.build (envOf nd) [2, 3, 4]) (twoOf'.build (envOf nd) [2, 3, 4]) (threeVars nd).mgr) = true ∧
    okB (both (twoOf'.build (envOf nd) [2, 3, 4]) (majority.build (envOf nd) [2, 3, 4]) (threeVars nd).mgr) = true := by
  intro nd
  refine ⟨stateAfter_reachable _ _ _, ?_, ⟨threeVars_projection nd 0 (by decide), threeVars_projection nd 1 (by decide), threeVars_projection nd 2 (by decide), trivial⟩, by decide, ?_, ?_, ?_, ?_, ?_,
    ?_, by cases nd <;> decide +kernel, by cases nd <;> decide +kernel⟩
  · unfold Api.Holds; rw [threeVars_hs]; decide
  · rw [threeVars_nvars]; decide
  · simp [twoOf, Formula.Wf, Formula.Wfs, Range.Ok]
  · simp [twoOf', Formula.Wf, Formula.Wfs, Range.Ok]
  · simp [majority, Formula.Wf, Formula.Wfs, Range.Ok]
  · intro v hv
    match v, hv with
    | [b0, b1, b2], _ => cases b0 <;> cases b1 <;> cases b2 <;> decide +kernel
  · intro h
    have := h [true, true, true] rfl
    revert this
    decide +kernel

end LBDD
