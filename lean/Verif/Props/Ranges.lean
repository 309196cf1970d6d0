import Verif.Props.Canon
import Verif.Proof.Mixed
/-!
# Ranges and cardinality constraints (C15–C21)

`ps` is the range of handles passed in, `Fs` the functions they denote.
-/
namespace LBDD
section
variable {cfg : Cfg} {u : Use} {a : Api} {ps : List Nat} {Fs : List (List Bool → Bool)}

/-- Held handles denote functions, so the hypothesis `DenotesAll` of the theorems below can always be met. -/
theorem holds_denotesAll (hR : Reachable cfg u a) : ∀ {ps : List Nat}, (∀ p ∈ ps, a.Holds p) →
    ∃ Fs : List (List Bool → Bool), DenotesAll cfg a.mgr ps Fs ∧ Fs.length = ps.length
  | [], _ => ⟨[], trivial, rfl⟩
  | p :: ps, h => by
    obtain ⟨F, hF⟩ := holds_denotes hR (h p (by simp))
    obtain ⟨Fs, h1, h2⟩ := holds_denotesAll hR (ps := ps) (fun q hq => h q (by simp [hq]))
    exact ⟨F :: Fs, ⟨hF, h1⟩, by simp [h2]⟩

theorem DenotesAll.length : ∀ {ps : List Nat} {Fs : List (List Bool → Bool)}, DenotesAll cfg a.mgr ps Fs → ps.length = Fs.length
  | [], [], _ => rfl
  | _ :: _, _ :: _, h => by simp [DenotesAll.length h.2]
  | [], _ :: _, h => h.elim
  | _ :: _, [], h => h.elim

/-! ## C15 -/

/-- C15: `and_rec(begin, end)` is the conjunction of all elements. -/
theorem C15_and_range (hR : Reachable cfg u a) (hh : ∀ p ∈ ps, a.Holds p) (hd : DenotesAll cfg a.mgr ps Fs) (h2 : 2 ≤ ps.length) :
    Returns (andRange cfg ps a.mgr) (fun r s' => Denotes cfg s' r (fun x => Fs.all (fun F => F x))) := by
  have h := detE_returns (fun _ => True) hR trivial hh hd (fun l => l.all id)
    (fun Gs hg => andRange_det _ Gs (by rw [hg, ← hd.length]; exact h2))
  exact h.mono fun r s' hr => hr.congr fun x _ => by simp [List.all_map, Function.comp_def]

/-- C15: `or_rec(begin, end)` is the disjunction of all elements, in histories without `xor_rec` (`C02_refuted` shows that this is needed). -/
theorem C15_or_range_partial (hR : Reachable cfg u a) (hu : u = .ordered ∨ u = .unordered) (hh : ∀ p ∈ ps, a.Holds p)
    (hd : DenotesAll cfg a.mgr ps Fs) (h2 : 2 ≤ ps.length) :
    Returns (orRange cfg ps a.mgr) (fun r s' => Denotes cfg s' r (fun x => Fs.any (fun F => F x))) := by
  have h := detE_returns OrMode hR (Use.orMode hu) hh hd (fun l => l.any id)
    (fun Gs hg => orRange_det Gs (by rw [hg, ← hd.length]; exact h2))
  exact h.mono fun r s' hr => hr.congr fun x _ => by simp [List.any_map, Function.comp_def]

theorem evAts_of (hi : Inv cfg u.md a.count a.mgr) (hR : Reachable cfg u a) {x : List Bool} (hx : Covers a.mgr x) : ∀ {ps : List Nat} {Fs : List (List Bool → Bool)},
    (∀ p ∈ ps, a.Holds p) → DenotesAll cfg a.mgr ps Fs → EvAts (asg x) a.mgr.cells ps (Fs.map (fun F => F x))
  | [], [], _, _ => trivial
  | p :: ps, F :: Fs, hh, hd => by
    obtain ⟨t, ht⟩ := hR.good.any (hh p (by simp))
    exact ⟨⟨t, ht, ((hd.1.eq (denotes_repr hi ht) hx)).symm⟩, evAts_of hi hR hx (fun q hq => hh q (by simp [hq])) hd.2⟩
  | [], _ :: _, _, h => h.elim
  | _ :: _, [], _, h => h.elim

theorem returns_at {m : M Mgr Nat} {V : List Bool → Bool} {D : List Bool → Prop} (hR : Reachable cfg u a)
    (h : ∀ x, Covers a.mgr x → D x → Spec cfg u.md a.count m a.mgr (fun r s' => EvAt (asg x) s'.cells r (V x)))
    (h0 : Spec cfg u.md a.count m a.mgr (fun _ _ => True)) :
    Returns (m a.mgr) (fun r s' => ∀ x, Covers s' x → D x → EvalsTo cfg s' r x (V x)) := by
  have key : Spec cfg u.md a.count m a.mgr (fun r s' => ∀ x, Covers a.mgr x → D x → EvAt (asg x) s'.cells r (V x)) := by
    unfold Spec M.Sat at h h0 ⊢
    cases e : m a.mgr with
    | ok r s' =>
      rw [e] at h0
      refine ⟨h0.1, h0.2.1, fun x hx hD => ?_⟩
      have := h x hx hD
      rw [e] at this
      exact this.2.2
    | throw s' => rw [e] at h0; exact h0
    | assertFail => rw [e] at h0; exact h0
    | ub => rw [e] at h0; exact h0
    | hang => rw [e] at h0; exact h0
  refine key.returns ?_
  intro r s' hx hi' hq x hc hD
  obtain ⟨t, ht, et⟩ := hq x (hc.anti (by rw [hx.nvars]; exact Nat.le_refl _)) hD
  rw [← et]
  exact evals_repr hi' ht hc

/-- C15 in every history, mixed or not: `or_rec(begin, end)` is right at every assignment that makes at most one element true. -/
theorem C15_or_range_mixed_partial (hR : Reachable cfg u a) (hh : ∀ p ∈ ps, a.Holds p) (hd : DenotesAll cfg a.mgr ps Fs) (h2 : 2 ≤ ps.length) :
    Returns (orRange cfg ps a.mgr) (fun r s' => ∀ x, Covers s' x → countTrue Fs x ≤ 1 → EvalsTo cfg s' r x (Fs.any (fun F => F x))) := by
  have hR := hR.mixed
  refine returns_at hR (fun x hx hD => ?_) ((rangeRec_any (orOp_any semIte_mixed.toSemOr) _ ps a.mgr h2 (Nat.le_succ _) hR.good
    (fun p hp => hR.good.any (hh p hp))).mono fun _ _ _ _ _ => trivial)
  have := rangeRec_at (orOp_at (y := asg x) semIte_mixed) (ps.length + 1) ps _ a.mgr h2 (Nat.le_succ _) hR.good (evAts_of hR.good hR hx hh hd) (by rw [cnt_map]; exact hD)
  rw [show (Fs.map (fun F => F x)).any id = Fs.any (fun F => F x) by simp [List.any_map, Function.comp_def]] at this
  exact this

/-- C15 in every history, mixed or not: `xor_rec(begin, end)` is right at every assignment that makes at most one element true. -/
theorem C15_xor_range_mixed_partial (hR : Reachable cfg u a) (hh : ∀ p ∈ ps, a.Holds p) (hd : DenotesAll cfg a.mgr ps Fs) (h2 : 2 ≤ ps.length) :
    Returns (xorRange cfg ps a.mgr) (fun r s' => ∀ x, Covers s' x → countTrue Fs x ≤ 1 → EvalsTo cfg s' r x (decide (countTrue Fs x % 2 = 1))) := by
  have hR := hR.mixed
  refine returns_at hR (fun x hx hD => ?_) ((rangeRec_any (xorOp_any semXor_mixed id) _ ps a.mgr h2 (Nat.le_succ _) hR.good
    (fun p hp => hR.good.any (hh p hp))).mono fun _ _ _ _ _ => trivial)
  have := rangeRec_at (xorOp_at (y := asg x) semIte_mixed semXor_mixed id) (ps.length + 1) ps _ a.mgr h2 (Nat.le_succ _) hR.good (evAts_of hR.good hR hx hh hd)
    (by rw [cnt_map]; exact hD)
  rw [any_id_iff, cnt_map] at this
  rw [show decide (countTrue Fs x % 2 = 1) = decide (1 ≤ countTrue Fs x) by rw [decide_eq_decide]; omega]
  exact this

theorem parity_count : ∀ l : List Bool, l.foldr (· ^^ ·) false = decide (cnt l % 2 = 1)
  | [] => rfl
  | b :: l => by
    rw [List.foldr_cons, parity_count l, cnt_cons]
    cases b
    · simp
    · rcases Nat.mod_two_eq_zero_or_one (cnt l) with h | h
      · simp [h, show (1 + cnt l) % 2 = 1 by omega]
      · simp [h, show (1 + cnt l) % 2 = 0 by omega]

/-- C15: `xor_rec(begin, end)` is the parity of the elements, in histories with neither `or_rec` nor `ite_rec` (`C04_refuted`). -/
theorem C15_xor_range_partial (hR : Reachable cfg .parity a) (hh : ∀ p ∈ ps, a.Holds p)
    (hd : DenotesAll cfg a.mgr ps Fs) (h2 : 2 ≤ ps.length) :
    Returns (xorRange cfg ps a.mgr) (fun r s' => Denotes cfg s' r (fun x => decide (countTrue Fs x % 2 = 1))) := by
  have h := detE_returns XorMode hR Use.xorMode hh hd (fun l => l.foldr (· ^^ ·) false)
    (fun Gs hg => xorRange_det Gs (by rw [hg, ← hd.length]; exact h2))
  refine h.mono fun r s' hr => hr.congr fun x _ => ?_
  show List.foldr _ _ _ = _
  rw [parity_count, cnt_map]

/-- C15: the variadic `and_rec(p1, p2, ...)`. -/
theorem C15_and_variadic (hR : Reachable cfg u a) (hh : ∀ p ∈ ps, a.Holds p) (hd : DenotesAll cfg a.mgr ps Fs) (h2 : 2 ≤ ps.length) :
    Returns (variadic (andOp cfg) ps a.mgr) (fun r s' => Denotes cfg s' r (fun x => Fs.all (fun F => F x))) := by
  have h := detE_returns (m := fun cfg l => variadic (andOp cfg) l) (fun _ => True) hR trivial hh hd (fun l => l.all id)
    (fun Gs hg => variadic_det (listOp_and _) Gs (by rw [hg, ← hd.length]; exact h2))
  exact h.mono fun r s' hr => hr.congr fun x _ => by simp [List.all_map, Function.comp_def]

/-- C15: the variadic `or_rec(p1, p2, ...)`. -/
theorem C15_or_variadic_partial (hR : Reachable cfg u a) (hu : u = .ordered ∨ u = .unordered) (hh : ∀ p ∈ ps, a.Holds p)
    (hd : DenotesAll cfg a.mgr ps Fs) (h2 : 2 ≤ ps.length) :
    Returns (variadic (orOp cfg) ps a.mgr) (fun r s' => Denotes cfg s' r (fun x => Fs.any (fun F => F x))) := by
  have h := detE_returns (m := fun cfg l => variadic (orOp cfg) l) OrMode hR (Use.orMode hu) hh hd (fun l => l.any id)
    (fun Gs hg => variadic_det listOp_or Gs (by rw [hg, ← hd.length]; exact h2))
  exact h.mono fun r s' hr => hr.congr fun x _ => by simp [List.any_map, Function.comp_def]

/-- C15: the variadic `xor_rec(p1, p2, ...)`. -/
theorem C15_xor_variadic_partial (hR : Reachable cfg .parity a) (hh : ∀ p ∈ ps, a.Holds p)
    (hd : DenotesAll cfg a.mgr ps Fs) (h2 : 2 ≤ ps.length) :
    Returns (variadic (xorOp cfg) ps a.mgr) (fun r s' => Denotes cfg s' r (fun x => decide (countTrue Fs x % 2 = 1))) := by
  have h := detE_returns (m := fun cfg l => variadic (xorOp cfg) l) XorMode hR Use.xorMode hh hd (fun l => l.foldr (· ^^ ·) false)
    (fun Gs hg => variadic_det listOp_xor Gs (by rw [hg, ← hd.length]; exact h2))
  refine h.mono fun r s' hr => hr.congr fun x _ => ?_
  show List.foldr _ _ _ = _
  rw [parity_count, cnt_map]

/-! ## C16 -/

theorem all_not_count (l : List Bool) : l.all (! ·) = decide (cnt l = 0) := by
  induction l with
  | nil => rfl
  | cons b l ih => rw [List.all_cons, ih, cnt_cons]; cases b <;> simp

/-- C16: `all_false` over a non-empty range is true exactly when no element is true. -/
theorem C16_all_false (hR : Reachable cfg u a) (hh : ∀ p ∈ ps, a.Holds p) (hd : DenotesAll cfg a.mgr ps Fs) (h1 : 1 ≤ ps.length) :
    Returns (allFalse cfg ps a.mgr) (fun r s' => Denotes cfg s' r (fun x => decide (countTrue Fs x = 0))) := by
  have h := detE_returns (fun _ => True) hR trivial hh hd (fun l => l.all (! ·))
    (fun Gs hg => allFalse_det _ Gs (by rw [hg, ← hd.length]; exact h1))
  refine h.mono fun r s' hr => hr.congr fun x _ => ?_
  show List.all _ _ = _
  rw [all_not_count, cnt_map]

/-- C16: `at_least_one` over a non-empty range is true exactly when some element is true. -/
theorem C16_at_least_one (hR : Reachable cfg u a) (hh : ∀ p ∈ ps, a.Holds p) (hd : DenotesAll cfg a.mgr ps Fs) (h1 : 1 ≤ ps.length) :
    Returns (atLeastOne cfg ps a.mgr) (fun r s' => Denotes cfg s' r (fun x => decide (1 ≤ countTrue Fs x))) := by
  have h := detE_returns (fun _ => True) hR trivial hh hd (fun l => decide (1 ≤ cnt l))
    (fun Gs hg => atLeastOne_det _ Gs (by rw [hg, ← hd.length]; exact h1))
  refine h.mono fun r s' hr => hr.congr fun x _ => ?_
  show decide _ = _
  rw [cnt_map]

/-! ## C17 -/

/-- C17: `simplex` over a non-empty range is true exactly when exactly one element is true (histories without `xor_rec`). -/
theorem C17_simplex_partial (hR : Reachable cfg u a) (hu : u = .ordered ∨ u = .unordered) (hh : ∀ p ∈ ps, a.Holds p)
    (hd : DenotesAll cfg a.mgr ps Fs) (h1 : 1 ≤ ps.length) :
    Returns (simplex cfg ps a.mgr) (fun r s' => Denotes cfg s' r (fun x => decide (countTrue Fs x = 1))) := by
  have h := detE_returns OrMode hR (Use.orMode hu) hh hd (fun l => decide (cnt l = 1))
    (fun Gs hg => simplex_det Gs (by rw [hg, ← hd.length]; exact h1))
  refine h.mono fun r s' hr => hr.congr fun x _ => ?_
  show decide _ = _
  rw [cnt_map]

/-- C17: `at_most_one` over a non-empty range is true exactly when at most one element is true (histories without `xor_rec`). -/
theorem C17_at_most_one_partial (hR : Reachable cfg u a) (hu : u = .ordered ∨ u = .unordered) (hh : ∀ p ∈ ps, a.Holds p)
    (hd : DenotesAll cfg a.mgr ps Fs) (h1 : 1 ≤ ps.length) :
    Returns (atMostOne cfg ps a.mgr) (fun r s' => Denotes cfg s' r (fun x => decide (countTrue Fs x ≤ 1))) := by
  have h := detE_returns OrMode hR (Use.orMode hu) hh hd (fun l => decide (cnt l ≤ 1))
    (fun Gs hg => atMostOne_det Gs (by rw [hg, ← hd.length]; exact h1))
  refine h.mono fun r s' hr => hr.congr fun x _ => ?_
  show decide _ = _
  rw [cnt_map]

/-! ## C18–C20 -/

/-- C18: `at_least(range, b)` (histories without `xor_rec`). -/
theorem C18_at_least_partial (hR : Reachable cfg u a) (hu : u = .ordered ∨ u = .unordered) (hh : ∀ p ∈ ps, a.Holds p)
    (hd : DenotesAll cfg a.mgr ps Fs) (h1 : 1 ≤ ps.length) (b : Nat) :
    Returns (atLeast cfg ps b a.mgr) (fun r s' => Denotes cfg s' r (fun x => decide (b ≤ countTrue Fs x))) := by
  have h := detE_returns (m := fun cfg l => atLeast cfg l b) OrMode hR (Use.orMode hu) hh hd (fun l => decide (b ≤ cnt l))
    (fun Gs hg => atLeast_det Gs b (by rw [hg, ← hd.length]; exact h1))
  refine h.mono fun r s' hr => hr.congr fun x _ => ?_
  show decide _ = _
  rw [cnt_map]

/-- C19: `at_most(range, b)` for `b` up to the length of the range (histories without `xor_rec`). For larger `b` the result should be
constant true but is constant false, see `C19_large_bound` and `C19_refuted`. -/
theorem C19_at_most_partial (hR : Reachable cfg u a) (hu : u = .ordered ∨ u = .unordered) (hh : ∀ p ∈ ps, a.Holds p)
    (hd : DenotesAll cfg a.mgr ps Fs) (h1 : 1 ≤ ps.length) {b : Nat} (hb : b ≤ ps.length) :
    Returns (atMost cfg ps b a.mgr) (fun r s' => Denotes cfg s' r (fun x => decide (countTrue Fs x ≤ b))) := by
  have h := detE_returns (m := fun cfg l => atMost cfg l b) OrMode hR (Use.orMode hu) hh hd (fun l => decide (b ≤ Fs.length ∧ cnt l ≤ b))
    (fun Gs hg => by rw [← hg]; exact atMost_det Gs b (by rw [hg, ← hd.length]; exact h1))
  refine h.mono fun r s' hr => hr.congr fun x _ => ?_
  show decide _ = _
  rw [cnt_map]
  simp [← hd.length, hb]

/-- What `at_most(range, b)` does for `b` above the length of the range: constant false. -/
theorem C19_large_bound (hR : Reachable cfg u a) (hu : u = .ordered ∨ u = .unordered) (hh : ∀ p ∈ ps, a.Holds p)
    (hd : DenotesAll cfg a.mgr ps Fs) (h1 : 1 ≤ ps.length) {b : Nat} (hb : ps.length < b) :
    Returns (atMost cfg ps b a.mgr) (fun r s' => Denotes cfg s' r (fun _ => false)) := by
  have h := detE_returns (m := fun cfg l => atMost cfg l b) OrMode hR (Use.orMode hu) hh hd (fun l => decide (b ≤ Fs.length ∧ cnt l ≤ b))
    (fun Gs hg => by rw [← hg]; exact atMost_det Gs b (by rw [hg, ← hd.length]; exact h1))
  refine h.mono fun r s' hr => hr.congr fun x _ => ?_
  show decide _ = _
  have := hd.length
  simp; omega

/-- C20: `cardinality(range, b)` is true exactly when exactly `b` elements are true, in every history: its disjunctions are over functions that exclude
each other, so that it is right even where the memo entries of `or_rec` and `xor_rec` are mixed up. -/
theorem C20_cardinality (hR : Reachable cfg u a) (hh : ∀ p ∈ ps, a.Holds p)
    (hd : DenotesAll cfg a.mgr ps Fs) (h1 : 1 ≤ ps.length) (b : Nat) :
    Returns (cardinality cfg ps b a.mgr) (fun r s' => Denotes cfg s' r (fun x => decide (countTrue Fs x = b))) := by
  have h := detE_returns (m := fun cfg l => cardinality cfg l b) SemMode hR.mixed (Use.semIte (u := .mixed) (by simp)) hh hd (fun l => decide (cnt l = b))
    (fun Gs hg => cardinality_disj Gs b (by rw [hg, ← hd.length]; exact h1))
  refine h.mono fun r s' hr => hr.congr fun x _ => ?_
  show decide _ = _
  rw [cnt_map]

/-! ## C21 -/

/-- Run one call after the other and return both results. -/
def both (m1 m2 : M Mgr Nat) : M Mgr (Nat × Nat) := do
  let r ← m1
  let q ← m2
  pure (r, q)

/-- Both calls return and return the same handle. -/
def SameHandle (m1 m2 : M Mgr Nat) (s : Mgr) : Prop := Returns (both m1 m2 s) (fun rq _ => rq.1 = rq.2)

theorem same_of_det {Gs : List BFun} {m1 m2 : Cfg → List Nat → M Mgr Nat} {F : BFun} (hR : Reachable cfg .ordered a) (hps : Reps a.mgr.cells ps Gs)
    (h1 : DetE OrMode (fun c l => Reps c l Gs) m1 (fun r c => Rep c r F))
    (h2 : DetE OrMode (fun c l => Reps c l Gs) m2 (fun r c => Rep c r F)) : SameHandle (m1 cfg ps) (m2 cfg ps) a.mgr := by
  obtain ⟨N1, h1⟩ := h1
  obtain ⟨N2, h2⟩ := h2
  have ho : Use.ordered.md.ordered := Use.ordered_iff.2 rfl
  have hP : OrMode Use.ordered.md := Use.orMode (Or.inl rfl)
  have : Spec cfg Use.ordered.md a.count (both (m1 cfg ps) (m2 cfg ps)) a.mgr (fun rq _ => rq.1 = rq.2) := by
    unfold both
    refine Spec.bind (h1 cfg _ a.count a.mgr ps hP hR.good hps) ?_
    rintro r s1 x1 i1 ⟨⟨t, ht, et⟩, _⟩
    refine Spec.bind (h2 cfg _ a.count s1 ps hP i1 (Reps.pers _ _ _ x1.cells hps)) ?_
    rintro q s2 x2 i2 ⟨⟨t', ht', et'⟩, _⟩
    refine Spec.pure i2 ?_
    have := Tree.eq_of_eval (i2.ord ho _ _ ht') (i2.ord ho _ _ (ht.ext x2.cells)) (i2.reduced ht') (i2.reduced (ht.ext x2.cells))
      (fun x => (et' x).trans (et x).symm)
    subst this
    exact i2.repr_inj (ht.ext x2.cells) ht'
  exact this.returns fun _ _ _ _ h => h

theorem holds_reps (hR : Reachable cfg u a) (hh : ∀ p ∈ ps, a.Holds p) : ∃ Gs : List BFun, Reps a.mgr.cells ps Gs := by
  obtain ⟨Fs, hd, _⟩ := holds_denotesAll hR hh
  obtain ⟨Gs, g1, _⟩ := denotesAll_reps hR.good (fun p hp => hR.good.any (hh p hp)) hd
  exact ⟨Gs, g1⟩

/-- C21: `simplex(r) == cardinality(r, 1)`, in histories that respect the variable order (`C07_refuted` shows that this is needed). -/
theorem C21_simplex_cardinality_partial (hR : Reachable cfg .ordered a) (hh : ∀ p ∈ ps, a.Holds p) (h1 : 1 ≤ ps.length) :
    SameHandle (simplex cfg ps) (cardinality cfg ps 1) a.mgr := by
  obtain ⟨Gs, g1⟩ := holds_reps hR hh
  exact same_of_det hR g1 (simplex_det Gs (g1.length ▸ h1)) (cardinality_det Gs 1 (g1.length ▸ h1))

/-- C21: `at_least_one(r) == at_least(r, 1)`. -/
theorem C21_at_least_one_partial (hR : Reachable cfg .ordered a) (hh : ∀ p ∈ ps, a.Holds p) (h1 : 1 ≤ ps.length) :
    SameHandle (atLeastOne cfg ps) (atLeast cfg ps 1) a.mgr := by
  obtain ⟨Gs, g1⟩ := holds_reps hR hh
  exact same_of_det hR g1 (atLeastOne_det _ Gs (g1.length ▸ h1)) (atLeast_det Gs 1 (g1.length ▸ h1))

/-- C21: `at_most_one(r) == at_most(r, 1)`. -/
theorem C21_at_most_one_partial (hR : Reachable cfg .ordered a) (hh : ∀ p ∈ ps, a.Holds p) (h1 : 1 ≤ ps.length) :
    SameHandle (atMostOne cfg ps) (atMost cfg ps 1) a.mgr := by
  obtain ⟨Gs, g1⟩ := holds_reps hR hh
  refine same_of_det hR g1 (atMostOne_det Gs (g1.length ▸ h1)) ((atMost_det Gs 1 (g1.length ▸ h1)).fn ?_)
  intro x
  have : 1 ≤ Gs.length := g1.length ▸ h1
  simp [this]

/-- C21: `and_rec(range) == and_rec(p1, p2, ...)`, and likewise for disjunctions. -/
theorem C21_range_variadic_partial (hR : Reachable cfg .ordered a) (hh : ∀ p ∈ ps, a.Holds p) (h2 : 2 ≤ ps.length) :
    SameHandle (andRange cfg ps) (variadic (andOp cfg) ps) a.mgr ∧ SameHandle (orRange cfg ps) (variadic (orOp cfg) ps) a.mgr := by
  obtain ⟨Gs, g1⟩ := holds_reps hR hh
  exact ⟨same_of_det hR g1 (andRange_det _ Gs (g1.length ▸ h2)) (variadic_det (listOp_and _) Gs (g1.length ▸ h2)),
    same_of_det hR g1 (orRange_det Gs (g1.length ▸ h2)) (variadic_det listOp_or Gs (g1.length ▸ h2))⟩
end

/-! ### algebraic laws as handle equalities -/

section
variable {cfg : Cfg} {a : Api} {f g h : Nat}

/-- nested calls -/
def nest1 (m : M Mgr Nat) (k : Nat → M Mgr Nat) : M Mgr Nat := do
  let r ← m
  k r

theorem det_nth (P : Md → Prop) {Gs : List BFun} (i : Nat) (hi : i < Gs.length) :
    DetE P (fun c l => Reps c l Gs) (fun _ (l : List Nat) => pure (l.getD i 0)) (fun r c => Rep c r Gs[i]) := by
  refine DetE.pure ?_
  intro c l hl
  induction Gs generalizing i l with
  | nil => simp at hi
  | cons G Gs ih =>
    cases l with
    | nil => exact hl.elim
    | cons p l =>
      cases i with
      | zero => exact hl.1
      | succ i => simpa using ih i (by simpa using hi) l hl.2

/-- An operation applied to two nested computations. -/
def app2 (op : Nat → Nat → M Mgr Nat) (m1 m2 : M Mgr Nat) : M Mgr Nat := do
  let r ← m1
  let q ← m2
  op r q

theorem DetE.app2 {P : Md → Prop} {ι : Type} {H : (Nat → Cell) → ι → Prop} (hH : Pers H) {op : Cfg → Nat → Nat → M Mgr Nat} {G : Bool → Bool → Bool}
    (hop : ∀ F1 F2 : BFun, DetE P (Rep2 F1 F2) (fun cfg p => op cfg p.1 p.2) (fun r c => Rep c r (fun x => G (F1 x) (F2 x))))
    {m1 m2 : Cfg → ι → M Mgr Nat} {F1 F2 : BFun} (h1 : DetE P H m1 (fun r c => Rep c r F1)) (h2 : DetE P H m2 (fun r c => Rep c r F2)) :
    DetE P H (fun cfg i => LBDD.app2 (op cfg) (m1 cfg i) (m2 cfg i)) (fun r c => Rep c r (fun x => G (F1 x) (F2 x))) := by
  unfold LBDD.app2
  refine DetE.bind (k := fun cfg r i => m2 cfg i >>= fun q => op cfg r q) hH h1 ?_
  refine DetE.bind (ι := Nat × ι) (m := fun cfg p => m2 cfg p.2) (k := fun cfg q p => op cfg p.1 q) (Q := fun r c => Rep c r F2) ?_ ?_ ?_
  · intro c c' i hx hh; exact ⟨hh.1.ext hx, hH _ _ _ hx hh.2⟩
  · exact h2.map (H' := fun c (p : Nat × ι) => Rep c p.1 F1 ∧ H c p.2) (fun p => p.2) (fun _ _ hh => hh.2) (fun _ _ q => q)
  · exact (hop F1 F2).map (H' := fun c (p : Nat × Nat × ι) => Rep c p.1 F2 ∧ Rep c p.2.1 F1 ∧ H c p.2.2) (fun p => (p.2.1, p.1)) (fun _ _ hh => ⟨hh.2.1, hh.1⟩) (fun _ _ q => q)

theorem DetE.app1 {P : Md → Prop} {ι : Type} {H : (Nat → Cell) → ι → Prop} (hH : Pers H)
    {m : Cfg → ι → M Mgr Nat} {F : BFun} (h1 : DetE P H m (fun r c => Rep c r F)) :
    DetE P H (fun cfg i => LBDD.nest1 (m cfg i) (negateOp cfg)) (fun r c => Rep c r (fun x => !F x)) := by
  unfold LBDD.nest1
  exact DetE.bind (k := fun cfg r _ => negateOp cfg r) hH h1
    (DetE.neg (H := fun c (p : Nat × ι) => Rep c p.1 F ∧ H c p.2) (F := F) (fun p => p.1) (fun c p hp => hp.1))

/-- C21, in histories that respect the variable order, for all held `f`, `g`, `h`, as equalities of handles: `and`/`or` are commutative,
associative, idempotent, and satisfy De Morgan's laws, absorption and distributivity. -/
theorem C21_laws_partial (hR : Reachable cfg .ordered a) (hf : a.Holds f) (hg : a.Holds g) (hh : a.Holds h) :
    SameHandle (andOp cfg f g) (andOp cfg g f) a.mgr ∧
    SameHandle (orOp cfg f g) (orOp cfg g f) a.mgr ∧
    SameHandle (nest1 (andOp cfg f g) (fun r => andOp cfg r h)) (nest1 (andOp cfg g h) (fun r => andOp cfg f r)) a.mgr ∧
    SameHandle (nest1 (orOp cfg f g) (fun r => orOp cfg r h)) (nest1 (orOp cfg g h) (fun r => orOp cfg f r)) a.mgr ∧
    SameHandle (andOp cfg f f) (pure f) a.mgr ∧
    SameHandle (orOp cfg f f) (pure f) a.mgr ∧
    SameHandle (nest1 (andOp cfg f g) (negateOp cfg)) (app2 (orOp cfg) (negateOp cfg f) (negateOp cfg g)) a.mgr ∧
    SameHandle (nest1 (orOp cfg f g) (negateOp cfg)) (app2 (andOp cfg) (negateOp cfg f) (negateOp cfg g)) a.mgr ∧
    SameHandle (nest1 (orOp cfg f g) (fun r => andOp cfg f r)) (pure f) a.mgr ∧
    SameHandle (nest1 (orOp cfg g h) (fun r => andOp cfg f r)) (app2 (orOp cfg) (andOp cfg f g) (andOp cfg f h)) a.mgr := by
  have hh' : ∀ p ∈ [f, g, h], a.Holds p := by intro p hp; simp at hp; rcases hp with rfl | rfl | rfl <;> assumption
  obtain ⟨Gs, g1⟩ := holds_reps hR hh'
  match Gs, g1 with
  | [F, G, H], g1 =>
    have p0 := det_nth OrMode (Gs := [F, G, H]) 0 (by simp)
    have p1 := det_nth OrMode (Gs := [F, G, H]) 1 (by simp)
    have p2 := det_nth OrMode (Gs := [F, G, H]) 2 (by simp)
    simp only [List.getElem_cons_zero, List.getElem_cons_succ] at p0 p1 p2
    have AND : ∀ {m1 m2 : Cfg → List Nat → M Mgr Nat} {F1 F2 : BFun},
        DetE OrMode (fun c l => Reps c l [F, G, H]) m1 (fun r c => Rep c r F1) → DetE OrMode (fun c l => Reps c l [F, G, H]) m2 (fun r c => Rep c r F2) →
        DetE OrMode (fun c l => Reps c l [F, G, H]) (fun cfg i => app2 (andOp cfg) (m1 cfg i) (m2 cfg i)) (fun r c => Rep c r (fun x => F1 x && F2 x)) :=
      fun h1 h2 => DetE.app2 Reps.pers (det_and OrMode) h1 h2
    have OR : ∀ {m1 m2 : Cfg → List Nat → M Mgr Nat} {F1 F2 : BFun},
        DetE OrMode (fun c l => Reps c l [F, G, H]) m1 (fun r c => Rep c r F1) → DetE OrMode (fun c l => Reps c l [F, G, H]) m2 (fun r c => Rep c r F2) →
        DetE OrMode (fun c l => Reps c l [F, G, H]) (fun cfg i => app2 (orOp cfg) (m1 cfg i) (m2 cfg i)) (fun r c => Rep c r (fun x => F1 x || F2 x)) :=
      fun h1 h2 => DetE.app2 Reps.pers det_or h1 h2
    have NEG : ∀ {m1 : Cfg → List Nat → M Mgr Nat} {F1 : BFun},
        DetE OrMode (fun c l => Reps c l [F, G, H]) m1 (fun r c => Rep c r F1) →
        DetE OrMode (fun c l => Reps c l [F, G, H]) (fun cfg i => nest1 (m1 cfg i) (negateOp cfg)) (fun r c => Rep c r (fun x => !F1 x)) :=
      fun h1 => DetE.app1 Reps.pers h1
    refine ⟨?_, ?_, ?_, ?_, ?_, ?_, ?_, ?_, ?_, ?_⟩
    · exact same_of_det hR g1 (AND p0 p1) ((AND p1 p0).fn fun x => Bool.and_comm _ _)
    · exact same_of_det hR g1 (OR p0 p1) ((OR p1 p0).fn fun x => Bool.or_comm _ _)
    · exact same_of_det hR g1 (AND (AND p0 p1) p2) ((AND p0 (AND p1 p2)).fn fun x => (Bool.and_assoc _ _ _).symm)
    · exact same_of_det hR g1 (OR (OR p0 p1) p2) ((OR p0 (OR p1 p2)).fn fun x => (Bool.or_assoc _ _ _).symm)
    · exact same_of_det hR g1 ((AND p0 p0).fn fun x => Bool.and_self _) p0
    · exact same_of_det hR g1 ((OR p0 p0).fn fun x => Bool.or_self _) p0
    · exact same_of_det hR g1 (NEG (AND p0 p1)) ((OR (NEG p0) (NEG p1)).fn fun x => (Bool.not_and _ _).symm)
    · exact same_of_det hR g1 (NEG (OR p0 p1)) ((AND (NEG p0) (NEG p1)).fn fun x => (Bool.not_or _ _).symm)
    · exact same_of_det hR g1 ((AND p0 (OR p0 p1)).fn (G := F) fun x => by cases F x <;> simp) p0
    · exact same_of_det hR g1 (AND p0 (OR p1 p2)) ((OR (AND p0 p1) (AND p0 p2)).fn fun x => (Bool.and_or_distrib_left _ _ _).symm)
end

/-! ## The hypotheses are met -/

/-- C15–C21: the range x0, x1, x2, ¬(x0∧x1) of the demo state. -/
example : Reachable (envOf false) .ordered (demo .ordered) ∧ (∀ p ∈ [2, 3, 4, 7], (demo .ordered).Holds p) ∧
    (∃ Fs, DenotesAll (envOf false) (demo .ordered).mgr [2, 3, 4, 7] Fs) ∧
    okB (cardinality (envOf false) [2, 3, 4, 7] 2 (demo .ordered).mgr) = true ∧
    okB (atMost (envOf false) [2, 3, 4, 7] 2 (demo .ordered).mgr) = true := by
  have h : ∀ p ∈ [2, 3, 4, 7], (demo .ordered).Holds p := by unfold Api.Holds; rw [demo_hs]; decide
  refine ⟨demo_reachable _, h, ?_, by decide +kernel, by decide +kernel⟩
  obtain ⟨Fs, h1, _⟩ := holds_denotesAll (demo_reachable _) h
  exact ⟨Fs, h1⟩

example : Reachable (envOf false) .parity parityDemo ∧ (∀ p ∈ [2, 3, 5, 6], parityDemo.Holds p) ∧
    okB (xorRange (envOf false) [2, 3, 5, 6] parityDemo.mgr) = true := by
  refine ⟨stateAfter_reachable _ _ _, ?_, by decide +kernel⟩
  unfold Api.Holds; rw [show parityDemo.hs = [some 2, some 3, some 5, some 6] by decide +kernel]; decide

/-! ## Refutation -/

/-- A state with the handle x0. -/
def oneVar (nd : Bool) : Api := stateAfter (envOf nd) .ordered [.call (.projection 0) []]

/-- The full C19 is false: `at_most({x0}, 2)` is false when x0 is false, in debug and release builds. -/
theorem C19_refuted : ∀ nd : Bool, ∃ a p r s', Reachable (envOf nd) .ordered a ∧ a.Holds p ∧
    Denotes (envOf nd) a.mgr p (fun x => x.getD 0 false) ∧
    atMost (envOf nd) [p] 2 a.mgr = .ok r s' ∧ Covers s' [false] ∧ EvalsTo (envOf nd) s' r [false] false := by
  intro nd
  have hR : Reachable (envOf nd) .ordered (oneVar nd) := stateAfter_reachable _ _ _
  have hh : (oneVar nd).Holds 2 := by unfold Api.Holds; cases nd <;> decide +kernel
  refine ⟨oneVar nd, 2, _, _, hR, hh, ?_, resOf_eq (d := 0) (s := (oneVar nd).mgr) ?_, ?_, evalsB_sound ?_⟩
  · intro x hx
    show EvalsTo _ _ _ _ _
    have hn : (oneVar nd).mgr.nvars = 1 := by cases nd <;> decide +kernel
    have e := evaluate_take hR hh hx
    unfold EvalsTo
    rw [e]
    unfold Covers at hx
    rw [hn] at hx ⊢
    cases x with
    | nil => simp at hx
    | cons b x =>
      have h0 : ∀ b, evaluate (envOf nd) (oneVar nd).mgr 2 [b] = .ok b () :=
        fun b => evalsB_sound (by cases nd <;> cases b <;> decide +kernel)
      simpa using h0 b
  · cases nd <;> decide +kernel
  · unfold Covers; cases nd <;> decide +kernel
  · cases nd <;> decide +kernel

end LBDD
