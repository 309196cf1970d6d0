import Verif.Props.Store
import Verif.Proof.MixedCount
import Verif.Spec.StoreMixed
/-! C17–C19 and C81 in every history, including those that combine `xor_rec` with `or_rec`: what the results still guarantee. -/
namespace LBDD
section
variable {cfg : Cfg} {u : Use} {a a' : Api} {s s' : Mgr} {ps : List Nat} {Fs : List BoolFn}

/-- From a statement about each assignment to a statement about the function of the result. -/
theorem returns_vl {m : M Mgr Nat} {P : List Bool → Bool → Prop}
    (h : ∀ x, Covers a.mgr x → Spec cfg u.md a.count m a.mgr (fun r s' => Vl (asg x) s'.cells r (P x))) :
    Returns (m a.mgr) (fun r s' => ∃ R, Denotes cfg s' r R ∧ ∀ x, Covers s' x → P x (R x)) := by
  have key : Spec cfg u.md a.count m a.mgr (fun r s' => ∀ x, Covers a.mgr x → Vl (asg x) s'.cells r (P x)) := by
    have h0 := h (List.replicate a.mgr.nvars false) (by simp [Covers])
    unfold Spec M.Sat at h h0 ⊢
    cases e : m a.mgr with
    | ok r s' =>
      rw [e] at h0
      refine ⟨h0.1, h0.2.1, fun x hx => ?_⟩
      have := h x hx
      rw [e] at this
      exact this.2.2
    | throw s' => rw [e] at h0; exact h0
    | assertFail => rw [e] at h0; exact h0
    | ub => rw [e] at h0; exact h0
    | hang => rw [e] at h0; exact h0
  refine key.returns ?_
  intro r s' hx hi' hq
  obtain ⟨_, ⟨t, ht, _⟩, _⟩ := hq (List.replicate a.mgr.nvars false) (by simp [Covers])
  refine ⟨_, denotes_repr hi' ht, fun x hc => ?_⟩
  obtain ⟨b, ⟨t', ht', e'⟩, hb⟩ := hq x (hc.anti (by rw [hx.nvars]; exact Nat.le_refl _))
  rw [ht.fn ht', e']
  exact hb

/-- C15 in every history: the variadic `or_rec` is right at every assignment that makes at most one argument true. -/
theorem C15_or_variadic_mixed_partial (hR : Reachable cfg u a) (hh : ∀ p ∈ ps, a.Holds p) (hd : DenotesAll cfg a.mgr ps Fs) (h2 : 2 ≤ ps.length) :
    Returns (variadic (orOp cfg) ps a.mgr) (fun r s' => ∀ x, Covers s' x → countTrue Fs x ≤ 1 → EvalsTo cfg s' r x (Fs.any (fun F => F x))) := by
  have hR := hR.mixed
  refine returns_at hR (fun x hx hD => ?_) ((variadic_any (orOp_any semIte_mixed.toSemOr) ps a.mgr h2 hR.good
    (fun p hp => hR.good.any (hh p hp))).mono fun _ _ _ _ _ => trivial)
  have := variadic_at (orOp_at (y := asg x) semIte_mixed) ps _ a.mgr h2 hR.good (evAts_of hR.good hR hx hh hd) (by rw [cnt_map]; exact hD)
  rw [show (Fs.map (fun F => F x)).any id = Fs.any (fun F => F x) by simp [List.any_map, Function.comp_def]] at this
  exact this

/-- C15 in every history: the variadic `xor_rec` is right at every assignment that makes at most one argument true. -/
theorem C15_xor_variadic_mixed_partial (hR : Reachable cfg u a) (hh : ∀ p ∈ ps, a.Holds p) (hd : DenotesAll cfg a.mgr ps Fs) (h2 : 2 ≤ ps.length) :
    Returns (variadic (xorOp cfg) ps a.mgr) (fun r s' => ∀ x, Covers s' x → countTrue Fs x ≤ 1 → EvalsTo cfg s' r x (decide (countTrue Fs x % 2 = 1))) := by
  have hR := hR.mixed
  refine returns_at hR (fun x hx hD => ?_) ((variadic_any (xorOp_any semXor_mixed id) ps a.mgr h2 hR.good
    (fun p hp => hR.good.any (hh p hp))).mono fun _ _ _ _ _ => trivial)
  have := variadic_at (xorOp_at (y := asg x) semIte_mixed semXor_mixed id) ps _ a.mgr h2 hR.good (evAts_of hR.good hR hx hh hd)
    (by rw [cnt_map]; exact hD)
  rw [any_id_iff, cnt_map] at this
  rw [show decide (countTrue Fs x % 2 = 1) = decide (1 ≤ countTrue Fs x) by rw [decide_eq_decide]; omega]
  exact this

/-- C17 in every history: where the result of `at_most_one` is true, at most one element is. -/
theorem C17_at_most_one_mixed_partial (hR : Reachable cfg u a) (hh : ∀ p ∈ ps, a.Holds p) (hd : DenotesAll cfg a.mgr ps Fs) (h1 : 1 ≤ ps.length) :
    Returns (atMostOne cfg ps a.mgr) (fun r s' => ∃ R, Denotes cfg s' r R ∧ ∀ x, Covers s' x → R x = true → countTrue Fs x ≤ 1) := by
  have hR := hR.mixed
  refine returns_vl (u := .mixed) (m := atMostOne cfg ps) (P := fun x r => r = true → countTrue Fs x ≤ 1) fun x hx => ?_
  have := atMostOneRec_vl (cfg := cfg) semIte_mixed (ps.length + 1) ps _ a.mgr h1 (Nat.le_succ _) hR.good (evAts_of hR.good hR hx hh hd)
  rw [cnt_map] at this
  exact this

/-- C17 in every history: where the result of `simplex` is true, exactly one element is. -/
theorem C17_simplex_mixed_partial (hR : Reachable cfg u a) (hh : ∀ p ∈ ps, a.Holds p) (hd : DenotesAll cfg a.mgr ps Fs) (h1 : 1 ≤ ps.length) :
    Returns (simplex cfg ps a.mgr) (fun r s' => ∃ R, Denotes cfg s' r R ∧ ∀ x, Covers s' x → R x = true → countTrue Fs x = 1) := by
  have hR := hR.mixed
  refine returns_vl (u := .mixed) (m := simplex cfg ps) (P := fun x r => r = true → countTrue Fs x = 1) fun x hx => ?_
  have := simplex_vl (cfg := cfg) semIte_mixed h1 hR.good (evAts_of hR.good hR hx hh hd)
  rw [cnt_map] at this
  exact this

/-- C18 in every history: where the result of `at_least(r, b)` is true at least `b` elements are, and it is right wherever at most `b` elements are true. -/
theorem C18_at_least_mixed_partial (hR : Reachable cfg u a) (hh : ∀ p ∈ ps, a.Holds p) (hd : DenotesAll cfg a.mgr ps Fs) (h1 : 1 ≤ ps.length) (b : Nat) :
    Returns (atLeast cfg ps b a.mgr) (fun r s' => ∃ R, Denotes cfg s' r R ∧ ∀ x, Covers s' x →
      (R x = true → b ≤ countTrue Fs x) ∧ (countTrue Fs x ≤ b → R x = decide (b ≤ countTrue Fs x))) := by
  have hR := hR.mixed
  refine returns_vl (u := .mixed) (m := atLeast cfg ps b) (P := fun x r => (r = true → b ≤ countTrue Fs x) ∧ (countTrue Fs x ≤ b → r = decide (b ≤ countTrue Fs x))) fun x hx => ?_
  have := atLeast_vl (cfg := cfg) (b := b) semIte_mixed h1 hR.good (evAts_of hR.good hR hx hh hd)
  rw [cnt_map] at this
  exact this

/-- C19 in every history: where the result of `at_most(r, b)` is true at most `b` elements are, and it is right wherever at least `b` elements are true. -/
theorem C19_at_most_mixed_partial (hR : Reachable cfg u a) (hh : ∀ p ∈ ps, a.Holds p) (hd : DenotesAll cfg a.mgr ps Fs) (h1 : 1 ≤ ps.length) (b : Nat) :
    Returns (atMost cfg ps b a.mgr) (fun r s' => ∃ R, Denotes cfg s' r R ∧ ∀ x, Covers s' x →
      (R x = true → b ≤ Fs.length ∧ countTrue Fs x ≤ b) ∧ (b ≤ countTrue Fs x → R x = decide (countTrue Fs x ≤ b))) := by
  have hR := hR.mixed
  refine returns_vl (u := .mixed) (m := atMost cfg ps b) (P := fun x r => (r = true → b ≤ Fs.length ∧ countTrue Fs x ≤ b) ∧ (b ≤ countTrue Fs x → r = decide (countTrue Fs x ≤ b))) fun x hx => ?_
  have := atMost_vl (cfg := cfg) (b := b) semIte_mixed h1 hR.good (evAts_of hR.good hR hx hh hd)
  rw [cnt_map, List.length_map] at this
  exact this

/-! ### The store -/

/-- A call with one result that does not change the number of variables. -/
theorem some_of {m : M Mgr Nat} [Nvk m] {rs : List Nat} {P : List Bool → Bool → Prop} (e : (m >>= fun r => Pure.pure [r]) s = .ok rs s')
    (h : ∀ r, m s = .ok r s' → ∃ R, Denotes cfg s' r R ∧ ∀ x, Covers s' x → P x (R x)) :
    s'.nvars = s.nvars ∧ ∃ Gs, GivesSome s'.nvars Gs P ∧ DenotesAll cfg s' rs Gs := by
  obtain ⟨r, e1, rfl⟩ := one_of e
  obtain ⟨R, h1, h2⟩ := h r e1
  exact ⟨Nvk.at' (m := m) _ _ _ e1, [R], ⟨R, rfl, h2⟩, h1, trivial⟩

/-- The result of a call denotes a function, and what is known of its values is true of that function. -/
theorem some_at {md : Md} {refs : Nat → Nat} {r : Nat} {D : List Bool → Prop} {V : List Bool → Bool} (hi' : Inv cfg md refs s') (ha : Any s'.cells r)
    (h : ∀ x, Covers s' x → D x → EvalsTo cfg s' r x (V x)) : ∃ R, Denotes cfg s' r R ∧ ∀ x, Covers s' x → D x → R x = V x := by
  obtain ⟨t, ht⟩ := ha
  have d := denotes_repr hi' ht
  refine ⟨_, d, fun x hx hD => ?_⟩
  have h1 := h x hx hD
  have h2 := d x hx
  unfold EvalsTo at h1 h2
  rw [h1] at h2
  injection h2 with h2
  exact h2.symm

theorem mixed_iteRel : IteRel Use.mixed.md (fun a b => a = true → b = true) where
  toSemIte := semIte_mixed
  refl := fun _ h => h
  step := by
    rintro v l h l' h' r hl hh hr he
    rcases hr with hr | ⟨rfl, rfl, rfl, hr⟩
    · subst he
      cases v
      · exact hl (by simpa using hr.symm)
      · exact hh (by simpa using hr.symm)
    · simpa using hh rfl

/-- The value of a call in {disjunction, exclusive disjunction}. -/
theorem or_xor_of {F G : BoolFn} {r : Nat} (h : ∃ R, Denotes cfg s r R ∧ ∀ x, Covers s x → (F x && G x) = false → R x = (F x || G x)) :
    ∃ R, Denotes cfg s r R ∧ ∀ x, Covers s x → R x = (F x || G x) ∨ R x = (F x != G x) := by
  obtain ⟨R, h1, h2⟩ := h
  refine ⟨R, h1, fun x hx => ?_⟩
  cases e1 : F x <;> cases e2 : G x <;> (have := h2 x hx; rw [e1, e2] at this; cases e3 : R x <;> simp_all)

/-- Every successful call, in every history, means at least what `Fn.WeakMeans` says. -/
theorem Fn.run_weak (hR : Reachable cfg u a) (f : Fn) (hh : ∀ p ∈ ps, a.Holds p) (hd : DenotesAll cfg a.mgr ps Fs)
    (hpre : f.Pre cfg u a.mgr ps) {rs : List Nat} (e : f.run cfg ps a.mgr = .ok rs s') :
    ∃ Gs, f.WeakMeans cfg (u = .ordered) a.mgr.nvars Fs s'.nvars Gs ∧ DenotesAll cfg s' rs Gs := by
  have hi := hR.good
  have hiR := Fn.run_lib hi f ps (fun p hp => hi.any (hh p hp)) hpre rs s' e
  have hi' := hiR.2.1
  have hany : Anys s'.cells rs := hiR.2.2
  have any1 : ∀ {m : M Mgr Nat} {r : Nat}, (m >>= fun r => Pure.pure [r]) a.mgr = .ok rs s' → m a.mgr = .ok r s' → Any s'.cells r := by
    intro m r e e1
    obtain ⟨r', e2, rfl⟩ := one_of e
    rw [e1] at e2; cases e2
    exact hany r (by simp)
  cases f with
  | or =>
    obtain ⟨p, q, F, G, rfl, rfl, dF, dG⟩ := shape2 hd (len_of (by intro ps h; match ps, h with | [], _ => rfl | [_], _ => rfl | [_, _], h => exact (h rfl).elim | _ :: _ :: _ :: _, _ => rfl) e)
    obtain ⟨h1, Gs, h2, h3⟩ := some_of (P := fun x r => r = (F x || G x) ∨ r = (F x != G x)) e fun r e1 => or_xor_of (some_at hi' (any1 e e1) ((C02_or_mixed_partial hR (hh p (by simp)) (hh q (by simp)) dF dG).get e1))
    exact ⟨Gs, ⟨F, G, rfl, h1, h2⟩, h3⟩
  | xor =>
    obtain ⟨p, q, F, G, rfl, rfl, dF, dG⟩ := shape2 hd (len_of (by intro ps h; match ps, h with | [], _ => rfl | [_], _ => rfl | [_, _], h => exact (h rfl).elim | _ :: _ :: _ :: _, _ => rfl) e)
    obtain ⟨h1, Gs, h2, h3⟩ := some_of (P := fun x r => r = (F x || G x) ∨ r = (F x != G x)) e fun r e1 => or_xor_of (some_at hi' (any1 e e1) fun x hx hD => by
      have := (C04_xor_mixed_partial hR (hh p (by simp)) (hh q (by simp)) dF dG).get e1 x hx hD
      rwa [show (F x != G x) = (F x || G x) by cases h1 : F x <;> cases h2 : G x <;> simp_all] at this)
    exact ⟨Gs, ⟨F, G, rfl, h1, h2⟩, h3⟩
  | ite =>
    obtain ⟨p, q, r, F, G, H, rfl, rfl, dF, dG, dH⟩ := shape3 hd (len_of (by intro ps h; match ps, h with | [], _ => rfl | [_], _ => rfl | [_, _], _ => rfl | [_, _, _], h => exact (h rfl).elim | _ :: _ :: _ :: _ :: _, _ => rfl) e)
    obtain ⟨h1, Gs, h2, h3⟩ := some_of (P := fun x r => r = (if F x then G x else H x) ∨ (F x = true ∧ G x = true ∧ H x = true ∧ r = false)) e fun r e1 => by
      obtain ⟨R, k1, k2⟩ := some_at hi' (any1 e e1) (C05_ite_mixed_partial hR (hh p (by simp)) (hh q (by simp)) (hh _ (by simp)) dF dG dH e1)
      refine ⟨R, k1, fun x hx => ?_⟩
      have := k2 x hx
      cases e1 : F x <;> cases e2 : G x <;> cases e3 : H x <;> rw [e1, e2, e3] at this <;> simp at this ⊢ <;> simp [this]
    exact ⟨Gs, ⟨F, G, H, rfl, h1, h2⟩, h3⟩
  | orRange =>
    obtain ⟨h1, Gs, h2, h3⟩ := some_of (P := fun x r => countTrue Fs x ≤ 1 → r = Fs.any fun F => F x) e fun r e1 => some_at hi' (any1 e e1) ((C15_or_range_mixed_partial hR hh hd hpre.1).get e1)
    exact ⟨Gs, ⟨h1, h2⟩, h3⟩
  | xorRange =>
    obtain ⟨h1, Gs, h2, h3⟩ := some_of (P := fun x r => countTrue Fs x ≤ 1 → r = decide (countTrue Fs x % 2 = 1)) e fun r e1 => some_at hi' (any1 e e1) ((C15_xor_range_mixed_partial hR hh hd hpre.1).get e1)
    exact ⟨Gs, ⟨h1, h2⟩, h3⟩
  | orAll =>
    obtain ⟨h1, Gs, h2, h3⟩ := some_of (P := fun x r => countTrue Fs x ≤ 1 → r = Fs.any fun F => F x) e fun r e1 => some_at hi' (any1 e e1) ((C15_or_variadic_mixed_partial hR hh hd hpre.1).get e1)
    exact ⟨Gs, ⟨h1, h2⟩, h3⟩
  | xorAll =>
    obtain ⟨h1, Gs, h2, h3⟩ := some_of (P := fun x r => countTrue Fs x ≤ 1 → r = decide (countTrue Fs x % 2 = 1)) e fun r e1 => some_at hi' (any1 e e1) ((C15_xor_variadic_mixed_partial hR hh hd hpre.1).get e1)
    exact ⟨Gs, ⟨h1, h2⟩, h3⟩
  | atMostOne =>
    obtain ⟨h1, Gs, h2, h3⟩ := some_of (P := fun x r => r = true → countTrue Fs x ≤ 1) e fun r e1 => (C17_at_most_one_mixed_partial hR hh hd hpre.1).get e1
    exact ⟨Gs, ⟨h1, h2⟩, h3⟩
  | simplex =>
    obtain ⟨h1, Gs, h2, h3⟩ := some_of (P := fun x r => r = true → countTrue Fs x = 1) e fun r e1 => (C17_simplex_mixed_partial hR hh hd hpre.1).get e1
    exact ⟨Gs, ⟨h1, h2⟩, h3⟩
  | atLeast b =>
    obtain ⟨h1, Gs, h2, h3⟩ := some_of (P := fun x r => (r = true → b ≤ countTrue Fs x) ∧ (countTrue Fs x ≤ b → r = decide (b ≤ countTrue Fs x))) e fun r e1 => (C18_at_least_mixed_partial hR hh hd hpre.1 b).get e1
    exact ⟨Gs, ⟨h1, h2⟩, h3⟩
  | atMost b =>
    obtain ⟨h1, Gs, h2, h3⟩ := some_of (P := fun x r => (r = true → b ≤ Fs.length ∧ countTrue Fs x ≤ b) ∧ (b ≤ countTrue Fs x → r = decide (countTrue Fs x ≤ b))) e fun r e1 => (C19_at_most_mixed_partial hR hh hd hpre.1 b).get e1
    exact ⟨Gs, ⟨h1, h2⟩, h3⟩
  | importBdd c nr =>
    obtain ⟨rfl, rfl⟩ := shape0 hd (len_of (by intro ps h; match ps, h with | [], h => exact (h rfl).elim | _ :: _, _ => rfl) e)
    obtain ⟨hw, hv, hp⟩ := hpre
    obtain ⟨r, e1, rfl⟩ := one_of e
    obtain ⟨hi', d0, d1, t, t', he, ht, hr, heq, n1, n2, n3⟩ := mgrAddBdd_means (u := .mixed) mixed_iteRel hR.mixed.good hw hv e1
    have hwr := hw.entry he
    have dF : CDenotes cfg c nr (fun x => t.eval (asg x)) := fun x hx => cEvaluate_ok he hwr ht (hx.mem he hwr ht)
    exact ⟨[_], ⟨_, rfl, n1, n2, n3, dF, _, rfl, fun x _ => heq (asg x)⟩, denotes_repr hi' hr, trivial⟩
  | _ =>
    refine Fn.run_means _ ?_ hR hh hd hpre e
    exact fun _ => trivial

variable {S : Store}

/-- **C81** in every history: every step of the library is a step of the store, with the weak reading of the functions that share memo entries. -/
theorem C81_any_step_partial (hR : Reachable cfg u a) (h : Looks cfg a S) {op : Op} (hl : Legal cfg u a op) (e : LBDD.step cfg op a = .ok () a') :
    ∃ S', Store.StepBy (fun n f => f.WeakMeans cfg (u = .ordered) n) S S' op ∧ Looks cfg a' S' :=
  step_looks (Mn := fun n f => f.WeakMeans cfg (u = .ordered) n) hR (fun f _ _ hh hd hp _ _ e => Fn.run_weak hR f hh hd hp e) h hl e

/-- **C81** in every history. -/
theorem C81_any_store_partial {ops : List Op} (h : History cfg u ops a) : ∃ S, Store.WeakRuns cfg (u = .ordered) ops S ∧ Looks cfg a S := by
  induction h with
  | init => exact ⟨_, .init, looks_init⟩
  | step h hl e ih =>
    obtain ⟨S, h1, h2⟩ := ih
    obtain ⟨S', h3, h4⟩ := C81_any_step_partial h.reachable h2 hl e
    exact ⟨S', .step h1 h3, h4⟩

theorem Store.WeakRuns.inv {ord : Prop} {ops : List Op} {op : Op} {S' : Store} (h : Store.WeakRuns cfg ord (ops ++ [op]) S') :
    ∃ S, Store.WeakRuns cfg ord ops S ∧ Store.StepBy (fun n f => f.WeakMeans cfg ord n) S S' op := by
  generalize e : ops ++ [op] = l at h
  cases h with
  | init => simp at e
  | @step ops1 op1 S1 _ h1 h2 =>
    obtain ⟨rfl, h⟩ := List.append_inj' e rfl
    cases h
    exact ⟨S1, h1, h2⟩

/-- The history of `C81_refuted` (`x0`, `x1`, their exclusive disjunction, their disjunction): the handle returned by `or_rec` has at each assignment the value of the
disjunction or of the exclusive disjunction; at `x0 = x1 = true` it is the latter. -/
theorem C81_any_concrete (nd : Bool) : History (envOf nd) .mixed badOps (badStore nd) ∧
    (∀ S, Store.WeakRuns (envOf nd) (Use.mixed = .ordered) badOps S → S.n = 2 ∧ ∃ F0 F1 F2 F3, S.slots = [some F0, some F1, some F2, some F3] ∧
      SameFn 2 F0 (fun x => x.getD 0 false) ∧ SameFn 2 F1 (fun x => x.getD 1 false) ∧
      ∀ x, 2 ≤ x.length → F3 x = (F0 x || F1 x) ∨ F3 x = (F0 x != F1 x)) ∧
    ∃ S, Store.WeakRuns (envOf nd) (Use.mixed = .ordered) badOps S ∧ Looks (envOf nd) (badStore nd) S ∧ EvalsTo (envOf nd) (badStore nd).mgr 5 [true, true] false := by
  have hH : History (envOf nd) .mixed badOps (badStore nd) := stateAfter_history (badStore_some nd)
  obtain ⟨S0, hS0, hL0⟩ := C81_any_store_partial hH
  refine ⟨hH, ?_, S0, hS0, hL0, evalsB_sound (badStore_eval nd)⟩
  intro S h
  obtain ⟨S4, h, Fs4, Gs4, a4, ⟨F4, H4, e4, n4, G4, g4, m4⟩, h4⟩ := Store.WeakRuns.inv (ops := [.call (.projection 0) [], .call (.projection 1) [], .call .xor [0, 1]]) (op := .call .or [0, 1]) h
  obtain ⟨S3, h, Fs3, Gs3, a3, ⟨F3, H3, e3, n3, G3, g3, m3⟩, h3⟩ := Store.WeakRuns.inv (ops := [.call (.projection 0) [], .call (.projection 1) []]) (op := .call .xor [0, 1]) h
  obtain ⟨S2, h, Fs2, Gs2, a2, ⟨e2, n2, G2, g2, m2⟩, h2⟩ := Store.WeakRuns.inv (ops := [.call (.projection 0) []]) (op := .call (.projection 1) []) h
  obtain ⟨S1, h, Fs1, Gs1, a1, ⟨e1, n1, G1, g1, m1⟩, h1⟩ := Store.WeakRuns.inv (ops := []) (op := .call (.projection 0) []) h
  have hS : S1 = Store.init := by
    generalize hl : ([] : List Op) = l at h
    cases h with
    | init => rfl
    | step _ _ => simp at hl
  subst hS
  subst g1 g2 g3 g4 e4
  have k1 : S2.slots = [some G1] := h1
  have k2 : S3.slots = [some G1, some G2] := by rw [h2, k1]; rfl
  have k3 : S4.slots = [some G1, some G2, some G3] := by rw [h3, k2]; rfl
  have k4 : S.slots = [some G1, some G2, some G3, some G4] := by rw [h4, k3]; rfl
  have c1 : S2.n = 1 := n1
  have c2 : S3.n = 2 := by rw [n2, c1]; rfl
  have c3 : S4.n = 2 := n3.trans c2
  have c4 : S.n = 2 := n4.trans c3
  have p4 : F4 = G1 ∧ H4 = G2 := by
    simp only [Store.args, k3, List.mapM_cons, List.mapM_nil] at a4
    simp at a4
    exact ⟨a4.1.symm, a4.2.symm⟩
  obtain ⟨rfl, rfl⟩ := p4
  rw [c1] at m1
  rw [c2] at m2
  rw [c4] at m4
  exact ⟨c4, F4, H4, G3, G4, k4, fun x hx => m1 x (by omega), m2, m4⟩
end
end LBDD
