import Verif.Proof.Hist
import Verif.Proof.Build
import Verif.Proof.Rebase
/-! Bridge between the invariant-level theorems and the statements about reachable client states. -/
namespace LBDD
section
variable {cfg : Cfg} {md : Md} {refs : Nat → Nat} {s s' : Mgr} {α : Type}

theorem Thrown.full (h : Thrown cfg md refs s s') : TableFull s' := by
  obtain ⟨_, v, _, _, _, l, h1, h2, h3, _⟩ := h
  exact ⟨v, l, h1, by simpa using h2, h3⟩

theorem SpecG.returns {m : M Mgr α} {P Q : α → Mgr → Prop} (h : SpecG cfg md refs m s P)
    (hq : ∀ r s', Grow s s' → Inv cfg md refs s' → P r s' → Q r s') : Returns (m s) Q := by
  unfold SpecG M.Sat at h
  unfold Returns
  cases e : m s with
  | ok r s1 => rw [e] at h; exact hq r s1 h.1 h.2.1 h.2.2
  | throw s1 => rw [e] at h; exact h.full
  | assertFail => rw [e] at h; exact h
  | ub => rw [e] at h; exact h
  | hang => rw [e] at h; exact h

theorem Spec.returns {m : M Mgr α} {P Q : α → Mgr → Prop} (h : Spec cfg md refs m s P)
    (hq : ∀ r s', Ext s s' → Inv cfg md refs s' → P r s' → Q r s') : Returns (m s) Q := by
  unfold Spec M.Sat at h
  unfold Returns
  cases e : m s with
  | ok r s1 => rw [e] at h; exact hq r s1 h.1 h.2.1 h.2.2
  | throw s1 => rw [e] at h; exact h.full
  | assertFail => rw [e] at h; exact h
  | ub => rw [e] at h; exact h
  | hang => rw [e] at h; exact h

theorem Returns.mono {o : Res Mgr α} {P Q : α → Mgr → Prop} (h : Returns o P) (hq : ∀ r s, P r s → Q r s) : Returns o Q := by
  unfold Returns at *
  cases o <;> simp_all

theorem evals_repr (hi : Inv cfg md refs s) {p : Nat} {t : Tree} (hp : Repr s.cells p t) {x : List Bool} (hx : Covers s x) :
    EvalsTo cfg s p x (t.eval (asg x)) :=
  evaluate_ok hi hp x (fun _ hw => Nat.lt_of_lt_of_le (hi.mem_lt hp hw) hx)

theorem denotes_repr (hi : Inv cfg md refs s) {p : Nat} {t : Tree} (hp : Repr s.cells p t) :
    Denotes cfg s p (fun x => t.eval (asg x)) := fun _ hx => evals_repr hi hp hx

theorem denotes_rep (hi : Inv cfg md refs s) {p : Nat} {G : BFun} (hp : Rep s.cells p G) :
    Denotes cfg s p (fun x => G (asg x)) := by
  obtain ⟨t, h1, h2⟩ := hp
  intro x hx
  show EvalsTo cfg s p x (G (asg x))
  rw [← h2]; exact evals_repr hi h1 hx

theorem Denotes.eq {p : Nat} {F G : List Bool → Bool} (h1 : Denotes cfg s p F) (h2 : Denotes cfg s p G) {x : List Bool}
    (hx : Covers s x) : F x = G x := by
  have a := h1 x hx
  have b := h2 x hx
  unfold EvalsTo at a b
  rw [a] at b
  injection b

theorem Denotes.congr {p : Nat} {F G : List Bool → Bool} (h1 : Denotes cfg s p F) (h : ∀ x, Covers s x → F x = G x) : Denotes cfg s p G := by
  intro x hx; rw [← h x hx]; exact h1 x hx

theorem Covers.anti {x : List Bool} (h : Covers s' x) (hn : s.nvars ≤ s'.nvars) : Covers s x := Nat.le_trans hn h

theorem denotesAll_reps (hi : Inv cfg md refs s) : ∀ {ps : List Nat} {Fs : List (List Bool → Bool)}, Anys s.cells ps → DenotesAll cfg s ps Fs →
    ∃ Gs : List BFun, Reps s.cells ps Gs ∧ Gs.length = Fs.length ∧ ∀ x, Covers s x → vals Gs (asg x) = Fs.map (fun F => F x)
  | [], [], _, _ => ⟨[], trivial, rfl, fun _ _ => rfl⟩
  | p :: ps, F :: Fs, ha, h => by
    obtain ⟨Gs, g1, g2, g3⟩ := denotesAll_reps hi (fun q hq => ha q (by simp [hq])) h.2
    obtain ⟨t, ht⟩ := ha p (by simp)
    refine ⟨t.eval :: Gs, ⟨⟨t, ht, fun _ => rfl⟩, g1⟩, by simp [g2], ?_⟩
    intro x hx
    have : F x = t.eval (asg x) := Denotes.eq h.1 (denotes_repr hi ht) hx
    have e := g3 x hx
    simp only [vals, List.map_cons, this] at e ⊢
    rw [e]
  | [], _ :: _, _, h => h.elim
  | _ :: _, [], _, h => h.elim

theorem cnt_map (Fs : List (List Bool → Bool)) (x : List Bool) : cnt (Fs.map (fun F => F x)) = countTrue Fs x := by
  unfold countTrue
  induction Fs with
  | nil => rfl
  | cons F Fs ih =>
    rw [List.map_cons, cnt_cons, ih]
    cases h : F x <;> simp [h]; omega

/-- The list of the first `n` values of an assignment. -/
def toList (n : Nat) (x : Assign) : List Bool := (List.range n).map x

theorem toList_length (n : Nat) (x : Assign) : (toList n x).length = n := by simp [toList]
theorem asg_toList {n : Nat} {x : Assign} {w : Nat} (h : w < n) : asg (toList n x) w = x w := by
  simp [asg, toList, h]

theorem covers_toList (s : Mgr) (x : Assign) : Covers s (toList s.nvars x) := by
  unfold Covers; rw [toList_length]; exact Nat.le_refl _

theorem eval_toList (hi : Inv cfg md refs s) {p : Nat} {t : Tree} (hp : Repr s.cells p t) (x : Assign) :
    t.eval (asg (toList s.nvars x)) = t.eval x :=
  Tree.eval_congr (fun _ hw => asg_toList (hi.mem_lt hp hw))

/-- Two BDDs that evaluate alike on all lists denote the same Boolean function. -/
theorem eval_eq_of_lists (hi : Inv cfg md refs s) {p q : Nat} {t t' : Tree} (hp : Repr s.cells p t) (hq : Repr s.cells q t')
    (h : ∀ x, Covers s x → evaluate cfg s p x = evaluate cfg s q x) (x : Assign) : t.eval x = t'.eval x := by
  have a := evals_repr hi hp (covers_toList s x)
  have b := evals_repr hi hq (covers_toList s x)
  unfold EvalsTo at a b
  rw [h _ (covers_toList s x), b] at a
  rw [eval_toList hi hp, eval_toList hi hq] at a
  injection a with a; exact a.symm
end

section
variable {cfg : Cfg} {u : Use} {a : Api}

/-- Every BDD the user holds denotes a Boolean function (evaluate returns on every assignment). -/
theorem holds_denotes (h : Reachable cfg u a) {p : Nat} (hp : a.Holds p) : ∃ F, Denotes cfg a.mgr p F := by
  obtain ⟨t, ht⟩ := h.good.any hp
  exact ⟨_, denotes_repr h.good ht⟩

/-- Running an operation whose effect is described by `DetE` on held BDDs. -/
theorem detE_returns {ps : List Nat} {Fs : List (List Bool → Bool)} {m : Cfg → List Nat → M Mgr Nat} (P : Md → Prop)
    (h : Reachable cfg u a) (hP : P u.md) (hh : ∀ p ∈ ps, a.Holds p) (hd : DenotesAll cfg a.mgr ps Fs) (V : List Bool → Bool)
    (hm : ∀ Gs : List BFun, Gs.length = Fs.length →
      DetE P (fun c l => Reps c l Gs) m (fun r c => Rep c r (fun x => V (vals Gs x)))) :
    Returns (m cfg ps a.mgr) (fun r s' => Denotes cfg s' r (fun x => V (Fs.map (fun F => F x)))) := by
  obtain ⟨Gs, g1, g2, g3⟩ := denotesAll_reps h.good (fun p hp => h.good.any (hh p hp)) hd
  obtain ⟨N, hN⟩ := hm Gs g2
  refine (hN cfg u.md a.count a.mgr ps hP h.good g1).returns ?_
  rintro r s' hx hi' ⟨hr, _⟩
  refine (denotes_rep hi' hr).congr ?_
  intro x hc
  show V (vals Gs (asg x)) = _
  rw [g3 x (hc.anti (by rw [hx.nvars]; exact Nat.le_refl _))]

/-- The discipline `mixed` allows everything. -/
theorem Fn.Pre.mixed {s : Mgr} {f : Fn} {l : List Nat} (h : f.Pre cfg u s l) : f.Pre cfg .mixed s l := by
  cases f <;> simp only [Fn.Pre] at h ⊢ <;> try exact h
  case uniqueFind v => exact ⟨h.1, fun h => nomatch h⟩
  case or => exact fun h => nomatch h
  case ite => exact fun h => nomatch h
  case xor => exact Or.inr trivial
  case orRange => exact ⟨h.1, fun h => nomatch h⟩
  case orAll => exact ⟨h.1, fun h => nomatch h⟩
  case xorRange => exact ⟨h.1, Or.inr trivial⟩
  case xorAll => exact ⟨h.1, Or.inr trivial⟩
  case atMostOne => exact ⟨h.1, fun h => nomatch h⟩
  case simplex => exact ⟨h.1, fun h => nomatch h⟩
  case atLeast => exact ⟨h.1, fun h => nomatch h⟩
  case atMost => exact ⟨h.1, fun h => nomatch h⟩
  case cardinality => exact ⟨h.1, fun h => nomatch h⟩
  case rebaseMap m => exact fun p hp => ⟨(h p hp).1, (h p hp).2.1, (h p hp).2.2.1, fun h => nomatch h⟩
  case rebaseVec m => exact fun p hp => ⟨(h p hp).1, (h p hp).2.1, (h p hp).2.2.1, (h p hp).2.2.2.1, fun h => nomatch h⟩
  case exportBdd c nr => exact ⟨h.1, h.2.1, fun h => nomatch h⟩
  case importBdd c nr => exact ⟨h.1, h.2.1, fun h => nomatch h⟩

/-- Every history of every discipline is a history of the discipline `mixed`. -/
theorem Reachable.mixed (h : Reachable cfg u a) : Reachable cfg .mixed a := by
  induction h with
  | init => exact .init
  | @step a a' op _ hl e ih =>
    refine .step ih ?_ e
    cases op with
    | call f is => exact fun ps hps => (hl ps hps).mixed
    | _ => exact hl
end
end LBDD
