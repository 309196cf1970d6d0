import Verif.Props.CollAnd
/-!
# Removal, renaming and queries of collection entries (C46 example, C47–C49, C51, C58)
-/
namespace LBDD
section
variable {cfg : Cfg} {c c' : Coll}

/-- Conjoining entries 0 and 2 of the demo collection keeps all four entries (C46). -/
theorem C46_example (nd : Bool) : ∃ c', bddAndRange (envOf nd) [0, 2] 100 (demoC nd) = .ok (some 4) c' ∧ ∀ k, k < 4 → SameEntry (demoC nd) k c' k := by
  have e4 : (match bddAndRange (envOf nd) [0, 2] 100 (demoC nd) with | .ok (some r) _ => r == 4 | _ => false) = true := by
    cases nd <;> decide +kernel
  split at e4
  · rename_i r c' e
    simp at e4; subst e4
    refine ⟨c', e, fun k hk => (C46_and_keeps (demoC_reachable nd) ?_ e (by rw [demoC_nrBdds]; exact hk)).1⟩
    intro i hi
    rw [demoC_nrBdds]
    simp at hi; omega
  · cases e4

/-! ## C47 -/

/-- C47, when the last entry is among those removed (otherwise see `C47_refuted`): `remove(l)` succeeds; afterwards the entries are those not in `l`, in
the old order, each a copy of what it was and evaluating as before. -/
theorem C47_remove_partial (hC : CReachable cfg c) {l : List Nat} (hl : (COp.remove l).Legal cfg c) (hlast : l.getLast? = some (c.nrBdds - 1)) :
    ∃ c', cRemove cfg l c = .ok () c' ∧ c'.nrBdds = (keptOf c.nrBdds 0 l).length ∧
      ∀ k old, (keptOf c.nrBdds 0 l)[k]? = some old → SameEntry c old c' k ∧ ∀ x, CCovers c old x → cEvaluate cfg c' k x = cEvaluate cfg c old x := by
  obtain ⟨c', e, _, h1, h2⟩ := cRemove_ok (cfg := cfg) hC.inv hl.1 hlast hl.2.1 hl.2.2
  refine ⟨c', e, h1, fun k old hk => ⟨h2 k old hk, fun x hx => (h2 k old hk).eval (hC.inv.wf old ?_) hx⟩⟩
  have := List.mem_of_getElem? hk
  simp only [keptOf, List.mem_filter, List.mem_range'_1] at this
  omega

/-- Removing nothing does nothing. -/
theorem C47_remove_nothing : cRemove cfg [] c = .ok () c := by
  unfold cRemove
  rw [M.get_bind_apply, M.assert_bind_apply (by simp), M.assert_bind_apply (by simp), M.assert_bind_apply (by simp [uniq])]
  rfl

/-- `remove(l)` with the last entry not in `l`: in every reachable collection and for every admissible `l` the call reads past the end of the range
(undefined behaviour), unless an assertion fails first. -/
theorem C47_remove_other (hC : CReachable cfg c) {l : List Nat} (hl : (COp.remove l).Legal cfg c) (hne : l ≠ []) (hlast : c.nrBdds - 1 ∉ l) :
    cRemove cfg l c = .ub ∨ cRemove cfg l c = .assertFail := by
  refine cRemove_bad hC.inv hl.1 hne fun i hi => ?_
  have := hl.2.1 i hi
  have : i ≠ c.nrBdds - 1 := fun h => hlast (h ▸ hi)
  omega

/-- Check that an entry is reduced. -/
def Coll.reducedB (c : Coll) (nr : Nat) : Bool :=
  c.allB nr fun i e => !e.innerB || (e.lo != e.hi && c.allB nr fun j e' => e' != e || i == j)

theorem Coll.reducedB_sound {nr : Nat} (h : c.reducedB nr = true) : c.Reduced nr := by
  refine ⟨fun i e ha hin => ?_, fun i j e ha hb hin => ?_⟩
  · have := Coll.allB_sound h ha
    simp only [(Instr.innerB_iff e).2 hin, Bool.not_true, Bool.false_or, Bool.and_eq_true, bne_iff_ne] at this
    exact this.1
  · have := Coll.allB_sound h ha
    simp only [(Instr.innerB_iff e).2 hin, Bool.not_true, Bool.false_or, Bool.and_eq_true, bne_iff_ne] at this
    have := Coll.allB_sound this.2 hb
    simpa using this

theorem demoC_big_reduced (nd : Bool) (k : Nat) (hk : k < 4) : (demoC nd).Big k ∧ (demoC nd).Reduced k := by
  have hd : (demoC nd).del = [0, 4, 8, 13, 16] := by cases nd <;> decide +kernel
  have hk4 : k = 0 ∨ k = 1 ∨ k = 2 ∨ k = 3 := by omega
  refine ⟨?_, ?_⟩
  · rintro d0 d1 ⟨h1, h2⟩
    rw [hd] at h1 h2
    rcases hk4 with rfl | rfl | rfl | rfl <;> simp at h1 h2 <;> omega
  · refine Coll.reducedB_sound ?_
    rcases hk4 with rfl | rfl | rfl | rfl <;> cases nd <;> decide +kernel

/-- Entries 1 and 3 of the demo collection can be removed: entries 0 and 2 stay and become 0 and 1. -/
theorem C47_example (nd : Bool) : ∃ c', cRemove (envOf nd) [1, 3] (demoC nd) = .ok () c' ∧ c'.nrBdds = 2 ∧
    SameEntry (demoC nd) 0 c' 0 ∧ SameEntry (demoC nd) 2 c' 1 := by
  have hl : (COp.remove [1, 3]).Legal (envOf nd) (demoC nd) := by
    refine ⟨by decide, ?_, Or.inr fun k hk _ => demoC_big_reduced nd k (by rw [demoC_nrBdds] at hk; exact hk)⟩
    intro i hi; rw [demoC_nrBdds]; simp at hi; omega
  obtain ⟨c', e, h1, h2⟩ := C47_remove_partial (demoC_reachable nd) hl (by rw [demoC_nrBdds]; rfl)
  rw [demoC_nrBdds] at h1 h2
  exact ⟨c', e, h1, (h2 0 0 (by decide)).1, (h2 1 2 (by decide)).1⟩

/-- C47 is false: removing entry 1 of the four demo entries. -/
theorem C47_refuted (nd : Bool) : ∃ c, CReachable (envOf nd) c ∧ (COp.remove [1]).Legal (envOf nd) c ∧ 
    (cRemove (envOf nd) [1] c = .ub ∨ cRemove (envOf nd) [1] c = .assertFail) := by
  have hl : (COp.remove [1]).Legal (envOf nd) (demoC nd) := by
    refine ⟨by decide, ?_, Or.inr fun k hk _ => demoC_big_reduced nd k (by rw [demoC_nrBdds] at hk; exact hk)⟩
    intro i hi; rw [demoC_nrBdds]; simp at hi; omega
  exact ⟨_, demoC_reachable nd, hl, C47_remove_other (demoC_reachable nd) hl (by simp) (by rw [demoC_nrBdds]; decide)⟩

/-! ## C48 -/

theorem Rebased.var {nr : Nat} {ρ : Nat → Nat} (h : Rebased c c' nr ρ) (hlt : ∀ v, c.Var nr v → ρ v < cBot) (w : Nat) :
    c'.Var nr w ↔ ∃ v, c.Var nr v ∧ ρ v = w := by
  constructor
  · rintro ⟨i, e', ha, hin, rfl⟩
    obtain ⟨e, h1, _, _, h2, h3⟩ := (h.instrs i e').1 ha
    by_cases hI : e.Inner
    · exact ⟨e.index, ⟨i, e, h1, hI, rfl⟩, (h2 hI).symm⟩
    · exfalso
      apply hI
      have := h3 hI
      unfold Instr.Inner at hin ⊢
      rwa [this] at hin
  · rintro ⟨v, ⟨i, e, ha, hin, rfl⟩, rfl⟩
    refine ⟨i, { e with index := ρ e.index }, (h.instrs i _).2 ⟨e, ha, rfl, rfl, fun _ => rfl, fun h => absurd hin h⟩, ?_, rfl⟩
    exact Instr.inner_of_lt (hlt _ ⟨i, e, ha, hin, rfl⟩)

theorem rebase_core {nr : Nat} {look : Nat → Option Nat} (hC : CReachable cfg c) (hn : nr < c.nrBdds)
    (hv : ∀ v, c.Var nr v → ∃ w, look v = some w ∧ w < cBot) :
    ∃ c', cRebase cfg nr look c = .ok () c' ∧ c'.nrBdds = c.nrBdds ∧ (∀ w, c'.Var nr w ↔ ∃ v, c.Var nr v ∧ look v = some w) ∧
      ∀ x y : List Bool, CCovers c' nr x → (∀ v w, c.Var nr v → look v = some w → y[v]? = x[w]?) →
        ∃ b, cEvaluate cfg c' nr x = .ok b () ∧ cEvaluate cfg c nr y = .ok b () := by
  obtain ⟨c', e, h⟩ := cRebase_ok (cfg := cfg) hC.inv hn hv
  have hlt : ∀ v, c.Var nr v → (look v).getD v < cBot := by
    intro v h
    obtain ⟨w, h1, h2⟩ := hv v h
    rw [h1]; exact h2
  have hvar := h.var hlt
  refine ⟨c', e, by unfold Coll.nrBdds; rw [h.del], ?_, ?_⟩
  · intro w
    rw [hvar]
    constructor
    · rintro ⟨v, h1, rfl⟩
      obtain ⟨w, h2, _⟩ := hv v h1
      exact ⟨v, h1, by rw [h2]; rfl⟩
    · rintro ⟨v, h1, h2⟩
      exact ⟨v, h1, by rw [h2]; rfl⟩
  · intro x y hx hy
    obtain ⟨d0, d1, he, hw⟩ := hC.inv.wf nr hn
    obtain ⟨t, ht⟩ := (hC.inv.wf nr hn).tree he
    have he' : c'.Entry nr d0 d1 := by unfold Coll.Entry; rw [h.del]; exact he
    have hw' := (h.inv.wf nr he'.lt).entry he'
    have ht' := h.repr d0 t he.1 ht
    have two := hw.two
    have hmem : ∀ v, t.Mem v → c.Var nr v := by
      intro v hv
      obtain ⟨j, e, h1, h2, h3, h4, h5⟩ := hw.mem ht (Nat.le_refl _) (by omega) hv
      exact ⟨j, e, ⟨d0, d1, he, h1, h2, h3⟩, h4, h5⟩
    have hcov : ∀ v, c.Var nr v → ∃ w, look v = some w ∧ w < x.length ∧ y[v]? = x[w]? := by
      intro v hvv
      obtain ⟨w, h1, h2⟩ := hv v hvv
      exact ⟨w, h1, hx w ((hvar w).2 ⟨v, hvv, by rw [h1]; rfl⟩), hy v w hvv h1⟩
    have hyc : CCovers c nr y := by
      intro v hvv
      obtain ⟨w, h1, h2, h3⟩ := hcov v hvv
      rw [List.getElem?_eq_getElem h2] at h3
      exact lt_of_get h3
    refine ⟨_, cEvaluate_ok he' hw' ht' (hx.mem he' hw' ht'), ?_⟩
    rw [cEvaluate_ok he hw ht (hyc.mem he hw ht), Tree.eval_ren]
    congr 1
    refine Tree.eval_congr ?_
    intro v hm
    obtain ⟨w, h1, h2, h3⟩ := hcov v (hmem v hm)
    simp only [h1, Option.getD_some, List.getD_eq_getElem?_getD, h3]

/-- C48, vector overload: afterwards entry `nr` has the renamed variables, and on `x` it evaluates like it did on every `y` that gives every variable of
the entry the value of its new name in `x`. -/
theorem C48_rebase_vec {nr : Nat} {m : List Nat} (hC : CReachable cfg c) (hl : (COp.rebaseVec nr m).Legal cfg c) :
    ∃ c', cRebaseVec cfg nr m c = .ok () c' ∧ c'.nrBdds = c.nrBdds ∧ (∀ w, c'.Var nr w ↔ ∃ v, c.Var nr v ∧ m[v]? = some w) ∧
      ∀ x y : List Bool, CCovers c' nr x → (∀ v w, c.Var nr v → m[v]? = some w → y[v]? = x[w]?) →
        ∃ b, cEvaluate cfg c' nr x = .ok b () ∧ cEvaluate cfg c nr y = .ok b () :=
  rebase_core hC hl.1 hl.2

/-- C48, hash-map overload. -/
theorem C48_rebase_map {nr : Nat} {m : List (Nat × Nat)} (hC : CReachable cfg c) (hl : (COp.rebaseMap nr m).Legal cfg c) :
    ∃ c', cRebaseMap cfg nr m c = .ok () c' ∧ c'.nrBdds = c.nrBdds ∧ (∀ w, c'.Var nr w ↔ ∃ v, c.Var nr v ∧ m.lookup v = some w) ∧
      ∀ x y : List Bool, CCovers c' nr x → (∀ v w, c.Var nr v → m.lookup v = some w → y[v]? = x[w]?) →
        ∃ b, cEvaluate cfg c' nr x = .ok b () ∧ cEvaluate cfg c nr y = .ok b () :=
  rebase_core hC hl.1 hl.2

theorem rebaseIns_congr {look look' : Nat → Option Nat} : ∀ (n i : Nat) (c : Coll),
    (∀ k e, i ≤ k → k < i + n → c.ins[k]? = some e → e.isTerm = false → look e.index = look' e.index) →
    rebaseIns cfg look n i c = rebaseIns cfg look' n i c
  | 0, _, _, _ => rfl
  | n + 1, i, c, h => by
    unfold rebaseIns
    cases he : c.ins[i]? with
    | none =>
      have : insAt i c = .ub := by unfold insAt; rw [he]
      simp [Bind.bind, M.bind, this]
    | some e =>
      rw [M.bind_ok (insAt_ok he), M.bind_ok (insAt_ok he)]
      cases ht : e.isTerm with
      | true =>
        simp only [if_true]
        exact rebaseIns_congr n (i + 1) c (fun k e' h1 h2 => h k e' (by omega) (by omega))
      | false =>
        simp only [Bool.false_eq_true, if_false]
        rw [← h i e (Nat.le_refl _) (by omega) he ht]
        cases look e.index with
        | none => rfl
        | some w =>
          show rebaseIns cfg look n (i + 1) { c with ins := c.ins.set i { e with index := w } } =
            rebaseIns cfg look' n (i + 1) { c with ins := c.ins.set i { e with index := w } }
          refine rebaseIns_congr n (i + 1) _ ?_
          intro k e' h1 h2 h3
          refine h k e' (by omega) (by omega) ?_
          rw [← h3]
          show _ = (c.ins.set i _)[k]?
          rw [List.getElem?_set_ne (by omega)]

/-- C48: the two overloads agree: with maps that agree on the variables of the entry they have the same effect. -/
theorem C48_overloads_agree {nr : Nat} {m : List Nat} {m' : List (Nat × Nat)} (hC : CReachable cfg c) (hn : nr < c.nrBdds)
    (h : ∀ v, c.Var nr v → m[v]? = m'.lookup v) : cRebaseVec cfg nr m c = cRebaseMap cfg nr m' c := by
  obtain ⟨d0, d1, he, hw⟩ := hC.inv.wf nr hn
  have two := hw.two
  unfold cRebaseVec cRebaseMap cRebase
  simp only [M.get_bind_apply]
  rw [M.assert_bind_apply (by simpa using hn), M.assert_bind_apply (by simpa using hn), M.bind_ok (dlm_ok0 he), M.bind_ok (dlm_ok0 he),
    M.bind_ok (dlm_ok1 he), M.bind_ok (dlm_ok1 he)]
  refine rebaseIns_congr _ _ _ ?_
  intro k e h1 h2 h3 h4
  have hii := hw.inner_iff h1 (by omega) h3
  have hin : e.Inner := hii.1.2 (by
    rcases Nat.lt_or_ge (k + 2) d1 with g | g
    · exact g
    · rw [hii.2.2 g] at h4; cases h4)
  exact h e.index ⟨k, e, ⟨d0, d1, he, h1, by omega, h3⟩, hin, rfl⟩

/-- Entry 0 of the demo collection, x0∧x1, renamed to x7∧x4 evaluates to true on an assignment with these two true. -/
theorem C48_example (nd : Bool) : ∃ c', cRebaseVec (envOf nd) 0 [7, 4] (demoC nd) = .ok () c' ∧
    cEvaluate (envOf nd) c' 0 [false, false, false, false, true, false, false, true] = .ok true () := by
  have hl : (COp.rebaseVec 0 [7, 4]).Legal (envOf nd) (demoC nd) := by
    refine ⟨by rw [demoC_nrBdds]; omega, ?_⟩
    intro v hv
    have : v < 2 := Coll.varsB_sound (by cases nd <;> decide +kernel) hv
    have : v = 0 ∨ v = 1 := by omega
    rcases this with rfl | rfl
    · exact ⟨7, rfl, by decide⟩
    · exact ⟨4, rfl, by decide⟩
  obtain ⟨c', e, h1, h2, h3⟩ := C48_rebase_vec (demoC_reachable nd) hl
  refine ⟨c', e, ?_⟩
  have hv2 : ∀ v, (demoC nd).Var 0 v → v = 0 ∨ v = 1 := by
    intro v hv
    have : v < 2 := Coll.varsB_sound (by cases nd <;> decide +kernel) hv
    omega
  obtain ⟨b, h4, h5⟩ := h3 [false, false, false, false, true, false, false, true] [true, true] (by
    intro w hw
    obtain ⟨v, g1, g2⟩ := (h2 w).1 hw
    rcases hv2 v g1 with rfl | rfl <;> simp at g2 <;> subst g2 <;> decide) (by
    intro v w g1 g2
    rcases hv2 v g1 with rfl | rfl <;> simp at g2 <;> subst g2 <;> rfl)
  have : cEvaluate (envOf nd) (demoC nd) 0 [true, true] = .ok true () := cevB_sound (by cases nd <;> decide +kernel)
  rw [this] at h5
  cases h5
  exact h4
end
end LBDD
