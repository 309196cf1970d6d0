import Verif.Props.CollQuery
/-!
# Disjunction with literals (C50)
-/
namespace LBDD
section
variable {cfg : Cfg} {c c' : Coll} {i : Nat} {pos neg : List Nat}

/-- Evaluating the tree under `x` looks at variable `v`. -/
def Tree.Visits (x : Assign) (v : Nat) : Tree → Prop
  | .bot => False
  | .top => False
  | .node w l h => v = w ∨ (if x w = true then h.Visits x v else l.Visits x v)

theorem Tree.eval_orPath (x : Assign) : ∀ t : Tree, (t.orPath pos neg).eval x = true ↔
    t.eval x = true ∨ (∃ v, v ∈ pos ∧ t.Visits x v ∧ x v = true) ∨ ∃ v, v ∈ neg ∧ t.Visits x v ∧ x v = false
  | .bot => by simp [Tree.orPath, Tree.eval, Tree.Visits]
  | .top => by simp [Tree.orPath, Tree.eval, Tree.Visits]
  | .node w l h => by
    have ih1 := Tree.eval_orPath x l
    have ih2 := Tree.eval_orPath x h
    simp only [Tree.orPath, Tree.eval, Tree.Visits]
    cases hx : x w with
    | true =>
      simp only [if_true]
      by_cases hp : w ∈ pos
      · rw [if_pos hp]
        simp only [Tree.eval, true_iff]
        exact Or.inr (Or.inl ⟨w, hp, Or.inl rfl, hx⟩)
      · rw [if_neg hp, ih2]
        constructor
        · rintro (h | ⟨v, h1, h2, h3⟩ | ⟨v, h1, h2, h3⟩)
          · exact Or.inl h
          · exact Or.inr (Or.inl ⟨v, h1, Or.inr h2, h3⟩)
          · exact Or.inr (Or.inr ⟨v, h1, Or.inr h2, h3⟩)
        · rintro (h | ⟨v, h1, rfl | h2, h3⟩ | ⟨v, h1, rfl | h2, h3⟩)
          · exact Or.inl h
          · exact absurd h1 hp
          · exact Or.inr (Or.inl ⟨v, h1, h2, h3⟩)
          · rw [hx] at h3; cases h3
          · exact Or.inr (Or.inr ⟨v, h1, h2, h3⟩)
    | false =>
      simp only [Bool.false_eq_true, if_false]
      by_cases hp : w ∈ neg
      · rw [if_pos hp]
        simp only [Tree.eval, true_iff]
        exact Or.inr (Or.inr ⟨w, hp, Or.inl rfl, hx⟩)
      · rw [if_neg hp, ih1]
        constructor
        · rintro (h | ⟨v, h1, h2, h3⟩ | ⟨v, h1, h2, h3⟩)
          · exact Or.inl h
          · exact Or.inr (Or.inl ⟨v, h1, Or.inr h2, h3⟩)
          · exact Or.inr (Or.inr ⟨v, h1, Or.inr h2, h3⟩)
        · rintro (h | ⟨v, h1, rfl | h2, h3⟩ | ⟨v, h1, rfl | h2, h3⟩)
          · exact Or.inl h
          · rw [hx] at h3; cases h3
          · exact Or.inr (Or.inl ⟨v, h1, h2, h3⟩)
          · exact absurd h1 hp
          · exact Or.inr (Or.inr ⟨v, h1, h2, h3⟩)

theorem getD_true (x : List Bool) (v : Nat) : x.getD v false = true ↔ x[v]? = some true := by
  rw [List.getD_eq_getElem?_getD]
  cases x[v]? <;> simp

theorem visits_iff {ins : List Instr} {x : List Bool} {v : Nat} {j : Nat} {t : Tree} (ht : CRepr ins j t) :
    t.Visits (fun v => x.getD v false) v ↔ ∃ k e, CVisits ins x j k ∧ ins[k]? = some e ∧ e.Inner ∧ e.index = v := by
  induction ht with
  | bot h1 h2 =>
    simp only [Tree.Visits, false_iff]
    rintro ⟨k, e, h3, h4, h5, h6⟩
    cases h3 with
    | refl => rw [h1] at h4; cases h4; exact h5.1 h2
    | step h7 h8 _ => rw [h1] at h7; cases h7; exact h8.1 h2
  | top h1 h2 =>
    simp only [Tree.Visits, false_iff]
    rintro ⟨k, e, h3, h4, h5, h6⟩
    cases h3 with
    | refl => rw [h1] at h4; cases h4; exact h5.2 h2
    | step h7 h8 _ => rw [h1] at h7; cases h7; exact h8.2 h2
  | @node j e tl th h1 h2 h3 h4 ih1 ih2 =>
    simp only [Tree.Visits, getD_true]
    constructor
    · rintro (rfl | h)
      · exact ⟨j, e, .refl _, h1, h2, rfl⟩
      · by_cases hx : x[e.index]? = some true
        · rw [if_pos hx] at h
          obtain ⟨k, e', g1, g2⟩ := ih2.1 h
          exact ⟨k, e', .step h1 h2 (by rw [if_pos hx]; exact g1), g2⟩
        · rw [if_neg hx] at h
          obtain ⟨k, e', g1, g2⟩ := ih1.1 h
          exact ⟨k, e', .step h1 h2 (by rw [if_neg hx]; exact g1), g2⟩
    · rintro ⟨k, e', g1, g2, g3, g4⟩
      cases g1 with
      | refl => rw [h1] at g2; cases g2; exact Or.inl g4.symm
      | step g5 g6 g7 =>
        rw [h1] at g5; cases g5
        right
        by_cases hx : x[e.index]? = some true
        · rw [if_pos hx] at g7 ⊢
          exact ih2.2 ⟨k, e', g7, g2, g3, g4⟩
        · rw [if_neg hx] at g7 ⊢
          exact ih1.2 ⟨k, e', g7, g2, g3, g4⟩

theorem tests_iff {d0 d1 : Nat} (he : c.Entry i d0 d1) {t : Tree} (ht : CRepr c.ins d0 t) (x : List Bool) (v : Nat) :
    c.Tests i x v ↔ t.Visits (fun v => x.getD v false) v := by
  rw [visits_iff ht]
  constructor
  · rintro ⟨d, j, e, h1, h2⟩
    rw [he.1] at h1
    cases h1
    exact ⟨j, e, h2⟩
  · rintro ⟨j, e, h2⟩
    exact ⟨d0, j, e, he.1, h2⟩

/-- A variable looked at occurs in the entry. -/
theorem Tree.Visits.mem {x : Assign} {v : Nat} : ∀ {t : Tree}, t.Visits x v → t.Mem v
  | .bot, h => h.elim
  | .top, h => h.elim
  | .node w l r, h => by
    rcases h with rfl | h
    · exact Or.inl rfl
    · split at h
      · exact Or.inr (Or.inr h.mem)
      · exact Or.inr (Or.inl h.mem)

/-- What `bdd_or_var` computes when it has nothing to reduce: the new entry is true exactly where the old one is, or where evaluating the old entry looks at
a variable of `pos` that is true or at a variable of `neg` that is false. The other entries keep their numbers and contents. -/
theorem C50_paths (hC : CReachable cfg c) (hi : i < c.nrBdds) (hs : OrSimple c i pos neg) :
    ∃ c', bddOrVar cfg i pos neg c = .ok c.nrBdds c' ∧ c'.nrBdds = c.nrBdds + 1 ∧ (∀ k, k < c.nrBdds → SameEntry c k c' k) ∧
      ∀ x, CCovers c i x → ∃ b, cEvaluate cfg c' c.nrBdds x = .ok b () ∧
        (b = true ↔ cEvaluate cfg c i x = .ok true () ∨ (∃ v, v ∈ pos ∧ c.Tests i x v ∧ x[v]? = some true) ∨
          ∃ v, v ∈ neg ∧ c.Tests i x v ∧ x[v]? = some false) := by
  have hc := hC.inv
  obtain ⟨d0, d1, he, hw⟩ := hc.wf i hi
  obtain ⟨t, et, a1, a2, a3, a4, a5, a6, e⟩ := bddOrVar_ok (cfg := cfg) hc he hs
  have hwf := or_wf he hw hs a2 a3 a4 a5
  refine ⟨_, e, append_nrBdds hc, fun k hk => append_same hc hk, fun x hx => ?_⟩
  obtain ⟨T, hT⟩ := (hc.wf i hi).tree he
  have two := hw.two
  have hT' := or_repr (pos := pos) (neg := neg) hw a1 a3 a4 a5 a6 hT (Nat.le_refl _) (by omega)
  have hl := hw.len
  rw [show d0 + (c.ins.length - d0) = c.ins.length by omega] at hT'
  have hm := hx.mem he hw hT
  have hm' : ∀ v, (T.orPath pos neg).Mem v → v < x.length := by
    have key : ∀ (t : Tree) v, (t.orPath pos neg).Mem v → t.Mem v := by
      intro t
      induction t with
      | bot => exact fun v h => h
      | top => exact fun v h => h
      | node w l h ih1 ih2 =>
        intro v hv
        rcases hv with rfl | hv | hv
        · exact Or.inl rfl
        · split at hv
          · exact hv.elim
          · exact Or.inr (Or.inl (ih1 v hv))
        · split at hv
          · exact hv.elim
          · exact Or.inr (Or.inr (ih2 v hv))
    exact fun v hv => hm v (key T v hv)
  refine ⟨_, cEvaluate_ok (append_entry hc) hwf hT' hm', ?_⟩
  rw [Tree.eval_orPath, cEvaluate_ok he hw hT hm]
  have ht := fun v => tests_iff he hT x v
  constructor
  · rintro (h | ⟨v, h1, h2, h3⟩ | ⟨v, h1, h2, h3⟩)
    · exact Or.inl (by rw [h])
    · exact Or.inr (Or.inl ⟨v, h1, (ht v).2 h2, (getD_true x v).1 h3⟩)
    · refine Or.inr (Or.inr ⟨v, h1, (ht v).2 h2, ?_⟩)
      have := hm v h2.mem
      rw [List.getD_eq_getElem?_getD, List.getElem?_eq_getElem this] at h3
      rw [List.getElem?_eq_getElem this]
      simpa using h3
  · rintro (h | ⟨v, h1, h2, h3⟩ | ⟨v, h1, h2, h3⟩)
    · injection h with h; exact Or.inl h
    · exact Or.inr (Or.inl ⟨v, h1, (ht v).1 h2, (getD_true x v).2 h3⟩)
    · exact Or.inr (Or.inr ⟨v, h1, (ht v).1 h2, by simp [List.getD_eq_getElem?_getD, h3]⟩)

/-- C50 in the case in which nothing has to be reduced and the variables are looked at on every path to false: `bdd_or_var(i, pos, neg)` appends an entry that
is true exactly where entry `i` is true, some variable of `pos` is true, or some variable of `neg` is false. -/
theorem C50_or_var_partial (hC : CReachable cfg c) (hi : i < c.nrBdds) (hs : OrSimple c i pos neg)
    (hall : ∀ x, CCovers c i x → cEvaluate cfg c i x = .ok false () → ∀ v, v ∈ pos ∨ v ∈ neg → c.Tests i x v) :
    ∃ c', bddOrVar cfg i pos neg c = .ok c.nrBdds c' ∧ c'.nrBdds = c.nrBdds + 1 ∧ (∀ k, k < c.nrBdds → SameEntry c k c' k) ∧
      ∀ x, CCovers c i x → ∃ b, cEvaluate cfg c' c.nrBdds x = .ok b () ∧
        (b = true ↔ cEvaluate cfg c i x = .ok true () ∨ (∃ v, v ∈ pos ∧ x[v]? = some true) ∨ ∃ v, v ∈ neg ∧ x[v]? = some false) := by
  obtain ⟨c', h1, h2, h3, h4⟩ := C50_paths hC hi hs
  refine ⟨c', h1, h2, h3, fun x hx => ?_⟩
  obtain ⟨b, h5, h6⟩ := h4 x hx
  refine ⟨b, h5, h6.trans ?_⟩
  have hev : cEvaluate cfg c i x = .ok true () ∨ cEvaluate cfg c i x = .ok false () := by
    obtain ⟨d0, d1, he, hw⟩ := hC.inv.wf i hi
    obtain ⟨T, hT⟩ := (hC.inv.wf i hi).tree he
    rw [cEvaluate_ok he hw hT (hx.mem he hw hT)]
    cases T.eval (fun v => x.getD v false) <;> simp
  constructor
  · rintro (h | ⟨v, g1, g2, g3⟩ | ⟨v, g1, g2, g3⟩)
    · exact Or.inl h
    · exact Or.inr (Or.inl ⟨v, g1, g3⟩)
    · exact Or.inr (Or.inr ⟨v, g1, g3⟩)
  · rintro (h | ⟨v, g1, g2⟩ | ⟨v, g1, g2⟩)
    · exact Or.inl h
    · rcases hev with h | h
      · exact Or.inl h
      · exact Or.inr (Or.inl ⟨v, g1, hall x hx h v (Or.inl g1), g2⟩)
    · rcases hev with h | h
      · exact Or.inl h
      · exact Or.inr (Or.inr ⟨v, g1, hall x hx h v (Or.inr g1), g2⟩)

/-- Literals of variables that do not occur in a reduced entry are ignored: the new entry is equivalent to the old one, not to the disjunction. -/
theorem C50_ignored (hC : CReachable cfg c) (hi : i < c.nrBdds) (hr : c.Reduced i) (hv : ∀ v, v ∈ pos ∨ v ∈ neg → ¬ c.Var i v) :
    ∃ c', bddOrVar cfg i pos neg c = .ok c.nrBdds c' ∧ ∀ x, CCovers c i x → cEvaluate cfg c' c.nrBdds x = cEvaluate cfg c i x := by
  have hs : OrSimple c i pos neg := by
    refine ⟨fun v h1 h2 => absurd h1 (hv v (Or.inl h2)), fun j e h1 h2 h3 => absurd ⟨j, e, h1, h2, rfl⟩ (hv _ (Or.inl h3)),
      fun j e h1 h2 h3 => absurd ⟨j, e, h1, h2, rfl⟩ (hv _ (Or.inr h3)), fun j e j' e' h1 h2 h3 h4 h5 h6 => ?_⟩
    have g1 : ¬ e.index ∈ neg := fun h => hv _ (Or.inr h) ⟨j, e, h1, h3, rfl⟩
    have g2 : ¬ e.index ∈ pos := fun h => hv _ (Or.inl h) ⟨j, e, h1, h3, rfl⟩
    have : e = e' := by
      cases e; cases e'
      simp_all
    subst this
    exact hr.2 j j' e h1 h2 h3
  obtain ⟨c', h1, h2, h3, h4⟩ := C50_paths hC hi hs
  refine ⟨c', h1, fun x hx => ?_⟩
  obtain ⟨b, h5, h6⟩ := h4 x hx
  obtain ⟨d0, d1, he, hw⟩ := hC.inv.wf i hi
  obtain ⟨T, hT⟩ := (hC.inv.wf i hi).tree he
  have hno : ∀ v, v ∈ pos ∨ v ∈ neg → ¬ c.Tests i x v := by
    intro v hm ht
    have := ((tests_iff he hT x v).1 ht).mem
    obtain ⟨j, e, g1, g2, g3, g4, g5⟩ := hw.mem hT (Nat.le_refl _) (by have := hw.two; omega) this
    exact hv v hm ⟨j, e, ⟨d0, d1, he, g1, g2, g3⟩, g4, g5⟩
  have h7 : b = true ↔ cEvaluate cfg c i x = .ok true () := by
    refine h6.trans ⟨?_, Or.inl⟩
    rintro (h | ⟨v, g1, g2, _⟩ | ⟨v, g1, g2, _⟩)
    · exact h
    · exact absurd g2 (hno v (Or.inl g1))
    · exact absurd g2 (hno v (Or.inr g1))
  rw [h5]
  rw [cEvaluate_ok he hw hT (hx.mem he hw hT)] at h7 ⊢
  congr 1
  have h7 : b = true ↔ T.eval (fun v => x.getD v false) = true := by
    rw [h7]
    exact ⟨fun h => by injection h, fun h => by rw [h]⟩
  rw [Bool.eq_iff_iff]
  exact h7
end

/-! ## Examples -/

/-- Check of `OrSimple`. -/
def Coll.orSimpleB (c : Coll) (nr : Nat) (pos neg : List Nat) : Bool :=
  c.allB nr fun j e => !e.innerB || (
    !(pos.contains e.index && neg.contains e.index) &&
    (!pos.contains e.index || (match c.ins[e.lo]? with | some e' => e'.index != cTop | none => true)) &&
    (!neg.contains e.index || (match c.ins[e.hi]? with | some e' => e'.index != cTop | none => true)) &&
    c.allB nr fun j' e' => !(e.index == e'.index && (neg.contains e.index || e.lo == e'.lo) && (pos.contains e.index || e.hi == e'.hi)) || j == j')

theorem Coll.orSimpleB_sound {c : Coll} {nr : Nat} {pos neg : List Nat} (h : c.orSimpleB nr pos neg = true) : OrSimple c nr pos neg := by
  have key : ∀ j e, c.At nr j e → e.Inner → _ := fun j e ha hin => by
    have := Coll.allB_sound h ha
    rw [(Instr.innerB_iff e).2 hin] at this
    simp only [Bool.not_true, Bool.false_or, Bool.and_eq_true] at this
    exact this
  refine ⟨?_, ?_, ?_, ?_⟩
  · rintro v ⟨j, e, ha, hin, rfl⟩ h1 h2
    have := (key j e ha hin).1.1.1
    simp [h1, h2] at this
  · rintro j e ha hin h1 ⟨e', ⟨_, _, _, _, _, h5⟩, h6⟩
    have := (key j e ha hin).1.1.2
    rw [h5] at this
    simp [h1, h6] at this
  · rintro j e ha hin h1 ⟨e', ⟨_, _, _, _, _, h5⟩, h6⟩
    have := (key j e ha hin).1.2
    rw [h5] at this
    simp [h1, h6] at this
  · intro j e j' e' ha ha' hin h1 h2 h3
    have := Coll.allB_sound (key j e ha hin).2 ha'
    simp only [Bool.or_eq_true, beq_iff_eq, Bool.not_eq_true', Bool.and_eq_false_imp] at this
    rcases this with g | g
    · exfalso
      have := g (by
        simp only [Bool.and_eq_true, beq_iff_eq, Bool.or_eq_true, List.contains_iff_mem]
        exact ⟨h1, h2⟩)
      rcases h3 with h3 | h3 <;> simp [h3] at this
    · exact g

/-- Check that a call is undefined. -/
def ubC {α : Type} (o : Res Coll α) : Bool := match o with | .ub => true | _ => false

theorem ubC_sound {α : Type} {o : Res Coll α} (h : ubC o = true) : o = .ub := by
  cases o <;> first | rfl | cases h

/-- Check that a call fails an assertion. -/
def failC {α : Type} (o : Res Coll α) : Bool := match o with | .assertFail => true | _ => false

theorem failC_sound {α : Type} {o : Res Coll α} (h : failC o = true) : o = .assertFail := by
  cases o <;> first | rfl | cases h

/-- Check the result of evaluating entry `nr` after a call. -/
def evC {α : Type} (cfg : Cfg) (o : Res Coll α) (nr : Nat) (x : List Bool) (b : Bool) : Bool :=
  match o with
  | .ok _ c' => cevB (cEvaluate cfg c' nr x) b
  | _ => false

theorem evC_sound {α : Type} {cfg : Cfg} {o : Res Coll α} {nr : Nat} {x : List Bool} {b : Bool} (h : evC cfg o nr x b = true) {a : α} {c' : Coll}
    (e : o = .ok a c') : cEvaluate cfg c' nr x = .ok b () := by
  subst e
  exact cevB_sound h

/-- (x0∧x1) ∨ x0: the hypotheses of `C50_or_var_partial` hold. -/
theorem C50_example (nd : Bool) : ∃ c', bddOrVar (envOf nd) 0 [0] [] (demoC nd) = .ok 4 c' ∧
    ∀ x : List Bool, 2 ≤ x.length → ∃ b, cEvaluate (envOf nd) c' 4 x = .ok b () ∧ (b = true ↔ x[0]? = some true) := by
  have hn := demoC_nrBdds nd
  have hs : OrSimple (demoC nd) 0 [0] [] := Coll.orSimpleB_sound (by cases nd <;> decide +kernel)
  have hv2 : ∀ v, (demoC nd).Var 0 v → v < 2 := fun v hv => Coll.varsB_sound (by cases nd <;> decide +kernel) hv
  have hdel : (demoC nd).del[0]? = some 0 := by cases nd <;> decide +kernel
  have hins : (demoC nd).ins[0]? = some ⟨2, 1, 0⟩ := by cases nd <;> decide +kernel
  have hroot : (⟨2, 1, 0⟩ : Instr).Inner := by unfold Instr.Inner; decide
  obtain ⟨c', h1, h2, h3, h4⟩ := C50_or_var_partial (demoC_reachable nd) (i := 0) (by rw [hn]; omega) hs (by
    intro x hx hf v hv
    simp at hv
    subst hv
    exact ⟨0, 0, _, hdel, .refl _, hins, hroot, rfl⟩)
  rw [hn] at h1 h4
  refine ⟨c', h1, fun x hx => ?_⟩
  obtain ⟨b, h5, h6⟩ := h4 x (fun v hv => by have := hv2 v hv; omega)
  refine ⟨b, h5, h6.trans ⟨?_, fun h => Or.inr (Or.inl ⟨0, by simp, h⟩)⟩⟩
  rintro (h | ⟨v, g1, g2⟩ | ⟨v, g1, g2⟩)
  · rcases hx0 : x[0]? with _ | _ | _
    · rw [List.getElem?_eq_none_iff] at hx0; omega
    · exfalso
      unfold cEvaluate at h
      have : ¬ (demoC nd).nrBdds ≤ 0 := by rw [hn]; omega
      simp only [this, decide_false, Bool.and_false, Bool.false_eq_true, if_false, hdel] at h
      have hlen : (demoC nd).ins.length = 16 := by cases nd <;> decide +kernel
      have hb : (demoC nd).ins[2]? = some botInstr := by cases nd <;> decide +kernel
      rw [hlen] at h
      have : cEvalLoop (envOf nd) (demoC nd) x 17 0 = .ok false () := by
        unfold cEvalLoop
        rw [hins]
        simp only [show (⟨2, 1, 0⟩ : Instr).isTop = false from by decide, show (⟨2, 1, 0⟩ : Instr).isBot = false from by decide, Bool.false_eq_true,
          if_false, hx0]
        unfold cEvalLoop
        rw [hb]
        simp only [show botInstr.isTop = false from by decide, show botInstr.isBot = true from by decide, Bool.false_eq_true, if_false, if_true]
      rw [this] at h
      cases h
    · rfl
  · simp at g1; subst g1; exact g2
  · simp at g1

/-- C50 is false: (x0∧x1) ∨ x1 computed by `bdd_or_var` evaluates to false on x0 = 0, x1 = 1. -/
theorem C50_refuted (nd : Bool) : ∃ c, CReachable (envOf nd) c ∧ 0 < c.nrBdds ∧ c.Reduced 0 ∧ ∃ c', bddOrVar (envOf nd) 0 [1] [] c = .ok c.nrBdds c' ∧
    cEvaluate (envOf nd) c' c.nrBdds [false, true] = .ok false () := by
  have hn := demoC_nrBdds nd
  refine ⟨demoC nd, demoC_reachable nd, by rw [hn]; omega, (demoC_big_reduced nd 0 (by omega)).2, ?_⟩
  have hs : OrSimple (demoC nd) 0 [1] [] := Coll.orSimpleB_sound (by cases nd <;> decide +kernel)
  obtain ⟨c', h1, _⟩ := C50_paths (demoC_reachable nd) (i := 0) (by rw [hn]; omega) hs
  rw [hn] at h1 ⊢
  exact ⟨c', h1, evC_sound (by cases nd <;> decide +kernel) h1⟩

/-- When a node becomes redundant the call fails: ¬(x0∧x1) ∨ x1 fails an assertion in debug builds and is undefined behaviour in release builds. -/
theorem C50_refuted_crash (nd : Bool) : ∃ c, CReachable (envOf nd) c ∧ 1 < c.nrBdds ∧ c.Reduced 1 ∧
    bddOrVar (envOf nd) 1 [1] [] c = if nd then .ub else .assertFail := by
  have hn := demoC_nrBdds nd
  refine ⟨demoC nd, demoC_reachable nd, by rw [hn]; omega, (demoC_big_reduced nd 1 (by omega)).2, ?_⟩
  cases nd
  · rw [if_neg (by decide)]
    exact failC_sound (by decide +kernel)
  · rw [if_pos rfl]
    exact ubC_sound (by decide +kernel)

end LBDD
