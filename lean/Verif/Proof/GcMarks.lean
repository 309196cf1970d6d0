import Verif.Proof.GcRun
/-! A collection leaves all mark bits alone. -/
namespace LBDD
section
variable {cfg : Cfg}

theorem rdInner_marks {v : Nat} : ∀ (n j : Nat) {s s' : Mgr} {r : Nat}, rdInner v n j s = .ok r s' → s'.marks = s.marks := by
  intro n
  induction n with
  | zero => intro j s s' r e; cases e
  | succ n ih =>
    intro j s s' r e
    unfold rdInner at e
    rw [M.get_bind_apply] at e
    split at e
    · cases e
    · cases hs : (s.tabs v).slots (j &&& (s.tabs v).mask) with
      | none => rw [hs] at e; cases e; rfl
      | some p =>
        rw [hs] at e
        dsimp only at e
        split at e
        · obtain ⟨_, s1, e1, e⟩ := bind_ok_inv e
          obtain ⟨_, s2, e2, e⟩ := bind_ok_inv e
          cases e1; cases e2
          exact (ih _ e).trans rfl
        · split at e
          · cases e
          · obtain ⟨k, s1, e1, e'⟩ := bind_ok_inv e
            obtain ⟨_, s2, e2, e''⟩ := bind_ok_inv e'
            obtain ⟨_, rfl⟩ := lift_ok_inv e1
            cases e2
            exact (ih _ e'').trans rfl

theorem rdOuter_marks {v : Nat} : ∀ (n k : Nat) {s s' : Mgr}, rdOuter cfg v n k s = .ok () s' → s'.marks = s.marks := by
  intro n
  induction n with
  | zero => intro j s s' e; cases e
  | succ n ih =>
    intro k s s' e
    unfold rdOuter at e
    rw [M.get_bind_apply] at e
    split at e
    · cases e; rfl
    · split at e
      · cases e
      · cases hs : (s.tabs v).slots k with
        | none => rw [hs] at e; exact ih _ e
        | some p =>
          rw [hs] at e
          dsimp only at e
          split at e
          · obtain ⟨_, s1, e1, f1⟩ := bind_ok_inv e
            obtain ⟨_, s2, e2, f2⟩ := bind_ok_inv f1
            obtain ⟨_, s3, e3, f3⟩ := bind_ok_inv f2
            obtain ⟨j, s4, e4, f4⟩ := bind_ok_inv f3
            obtain ⟨_, _, rfl⟩ := freeNode_inv e1
            cases e2; cases e3
            exact (ih _ f4).trans ((rdInner_marks _ _ e4).trans rfl)
          · exact ih _ e

theorem shrinkTable_marks {v : Nat} {s s' : Mgr} (e : shrinkTable cfg v s = .ok () s') : s'.marks = s.marks := by
  unfold shrinkTable at e
  rw [M.get_bind_apply] at e
  simp only at e
  split at e
  · obtain ⟨c, s1, e1, e⟩ := bind_ok_inv e
    obtain ⟨nb, s2, e2, e⟩ := bind_ok_inv e
    obtain ⟨_, s3, e3, e⟩ := bind_ok_inv e
    obtain ⟨_, e2'⟩ := lift_ok_inv e2
    have : s1 = s := by
      unfold newPage at e1
      revert e1
      generalize pageCapFor _ = o
      cases o with
      | some c => intro e1; cases e1; rfl
      | none =>
        intro e1
        dsimp only at e1
        split at e1
        · cases e1
        · obtain ⟨_, _, _, e1⟩ := bind_ok_inv e1; cases e1
    rw [this] at e2'
    subst e2'
    have : s3 = s2 := by
      unfold M.assert at e3
      split at e3
      · cases e3; rfl
      · cases e3
    subst this
    cases e
    rfl
  · cases e; rfl

theorem gcVars_marks : ∀ (n i : Nat) {s s' : Mgr}, gcVars cfg n i s = .ok () s' → s'.marks = s.marks := by
  intro n
  induction n with
  | zero => intro i s s' e; cases e; rfl
  | succ n ih =>
    intro i s s' e
    unfold gcVars at e
    obtain ⟨_, s1, e1, e⟩ := bind_ok_inv e
    unfold removeDeadNodes at e1
    rw [M.get_bind_apply] at e1
    obtain ⟨_, s2, e2, e1⟩ := bind_ok_inv e1
    exact (ih _ e).trans ((shrinkTable_marks e1).trans (rdOuter_marks _ _ e2))

theorem collectGarbage_marks {s s' : Mgr} (e : collectGarbage cfg s = .ok () s') : s'.marks = s.marks := by
  unfold collectGarbage at e
  rw [M.get_bind_apply] at e
  obtain ⟨_, s1, e1, e⟩ := bind_ok_inv e
  cases e
  exact (gcVars_marks _ _ e1 :)

end
end LBDD
