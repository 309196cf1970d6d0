import Verif.Proof.GcHeap
/-! Every run of `collect_garbage` that returns keeps all nodes reachable from handles. -/
namespace LBDD
section
variable {cfg : Cfg} {refs : Nat → Nat}

theorem lift_ok_inv {σ α : Type} {e : Except Stop α} {s s' : σ} {a : α} (h : M.lift e s = .ok a s') : e = .ok a ∧ s' = s := by
  cases e with
  | ok b => cases h; exact ⟨rfl, rfl⟩
  | error x => cases x <;> cases h

theorem storeSlot_run {v k : Nat} {o : Option Nat} {s s' : Mgr} (h : HeapOk refs s) (e : storeSlot v k o s = .ok () s') : GcRun refs s s' := by
  cases e; exact .congr h rfl rfl rfl rfl

theorem incFree_run {v : Nat} {s s' : Mgr} (h : HeapOk refs s) (e : incFree v s = .ok () s') : GcRun refs s s' := by
  cases e; exact .congr h rfl rfl rfl rfl

theorem rdInner_run {v : Nat} : ∀ (n j : Nat) {s s' : Mgr} {r : Nat}, HeapOk refs s → rdInner v n j s = .ok r s' → GcRun refs s s' := by
  intro n
  induction n with
  | zero => intro j s s' r _ e; cases e
  | succ n ih =>
    intro j s s' r h e
    unfold rdInner at e
    rw [M.get_bind_apply] at e
    split at e
    · cases e
    · cases hs : (s.tabs v).slots (j &&& (s.tabs v).mask) with
      | none => rw [hs] at e; cases e; exact .refl h
      | some p =>
        rw [hs] at e
        dsimp only at e
        split at e
        · obtain ⟨_, s1, e1, e⟩ := bind_ok_inv e
          obtain ⟨_, s2, e2, e⟩ := bind_ok_inv e
          have h1 := storeSlot_run h e1
          have h2 := incFree_run h1.ok e2
          exact (h1.trans h2).trans (ih _ h2.ok e)
        · split at e
          · cases e
          · obtain ⟨k, s1, e1, e'⟩ := bind_ok_inv e
            obtain ⟨_, s2, e2, e''⟩ := bind_ok_inv e'
            obtain ⟨_, rfl⟩ := lift_ok_inv e1
            have h1 := storeSlot_run h e2
            exact h1.trans (ih _ h1.ok e'')

theorem rdOuter_run {v : Nat} : ∀ (n k : Nat) {s s' : Mgr}, HeapOk refs s → rdOuter cfg v n k s = .ok () s' → GcRun refs s s' := by
  intro n
  induction n with
  | zero => intro j s s' _ e; cases e
  | succ n ih =>
    intro k s s' h e
    unfold rdOuter at e
    rw [M.get_bind_apply] at e
    split at e
    · cases e; exact .refl h
    · split at e
      · cases e
      · cases hs : (s.tabs v).slots k with
        | none => rw [hs] at e; exact ih _ h e
        | some p =>
          rw [hs] at e
          dsimp only at e
          split at e
          · rename_i hx
            obtain ⟨_, s1, e1, f1⟩ := bind_ok_inv e
            obtain ⟨_, s2, e2, f2⟩ := bind_ok_inv f1
            obtain ⟨_, s3, e3, f3⟩ := bind_ok_inv f2
            obtain ⟨j, s4, e4, f4⟩ := bind_ok_inv f3
            obtain ⟨hl, _, rfl⟩ := freeNode_inv e1
            have h1 := freedState_run h hl hx
            have h2 := storeSlot_run h1.ok e2
            have h3 := incFree_run h2.ok e3
            have h4 := rdInner_run _ _ h3.ok e4
            exact (((h1.trans h2).trans h3).trans h4).trans (ih _ h4.ok f4)
          · exact ih _ h e

theorem shrinkTable_run {v : Nat} {s s' : Mgr} (h : HeapOk refs s) (e : shrinkTable cfg v s = .ok () s') : GcRun refs s s' := by
  unfold shrinkTable at e
  rw [M.get_bind_apply] at e
  simp only at e
  split at e
  · obtain ⟨c, s1, e1, e⟩ := bind_ok_inv e
    obtain ⟨nb, s2, e2, e⟩ := bind_ok_inv e
    obtain ⟨_, s3, e3, e⟩ := bind_ok_inv e
    obtain ⟨_, e2'⟩ := lift_ok_inv e2
    have : s1 = s := by
      unfold newPage at e1
      revert e1
      generalize pageCapFor _ = o
      cases o with
      | some c => intro e1; cases e1; rfl
      | none =>
        intro e1
        dsimp only at e1
        split at e1
        · cases e1
        · obtain ⟨_, _, _, e1⟩ := bind_ok_inv e1; cases e1
    rw [this] at e2'
    subst e2'
    have : s3 = s2 := by
      unfold M.assert at e3
      split at e3
      · cases e3; rfl
      · cases e3
    subst this
    cases e
    exact .congr h rfl rfl rfl rfl
  · cases e; exact .refl h

theorem gcVars_run : ∀ (n i : Nat) {s s' : Mgr}, HeapOk refs s → gcVars cfg n i s = .ok () s' → GcRun refs s s' := by
  intro n
  induction n with
  | zero => intro i s s' h e; cases e; exact .refl h
  | succ n ih =>
    intro i s s' h e
    unfold gcVars at e
    obtain ⟨_, s1, e1, e⟩ := bind_ok_inv e
    unfold removeDeadNodes at e1
    rw [M.get_bind_apply] at e1
    obtain ⟨_, s2, e2, e1⟩ := bind_ok_inv e1
    have h1 := rdOuter_run _ _ h e2
    have h2 := shrinkTable_run h1.ok e1
    exact (h1.trans h2).trans (ih _ h2.ok e)

/-- Whatever the layout of the tables: a call of `collect_garbage` that returns keeps everything reachable from handles. -/
theorem collectGarbage_run {s s' : Mgr} (h : HeapOk refs s) (e : collectGarbage cfg s = .ok () s') : GcRun refs s s' := by
  unfold collectGarbage at e
  rw [M.get_bind_apply] at e
  obtain ⟨_, s1, e1, e⟩ := bind_ok_inv e
  have h1 := gcVars_run _ _ h e1
  cases e
  exact h1.trans (.congr h1.ok rfl rfl rfl rfl)
end
end LBDD
