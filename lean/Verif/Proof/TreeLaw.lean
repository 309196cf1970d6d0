import Verif.Proof.TreeSize
/-! Laws of the operations on decision trees that hold whatever the order of the variables. -/
namespace LBDD

theorem negTree_eq_iff {t u : Tree} : negTree t = negTree u ↔ t = u := ⟨negTree_inj, fun h => h ▸ rfl⟩
theorem negTree_eq_bot {t : Tree} : negTree t = .bot ↔ t = .top := by cases t <;> simp [negTree]
theorem negTree_eq_top {t : Tree} : negTree t = .top ↔ t = .bot := by cases t <;> simp [negTree]

theorem negTree_height (t : Tree) : (negTree t).height = t.height := by
  induction t with
  | bot => rfl
  | top => rfl
  | node v l h ihl ihh => simp only [negTree, Tree.height, ihl, ihh]

theorem cof_neg (c b : Bool) (t : Tree) : cof c b (negTree t) = negTree (cof c b t) := by
  cases t with
  | bot => rfl
  | top => rfl
  | node v l h => cases c <;> cases b <;> rfl

theorem mkTree_neg (v : Nat) (l h : Tree) : mkTree v (negTree l) (negTree h) = negTree (mkTree v l h) := by
  unfold mkTree
  by_cases e : l = h
  · rw [if_pos (by rw [e]), if_pos e]
  · rw [if_neg (fun h => e (negTree_inj h)), if_neg e]; rfl

theorem orLeaf_neg (f g : Tree) : orLeaf (negTree f) (negTree g) = (andLeaf f g).map negTree := by
  unfold orLeaf andLeaf
  simp only [negTree_eq_iff, negTree_eq_bot, negTree_eq_top]
  split
  · rfl
  split
  · rfl
  split
  · rfl
  split
  · rfl
  · rfl

/-- De Morgan's law on trees. -/
theorem tOr_neg : ∀ (n : Nat) (f g : Tree), f.height + g.height < n → tOr (negTree f) (negTree g) = negTree (tAnd f g) := by
  intro n
  induction n with
  | zero => intro f g h; omega
  | succ n ih =>
    intro f g hh
    cases e : andLeaf f g with
    | some t =>
      have : orLeaf (negTree f) (negTree g) = some (negTree t) := by rw [orLeaf_neg, e]; rfl
      rw [show tAnd f g = t from meldT_leaf e]
      exact meldT_leaf this
    | none =>
      have e' : orLeaf (negTree f) (negTree g) = none := by rw [orLeaf_neg, e]; rfl
      have hn : (∃ v l h, f = .node v l h) ∧ ∃ v l h, g = .node v l h := by
        unfold andLeaf at e
        cases f <;> cases g <;> simp at e ⊢
      obtain ⟨⟨vf, fl, fh, rfl⟩, vg, gl, gh, rfl⟩ := hn
      have h0 := cof2_lt pickMin_or vf vg fl fh gl gh false
      have h1 := cof2_lt pickMin_or vf vg fl fh gl gh true
      have i0 := ih _ _ (Nat.lt_of_lt_of_le h0 (by omega))
      have i1 := ih _ _ (Nat.lt_of_lt_of_le h1 (by omega))
      rw [← cof_neg, ← cof_neg] at i0 i1
      rw [show tAnd (.node vf fl fh) (.node vg gl gh) = _ from meldT_node pickMin_or e, ← mkTree_neg]
      refine (meldT_node pickMin_or e').trans ?_
      exact congr (congrArg _ i0) i1

theorem tOr_negTree (f g : Tree) : tOr (negTree f) (negTree g) = negTree (tAnd f g) := tOr_neg _ f g (Nat.lt_succ_self _)

theorem tAnd_negTree (f g : Tree) : tAnd (negTree f) (negTree g) = negTree (tOr f g) := by
  have := tOr_negTree (negTree f) (negTree g)
  rw [negTree_negTree, negTree_negTree] at this
  rw [this, negTree_negTree]
end LBDD
