import Verif.Proof.Size
/-! The subtrees of a result are results of subtrees of the operands. -/
namespace LBDD

theorem Tree.SubL.trans {t u w : Tree} (h1 : t.SubL u) (h2 : u.SubL w) : t.SubL w := by
  induction t with
  | bot => rw [show u = .bot from h1] at h2; exact h2
  | top => rw [show u = .top from h1] at h2; exact h2
  | node v l h ihl ihh =>
    rcases h1 with h1 | h1 | h1
    · rw [h1] at h2; exact h2
    · exact Or.inr (Or.inl (ihl h1))
    · exact Or.inr (Or.inr (ihh h1))

theorem cof_subL (c b : Bool) (t : Tree) : t.SubL (cof c b t) := by
  cases t with
  | bot => exact .refl _
  | top => exact .refl _
  | node v l h =>
    cases c
    · exact .refl _
    · cases b
      · exact Or.inr (Or.inl (.refl _))
      · exact Or.inr (Or.inr (.refl _))

theorem mkTree_sub {v : Nat} {l h u : Tree} (hs : (mkTree v l h).Sub u) : u = mkTree v l h ∨ l.Sub u ∨ h.Sub u := by
  unfold mkTree at hs ⊢
  split at hs
  · exact Or.inr (Or.inl hs)
  · rw [if_neg (by assumption)]
    exact hs

/-- If a property of the trivial cases and of whole results passes to subtrees of the operands, it holds of every subtree of a result. -/
theorem meldT_sub {leaf : Tree → Tree → Option Tree} {pick : Nat → Nat → Nat} (hp : ∀ a b, pick a b = a ∨ pick a b = b)
    (hl : ∀ f g t, leaf f g = some t → ∀ u, t.Sub u → ∃ f' g', f.SubL f' ∧ g.SubL g' ∧ u = meldT leaf pick f' g')
    (hn : ∀ f g, leaf f g = none → (∃ v l h, f = .node v l h) ∧ ∃ v l h, g = .node v l h) :
    ∀ (n : Nat) (f g u : Tree), f.height + g.height < n → (meldT leaf pick f g).Sub u → ∃ f' g', f.SubL f' ∧ g.SubL g' ∧ u = meldT leaf pick f' g' := by
  intro n
  induction n with
  | zero => intro f g u h; omega
  | succ n ih =>
    intro f g u hh hs
    cases e : leaf f g with
    | some t => rw [meldT_leaf e] at hs; exact hl f g t e u hs
    | none =>
      obtain ⟨⟨vf, fl, fh, rfl⟩, vg, gl, gh, rfl⟩ := hn f g e
      have h0 := cof2_lt hp vf vg fl fh gl gh false
      have h1 := cof2_lt hp vf vg fl fh gl gh true
      have hs' := hs
      rw [meldT_node hp e] at hs'
      rcases mkTree_sub hs' with h | h | h
      · exact ⟨_, _, .refl _, .refl _, by rw [meldT_node hp e]; exact h⟩
      · obtain ⟨f', g', a, b, c⟩ := ih _ _ u (by omega) h
        exact ⟨f', g', (cof_subL ..).trans a, (cof_subL ..).trans b, c⟩
      · obtain ⟨f', g', a, b, c⟩ := ih _ _ u (by omega) h
        exact ⟨f', g', (cof_subL ..).trans a, (cof_subL ..).trans b, c⟩

theorem tAnd_sub {f g u : Tree} (h : (tAnd f g).Sub u) : ∃ f' g', f.SubL f' ∧ g.SubL g' ∧ u = tAnd f' g' := by
  refine meldT_sub pickMin_or ?_ ?_ _ f g u (Nat.lt_succ_self _) h
  · intro f g t e u hs
    unfold andLeaf at e
    split at e
    · rename_i h; cases e; subst h
      exact ⟨u, u, hs.subL, hs.subL, (tAnd_same u).symm⟩
    · split at e
      · cases e; exact hs.elim
      · split at e
        · rename_i h; cases e; subst h
          exact ⟨.top, u, .refl _, hs.subL, (tAnd_top u).symm⟩
        · split at e
          · rename_i h; cases e; subst h
            exact ⟨u, .top, hs.subL, .refl _, by rw [show meldT andLeaf pickMin u .top = tAnd u .top from rfl, tAnd_comm, tAnd_top]⟩
          · cases e
  · intro f g e
    unfold andLeaf at e
    cases f <;> cases g <;> simp at e ⊢

theorem tOr_sub {f g u : Tree} (h : (tOr f g).Sub u) : ∃ f' g', f.SubL f' ∧ g.SubL g' ∧ u = tOr f' g' := by
  refine meldT_sub pickMin_or ?_ ?_ _ f g u (Nat.lt_succ_self _) h
  · intro f g t e u hs
    unfold orLeaf at e
    split at e
    · rename_i h; cases e; subst h
      exact ⟨u, u, hs.subL, hs.subL, (tOr_same u).symm⟩
    · split at e
      · cases e; exact hs.elim
      · split at e
        · rename_i h; cases e; subst h
          exact ⟨.bot, u, .refl _, hs.subL, (tOr_bot u).symm⟩
        · split at e
          · rename_i h; cases e; subst h
            exact ⟨u, .bot, hs.subL, .refl _, by rw [show meldT orLeaf pickMin u .bot = tOr u .bot from rfl, tOr_comm, tOr_bot]⟩
          · cases e
  · intro f g e
    unfold orLeaf at e
    cases f <;> cases g <;> simp at e ⊢

theorem negTree_subs {t u : Tree} (h : (negTree t).Sub u) : ∃ w, t.Sub w ∧ u = negTree w := by
  induction t with
  | bot => exact h.elim
  | top => exact h.elim
  | node v l r ihl ihh =>
    rcases h with h | h | h
    · exact ⟨_, Or.inl rfl, h⟩
    · obtain ⟨w, a, b⟩ := ihl h; exact ⟨w, Or.inr (Or.inl a), b⟩
    · obtain ⟨w, a, b⟩ := ihh h; exact ⟨w, Or.inr (Or.inr a), b⟩

theorem tXor_sub {f g u : Tree} (h : (tXor f g).Sub u) : ∃ f' g', f.SubL f' ∧ g.SubL g' ∧ u = tXor f' g' := by
  refine meldT_sub pickMax_or ?_ ?_ _ f g u (Nat.lt_succ_self _) h
  · intro f g t e u hs
    unfold xorLeaf at e
    split at e
    · cases e; exact hs.elim
    · split at e
      · rename_i h; cases e; subst h
        exact ⟨.bot, u, .refl _, hs.subL, (tXor_bot u).symm⟩
      · split at e
        · rename_i h; cases e; subst h
          exact ⟨u, .bot, hs.subL, .refl _, by rw [show meldT xorLeaf pickMax u .bot = tXor u .bot from rfl, tXor_comm, tXor_bot]⟩
        · split at e
          · rename_i h; cases e; subst h
            obtain ⟨w, a, b⟩ := negTree_subs hs
            exact ⟨.top, w, .refl _, a.subL, by rw [b]; exact (tXor_top w).symm⟩
          · split at e
            · rename_i h; cases e; subst h
              obtain ⟨w, a, b⟩ := negTree_subs hs
              exact ⟨w, .top, a.subL, .refl _, by rw [b, show meldT xorLeaf pickMax w .top = tXor w .top from rfl, tXor_comm, tXor_top]⟩
            · cases e
  · intro f g e
    unfold xorLeaf at e
    cases f <;> cases g <;> simp at e ⊢

theorem tIte_same (f h : Tree) : tIte f f h = tOr f h := by
  cases f with
  | bot => rw [tIte_leaf (t := h) (by simp [iteLeaf]), tOr_bot]
  | top => rw [tIte_leaf (t := .top) (by simp [iteLeaf]), tOr_top]
  | node v l r => exact tIte_leaf (by simp [iteLeaf])

theorem tIte_top (f h : Tree) : tIte f .top h = tOr f h := by
  cases f with
  | bot => rw [tIte_leaf (t := h) (by simp [iteLeaf]), tOr_bot]
  | top => rw [tIte_leaf (t := .top) (by simp [iteLeaf]), tOr_top]
  | node v l r => exact tIte_leaf (by simp [iteLeaf])

theorem tIte_bot (f g : Tree) : tIte f g .bot = tAnd f g := by
  cases f with
  | bot => rw [tIte_leaf (t := .bot) (by simp [iteLeaf]), tAnd_bot]
  | top => rw [tIte_leaf (t := g) (by simp [iteLeaf]), tAnd_top]
  | node v l r =>
    by_cases h : g = .node v l r
    · rw [h, tIte_same, tAnd_same, tOr_comm, tOr_bot]
    · by_cases h' : g = .top
      · rw [h', tIte_top, tOr_comm, tOr_bot, tAnd_comm, tAnd_top]
      · exact tIte_leaf (by simp [iteLeaf, h, h'])

theorem tIte_self (f g : Tree) : tIte f g f = tAnd f g := by
  cases f with
  | bot => rw [tIte_leaf (t := .bot) (by simp [iteLeaf]), tAnd_bot]
  | top => rw [tIte_leaf (t := g) (by simp [iteLeaf]), tAnd_top]
  | node v l r =>
    by_cases h : g = .node v l r
    · rw [h, tIte_same, tAnd_same, tOr_same]
    · by_cases h' : g = .top
      · rw [h', tIte_top, tOr_same, tAnd_comm, tAnd_top]
      · exact tIte_leaf (by simp [iteLeaf, h, h'])

theorem tIte_neg (f : Tree) : tIte f .bot .top = negTree f := by
  cases f <;> exact tIte_leaf (by simp [iteLeaf, negTree])

theorem tIte_eq (f g : Tree) : tIte f g g = g := by
  cases f with
  | bot => exact tIte_leaf (by simp [iteLeaf])
  | top => exact tIte_leaf (by simp [iteLeaf])
  | node v l r =>
    by_cases h : g = .node v l r
    · rw [h, tIte_same, tOr_same]
    · by_cases h' : g = .top
      · rw [h', tIte_top, tOr_comm, tOr_top]
      · by_cases h2 : g = .bot
        · rw [h2, tIte_bot, tAnd_comm, tAnd_bot]
        · exact tIte_leaf (by simp [iteLeaf, h, h', h2])

theorem tIte_sub : ∀ (n : Nat) (f g h u : Tree), f.height + g.height + h.height < n → (tIte f g h).Sub u →
    ∃ f' g' h', f.SubL f' ∧ g.SubL g' ∧ h.SubL h' ∧ u = tIte f' g' h' := by
  intro n
  induction n with
  | zero => intro f g h u hh; omega
  | succ n ih =>
    intro f g h u hh hs
    cases e : iteLeaf f g h with
    | some t =>
      rw [tIte_leaf e] at hs
      unfold iteLeaf at e
      split at e
      · rename_i hf; cases e; subst hf
        exact ⟨.top, u, h, .refl _, hs.subL, .refl _, (tIte_leaf (by simp [iteLeaf])).symm⟩
      split at e
      · rename_i hf; cases e; subst hf
        exact ⟨.bot, g, u, .refl _, .refl _, hs.subL, (tIte_leaf (by simp [iteLeaf])).symm⟩
      split at e
      · rename_i hg; cases e
        obtain ⟨f', h', a, b, c⟩ := tOr_sub hs
        rcases hg with hg | hg
        · subst hg; exact ⟨f', f', h', a, a, b, by rw [tIte_same]; exact c⟩
        · subst hg; exact ⟨f', .top, h', a, .refl _, b, by rw [tIte_top]; exact c⟩
      split at e
      · rename_i hg; cases e
        obtain ⟨f', g', a, b, c⟩ := tAnd_sub hs
        rcases hg with hg | hg
        · subst hg; exact ⟨f', g', f', a, b, a, by rw [tIte_self]; exact c⟩
        · subst hg; exact ⟨f', g', .bot, a, b, .refl _, by rw [tIte_bot]; exact c⟩
      split at e
      · rename_i hg; cases e; subst hg
        exact ⟨f, u, u, .refl _, hs.subL, hs.subL, (tIte_eq f u).symm⟩
      split at e
      · rename_i hg; cases e; obtain ⟨rfl, rfl⟩ := hg
        obtain ⟨w, a, b⟩ := negTree_subs hs
        exact ⟨w, .bot, .top, a.subL, .refl _, .refl _, by rw [b, tIte_neg]⟩
      · cases e
    | none =>
      cases f with
      | bot => simp [iteLeaf] at e
      | top => simp [iteLeaf] at e
      | node vf fl fh =>
      have h0 := cof3_lt vf fl fh g h false
      have h1 := cof3_lt vf fl fh g h true
      have hs' := hs
      rw [tIte_node e] at hs'
      rcases mkTree_sub hs' with h | h | h
      · exact ⟨_, _, _, .refl _, .refl _, .refl _, by rw [tIte_node e]; exact h⟩
      · obtain ⟨f', g', h', a, b, c, d⟩ := ih _ _ _ u (by omega) h
        exact ⟨f', g', h', (cof_subL ..).trans a, (cof_subL ..).trans b, (cof_subL ..).trans c, d⟩
      · obtain ⟨f', g', h', a, b, c, d⟩ := ih _ _ _ u (by omega) h
        exact ⟨f', g', h', (cof_subL ..).trans a, (cof_subL ..).trans b, (cof_subL ..).trans c, d⟩
end LBDD
