import Verif.Proof.Coll.Export
import Verif.Proof.Bfs
/-! Canonicity of reduced entries: positions are determined by what they unfold to, and the size by the function. -/
namespace LBDD

section
variable {c c' : Coll} {nr nr' d0 d1 d0' d1' : Nat}

/-- The sinks of an entry are at different positions, one each. -/
theorem WfRange.sink_inj {ins : List Instr} (h : WfRange ins d0 d1) {i j : Nat} {e e' : Instr} (hi0 : d0 ≤ i) (hi1 : i < d1) (hj0 : d0 ≤ j) (hj1 : j < d1)
    (he : ins[i]? = some e) (he' : ins[j]? = some e') (hn : ¬ e.Inner) (hx : e.index = e'.index) : i = j := by
  have hn' : ¬ e'.Inner := by unfold Instr.Inner at *; rw [← hx]; exact hn
  have a1 := (h.inner_iff hi0 hi1 he).1
  have a2 := (h.inner_iff hj0 hj1 he').1
  have b1 : ¬ i + 2 < d1 := fun q => hn (a1.2 q)
  have b2 : ¬ j + 2 < d1 := fun q => hn' (a2.2 q)
  obtain ⟨a, b, ha, hb, _, _, h4⟩ := h.sinks
  have h2 := h.two
  have c1 : i = d1 - 2 ∨ i = d1 - 1 := by omega
  have c2 : j = d1 - 2 ∨ j = d1 - 1 := by omega
  have hne := cBot_ne_cTop
  rcases c1 with rfl | rfl <;> rcases c2 with rfl | rfl
  · rfl
  · rw [ha] at he; rw [hb] at he'; cases he; cases he'
    rcases h4 with ⟨q1, q2⟩ | ⟨q1, q2⟩
    · rw [q1, q2] at hx; exact absurd hx hne
    · rw [q1, q2] at hx; exact absurd hx.symm hne
  · rw [hb] at he; rw [ha] at he'; cases he; cases he'
    rcases h4 with ⟨q1, q2⟩ | ⟨q1, q2⟩
    · rw [q1, q2] at hx; exact absurd hx.symm hne
    · rw [q1, q2] at hx; exact absurd hx hne
  · rfl

/-- In a reduced entry different positions unfold to different trees. -/
theorem tree_inj (hw : c.Wf nr) (hr : c.Reduced nr) (he : c.Entry nr d0 d1) {t : Tree} : ∀ {i j : Nat}, d0 ≤ i → i < d1 → d0 ≤ j → j < d1 →
    CRepr c.ins i t → CRepr c.ins j t → i = j := by
  have hwr := hw.entry he
  induction t with
  | bot =>
    intro i j i0 i1 j0 j1 h h'
    cases h with
    | bot g1 g2 =>
      cases h' with
      | bot k1 k2 => exact hwr.sink_inj i0 i1 j0 j1 g1 k1 (fun q => q.1 g2) (g2.trans k2.symm)
  | top =>
    intro i j i0 i1 j0 j1 h h'
    cases h with
    | top g1 g2 =>
      cases h' with
      | top k1 k2 => exact hwr.sink_inj i0 i1 j0 j1 g1 k1 (fun q => q.2 g2) (g2.trans k2.symm)
  | node v tl th ih1 ih2 =>
    intro i j i0 i1 j0 j1 h h'
    generalize hT : Tree.node v tl th = T at h
    cases h with
    | bot => cases hT
    | top => cases hT
    | @node _ e _ _ g1 g2 g3 g4 =>
      injection hT with hv e1 e2
      subst hv; subst e1; subst e2
      generalize hT' : Tree.node e.index tl th = T at h'
      cases h' with
      | bot => cases hT'
      | top => cases hT'
      | @node _ e' _ _ k1 k2 k3 k4 =>
        injection hT' with hv e1 e2
        subst e1; subst e2
        have n1 := hwr.node i0 i1 g1 g2
        have n2 := hwr.node j0 j1 k1 k2
        have l1 : e.lo = e'.lo := ih1 (by omega) (by omega) (by omega) (by omega) g3 k3
        have l2 : e.hi = e'.hi := ih2 (by omega) (by omega) (by omega) (by omega) g4 k4
        have : e = e' := by cases e; cases e'; simp_all
        subst this
        exact hr.2 i j e ⟨d0, d1, he, i0, i1, g1⟩ ⟨d0, d1, he, j0, j1, k1⟩ g2

/-- A reduced entry unfolds to reduced trees. -/
theorem tree_reduced (hw : c.Wf nr) (hr : c.Reduced nr) (he : c.Entry nr d0 d1) {i : Nat} {t : Tree} (h : CRepr c.ins i t) (h0 : d0 ≤ i) (h1 : i < d1) :
    t.Reduced := by
  have hwr := hw.entry he
  induction h with
  | bot => trivial
  | top => trivial
  | @node i e tl th g1 g2 g3 g4 ih1 ih2 =>
    have n := hwr.node h0 h1 g1 g2
    refine ⟨?_, ih1 (by omega) (by omega), ih2 (by omega) (by omega)⟩
    rintro rfl
    exact n.2.2.1 (tree_inj hw hr he (by omega) (by omega) (by omega) (by omega) g3 g4)

/-- Following the same path in two vectors from positions with the same unfolding. -/
theorem reach_match {ins ins' : List Instr} {i k : Nat} (h : CReach ins i k) : ∀ {j : Nat} {t : Tree}, CRepr ins i t → CRepr ins' j t →
    ∃ k' tk, CReach ins' j k' ∧ CRepr ins k tk ∧ CRepr ins' k' tk := by
  induction h with
  | refl i => intro j t h1 h2; exact ⟨j, t, .refl _, h1, h2⟩
  | @lo i k e g1 g2 _ ih =>
    intro j t h1 h2
    obtain ⟨tl, th, rfl, a, b⟩ := h1.inv g1 g2
    generalize hT : Tree.node e.index tl th = T at h2
    cases h2 with
    | bot => cases hT
    | top => cases hT
    | @node _ e' _ _ k1 k2 k3 k4 =>
      injection hT with _ e1 e2
      subst e1
      obtain ⟨k', tk, q1, q2, q3⟩ := ih a k3
      exact ⟨k', tk, .lo k1 k2 q1, q2, q3⟩
  | @hi i k e g1 g2 _ ih =>
    intro j t h1 h2
    obtain ⟨tl, th, rfl, a, b⟩ := h1.inv g1 g2
    generalize hT : Tree.node e.index tl th = T at h2
    cases h2 with
    | bot => cases hT
    | top => cases hT
    | @node _ e' _ _ k1 k2 k3 k4 =>
      injection hT with _ e1 e2
      subst e2
      obtain ⟨k', tk, q1, q2, q3⟩ := ih b k4
      exact ⟨k', tk, .hi k1 k2 q1, q2, q3⟩

theorem CReach.in_range {ins : List Instr} (h : WfRange ins d0 d1) {i k : Nat} (hr : CReach ins i k) (h0 : d0 ≤ i) (h1 : i < d1) : d0 ≤ k ∧ k < d1 := by
  induction hr with
  | refl => exact ⟨h0, h1⟩
  | lo g1 g2 _ ih => have n := h.node h0 h1 g1 g2; exact ih (by omega) (by omega)
  | hi g1 g2 _ ih => have n := h.node h0 h1 g1 g2; exact ih (by omega) (by omega)

/-- An entry that is reduced and connected has at most as many positions as any entry with the same unfolding. -/
theorem size_le (hw : c.Wf nr) (hr : c.Reduced nr) (hcon : c.Connected nr) (he : c.Entry nr d0 d1) (hw' : c'.Wf nr') (he' : c'.Entry nr' d0' d1')
    {t : Tree} (ht : CRepr c.ins d0 t) (ht' : CRepr c'.ins d0' t) : d1 - d0 ≤ d1' - d0' := by
  have w := hw.entry he
  have w' := hw'.entry he'
  have two := w.two
  have two' := w'.two
  -- partners of a list of inner positions
  have key : ∀ l : List Nat, l.Nodup → (∀ i ∈ l, d0 ≤ i ∧ i + 2 < d1) → ∃ l' : List Nat, l'.length = l.length ∧ l'.Nodup ∧
      (∀ j ∈ l', j < d1' - d0' - 2) ∧ ∀ j ∈ l', ∃ i ∈ l, ∃ tt, CRepr c.ins i tt ∧ CRepr c'.ins (d0' + j) tt := by
    intro l
    induction l with
    | nil => intro _ _; exact ⟨[], rfl, List.nodup_nil, by simp, by simp⟩
    | cons i l ih =>
      intro hn hl
      rw [List.nodup_cons] at hn
      obtain ⟨l', a1, a2, a3, a4⟩ := ih hn.2 (fun k hk => hl k (by simp [hk]))
      obtain ⟨i0, i1⟩ := hl i (by simp)
      obtain ⟨e, e1, e2, _⟩ := w.inner i i0 i1
      have hin := Instr.inner_of_lt e2
      have hre := hcon d0 i e he.1 ⟨d0, d1, he, i0, by omega, e1⟩ hin
      obtain ⟨k, tk, b1, b2, b3⟩ := reach_match hre ht ht'
      obtain ⟨k0, k1⟩ := b1.in_range w' (Nat.le_refl _) (by omega)
      obtain ⟨e', f1, f2⟩ := w'.cases k0 k1
      have hk2 : k + 2 < d1' := by
        rcases f2 with f2 | f2
        · exact f2.1
        · obtain ⟨tl, th, rfl, _⟩ := b2.inv e1 hin
          generalize hT : Tree.node e.index tl th = T at b3
          cases b3 with
          | bot => cases hT
          | top => cases hT
          | @node _ e'' _ _ g1 g2 _ _ =>
            rw [f1] at g1; cases g1
            rcases f2.2.2 with q | q
            · exact absurd q g2.1
            · exact absurd q g2.2
      have hk : d0' + (k - d0') = k := by omega
      refine ⟨(k - d0') :: l', by simp [a1], ?_, ?_, ?_⟩
      · rw [List.nodup_cons]
        refine ⟨?_, a2⟩
        intro hm
        obtain ⟨i', hi', tt, g1, g2⟩ := a4 _ hm
        rw [hk] at g2
        have := g2.unique b3
        subst this
        obtain ⟨q1, q2⟩ := hl i' (by simp [hi'])
        have := tree_inj hw hr he q1 (by omega) i0 (by omega) g1 b2
        subst this
        exact hn.1 hi'
      · intro j hj
        rcases List.mem_cons.1 hj with rfl | hj
        · omega
        · exact a3 j hj
      · intro j hj
        rcases List.mem_cons.1 hj with rfl | hj
        · exact ⟨i, by simp, tk, b2, by rw [hk]; exact b3⟩
        · obtain ⟨i', h1, h2⟩ := a4 j hj
          exact ⟨i', by simp [h1], h2⟩
  obtain ⟨l', h1, h2, h3, _⟩ := key (List.range' d0 (d1 - d0 - 2)) (List.nodup_range') (by
    intro i hi
    rw [List.mem_range'_1] at hi; omega)
  have := nodup_length_le _ l' h2 h3
  rw [h1, List.length_range'] at this
  omega

theorem Tree.bound (t : Tree) : ∃ N, ∀ v, t.Mem v → v < N := by
  induction t with
  | bot => exact ⟨0, fun _ h => h.elim⟩
  | top => exact ⟨0, fun _ h => h.elim⟩
  | node v l h ih1 ih2 =>
    obtain ⟨a, ha⟩ := ih1
    obtain ⟨b, hb⟩ := ih2
    refine ⟨v + a + b + 1, ?_⟩
    rintro w (rfl | hw | hw)
    · omega
    · have := ha w hw; omega
    · have := hb w hw; omega
end
end LBDD
