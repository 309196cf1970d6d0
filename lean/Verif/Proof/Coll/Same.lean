import Verif.Proof.Coll.Finish
/-! Copies of entries. -/
namespace LBDD

theorem Coll.Wf.entry {c : Coll} {nr d0 d1 : Nat} (h : c.Wf nr) (he : c.Entry nr d0 d1) : WfRange c.ins d0 d1 := by
  obtain ⟨a, b, h1, h2⟩ := h
  obtain ⟨rfl, rfl⟩ := h1.unique he
  exact h2

/-- The first instruction of an entry unfolds to a tree. -/
theorem Coll.Wf.tree {c : Coll} {nr d0 d1 : Nat} (h : c.Wf nr) (he : c.Entry nr d0 d1) : ∃ t, CRepr c.ins d0 t := by
  have hw := h.entry he
  obtain ⟨t, ht, _⟩ := hw.exists _ d0 rfl (Nat.le_refl _) (by have := hw.two; omega)
  exact ⟨t, ht⟩

section
variable {c c' : Coll} {nr nr' : Nat}

theorem SameEntry.of_eq {d0 d1 : Nat} (hw : WfRange c.ins d0 d1) (h : c.Entry nr d0 d1) (h' : c'.Entry nr' d0 d1)
    (hs : ∀ i, d0 ≤ i → i < d1 → c'.ins[i]? = c.ins[i]?) : SameEntry c nr c' nr' := by
  have h2 := hw.two
  have e : d0 + (d1 - d0) = d1 := by omega
  refine ⟨d0, d0, d1 - d0, by rw [e]; exact h, by rw [e]; exact h', ?_⟩
  intro i hi
  obtain ⟨e, he, hc⟩ := hw.cases (i := d0 + i) (by omega) (by omega)
  refine ⟨e, e, he, by rw [hs _ (by omega) (by omega)]; exact he, rfl, fun _ => rfl, ?_⟩
  intro hin
  have := hw.node (by omega) (by omega) he hin
  omega

theorem SameEntry.refl (h : c.Wf nr) : SameEntry c nr c nr := by
  obtain ⟨d0, d1, h1, h2⟩ := h
  exact .of_eq h2 h1 h1 (fun _ _ _ => rfl)

theorem SameEntry.wf (h : SameEntry c nr c' nr') (hw : c.Wf nr) : c'.Wf nr' := by
  obtain ⟨d0, d0', n, he, he', hs⟩ := h
  have hw := hw.entry he
  have h2 := hw.two
  refine ⟨d0', d0' + n, he', by omega, ?_, ?_⟩
  · intro i h0 h1
    obtain ⟨e, e', a1, a2, a3, _, a5⟩ := hs (i - d0') (by omega)
    obtain ⟨b1, b2, b3, b4, b5, b6, b7⟩ := hw.node (by omega) (by omega) a1 ((hw.inner_iff (by omega) (by omega) a1).1.2 (by omega))
    obtain ⟨c1, c2, c3, c4⟩ := a5 (Instr.inner_of_lt b2)
    have : d0' + (i - d0') = i := by omega
    rw [this] at a2
    exact ⟨e', a2, by omega, by omega, by omega, by omega, by omega, by omega⟩
  · obtain ⟨a, b, ha, hb, h3, h4, h5⟩ := hw.sinks
    obtain ⟨e, e', a1, a2, a3, a4, _⟩ := hs (n - 2) (by omega)
    obtain ⟨f, f', b1, b2, b3, b4, _⟩ := hs (n - 1) (by omega)
    rw [show d0 + (n - 2) = d0 + n - 2 by omega, ha] at a1
    rw [show d0 + (n - 1) = d0 + n - 1 by omega, hb] at b1
    cases a1; cases b1
    rw [show d0' + (n - 2) = d0' + n - 2 by omega] at a2
    rw [show d0' + (n - 1) = d0' + n - 1 by omega] at b2
    have n1 : ¬ a.Inner := by
      intro h
      rcases h5 with ⟨h5, _⟩ | ⟨h5, _⟩
      · exact h.1 h5
      · exact h.2 h5
    have n2 : ¬ b.Inner := by
      intro h
      rcases h5 with ⟨_, h5⟩ | ⟨_, h5⟩
      · exact h.2 h5
      · exact h.1 h5
    have := a4 n1; subst this
    have := b4 n2; subst this
    exact ⟨_, _, a2, b2, h3, h4, h5⟩

theorem SameEntry.at (h : SameEntry c nr c' nr') {i : Nat} {e : Instr} (ha : c.At nr i e) :
    ∃ d0 d0' e', c.del[nr]? = some d0 ∧ c'.del[nr']? = some d0' ∧ d0 ≤ i ∧ c'.At nr' (i - d0 + d0') e' ∧ e'.index = e.index ∧ (¬ e.Inner → e' = e) ∧
      (e.Inner → d0 ≤ e.lo ∧ d0 ≤ e.hi ∧ e'.lo = e.lo - d0 + d0' ∧ e'.hi = e.hi - d0 + d0') := by
  obtain ⟨d0, d0', n, he, he', hs⟩ := h
  obtain ⟨a, b, h1, h2, h3, h4⟩ := ha
  obtain ⟨rfl, rfl⟩ := h1.unique he
  obtain ⟨f, f', a1, a2, a3, a4, a5⟩ := hs (i - a) (by omega)
  rw [show a + (i - a) = i by omega, h4] at a1
  cases a1
  refine ⟨a, d0', f', he.1, he'.1, h2, ⟨d0', d0' + n, he', by omega, by omega, ?_⟩, a3, a4, a5⟩
  rw [show i - a + d0' = d0' + (i - a) by omega]; exact a2

theorem SameEntry.symm (h : SameEntry c nr c' nr') : SameEntry c' nr' c nr := by
  obtain ⟨d0, d0', n, he, he', hs⟩ := h
  refine ⟨d0', d0, n, he', he, ?_⟩
  intro i hi
  obtain ⟨e, e', a1, a2, a3, a4, a5⟩ := hs i hi
  have hii : e'.Inner ↔ e.Inner := by unfold Instr.Inner; rw [a3]
  refine ⟨e', e, a2, a1, a3.symm, fun h => (a4 (fun h' => h (hii.2 h'))).symm, fun h => ?_⟩
  have := a5 (hii.1 h)
  omega

theorem SameEntry.trans {c'' : Coll} {nr'' : Nat} (h : SameEntry c nr c' nr') (h' : SameEntry c' nr' c'' nr'') : SameEntry c nr c'' nr'' := by
  obtain ⟨d0, d1, n, he, he1, hs⟩ := h
  obtain ⟨d1', d2, n', he1', he2, hs'⟩ := h'
  obtain ⟨rfl, hn⟩ := he1.unique he1'
  have : n = n' := by omega
  subst this
  refine ⟨d0, d2, n, he, he2, ?_⟩
  intro i hi
  obtain ⟨e, e', a1, a2, a3, a4, a5⟩ := hs i hi
  obtain ⟨f, f', b1, b2, b3, b4, b5⟩ := hs' i hi
  rw [a2] at b1; cases b1
  have hii : e'.Inner ↔ e.Inner := by unfold Instr.Inner; rw [a3]
  refine ⟨e, f', a1, b2, b3.trans a3, fun h => (b4 (fun h' => h (hii.1 h'))).trans (a4 h), fun h => ?_⟩
  have := a5 h
  have := b5 (hii.2 h)
  omega

theorem SameEntry.var (h : SameEntry c nr c' nr') (v : Nat) : c'.Var nr' v ↔ c.Var nr v := by
  have key : ∀ {c c' : Coll} {nr nr' : Nat}, SameEntry c nr c' nr' → c.Var nr v → c'.Var nr' v := by
    rintro c c' nr nr' h ⟨i, e, ha, hin, hv⟩
    obtain ⟨d0, d0', e', h1, h2, h3, h4, h5, _⟩ := h.at ha
    exact ⟨_, e', h4, by unfold Instr.Inner at *; rw [h5]; exact hin, h5.trans hv⟩
  exact ⟨key h.symm, key h⟩

theorem SameEntry.covers (h : SameEntry c nr c' nr') (x : List Bool) : CCovers c' nr' x ↔ CCovers c nr x := by
  unfold CCovers
  simp only [h.var]

theorem SameEntry.repr {d0 d0' d1 : Nat} {t : Tree} (h : SameEntry c nr c' nr') (hw : c.Wf nr) (he : c.Entry nr d0 d1) (he' : c'.del[nr']? = some d0')
    (ht : CRepr c.ins d0 t) : CRepr c'.ins d0' t := by
  have hr := hw.entry he
  obtain ⟨a, a', n, g1, g2, hs⟩ := h
  obtain ⟨rfl, rfl⟩ := he.unique g1
  have : a' = d0' := by have := g2.1; rw [he'] at this; injection this with this; exact this.symm
  subst this
  have h2 := hr.two
  have := CRepr.map (ins := c.ins) (ins' := c'.ins) (fun i => d0 ≤ i ∧ i < d0 + n) (fun i => i - d0 + a') (fun v => v)
    (fun i e hp hi hn => by
      obtain ⟨f, f', b1, b2, b3, _⟩ := hs (i - d0) (by omega)
      rw [show d0 + (i - d0) = i by omega, hi] at b1; cases b1
      rw [show a' + (i - d0) = i - d0 + a' by omega] at b2
      exact ⟨f', b2, b3⟩)
    (fun i e hp hi hn => by
      obtain ⟨f, f', b1, b2, b3, b4, b5⟩ := hs (i - d0) (by omega)
      rw [show d0 + (i - d0) = i by omega, hi] at b1; cases b1
      rw [show a' + (i - d0) = i - d0 + a' by omega] at b2
      have hn' := hr.node hp.1 hp.2 hi hn
      have hb := b5 hn
      exact ⟨⟨hb.1, by omega⟩, ⟨hb.2.1, by omega⟩, f', b2, by unfold Instr.Inner at *; rw [b3]; exact hn, b3, hb.2.2.1, hb.2.2.2⟩) ht
    ⟨Nat.le_refl _, by omega⟩
  rw [Tree.ren_id, show d0 - d0 + a' = a' by omega] at this
  exact this

theorem SameEntry.entries (h : SameEntry c nr c' nr') : ∃ d0 d1 d0' d1', c.Entry nr d0 d1 ∧ c'.Entry nr' d0' d1' ∧ d1' - d0' = d1 - d0 := by
  obtain ⟨a, a', n, g1, g2, hs⟩ := h
  exact ⟨a, a + n, a', a' + n, g1, g2, by omega⟩

/-- A copy evaluates alike. -/
theorem SameEntry.eval (h : SameEntry c nr c' nr') (hw : c.Wf nr) {cfg : Cfg} {x : List Bool} (hx : CCovers c nr x) :
    cEvaluate cfg c' nr' x = cEvaluate cfg c nr x := by
  obtain ⟨d0, d1, d0', d1', h1, h2, _⟩ := h.entries
  obtain ⟨t, ht⟩ := hw.tree h1
  have hw' := h.wf hw
  have ht' := h.repr hw h1 h2.1 ht
  rw [cEvaluate_ok h1 (hw.entry h1) ht (hx.mem h1 (hw.entry h1) ht),
    cEvaluate_ok h2 (hw'.entry h2) ht' (((h.covers x).2 hx).mem h2 (hw'.entry h2) ht')]

theorem SameEntry.denotes (h : SameEntry c nr c' nr') (hw : c.Wf nr) {cfg : Cfg} {F : List Bool → Bool} (hd : CDenotes cfg c nr F) : CDenotes cfg c' nr' F := by
  intro x hx
  rw [h.eval hw ((h.covers x).1 hx)]; exact hd x ((h.covers x).1 hx)

theorem SameEntry.size (h : SameEntry c nr c' nr') (k : Nat) : c'.Size nr' k ↔ c.Size nr k := by
  have key : ∀ {c c' : Coll} {nr nr' : Nat}, SameEntry c nr c' nr' → c.Size nr k → c'.Size nr' k := by
    rintro c c' nr nr' ⟨a, a', n, g1, g2, _⟩ ⟨d0, d1, h1, h2⟩
    obtain ⟨rfl, rfl⟩ := h1.unique g1
    exact ⟨a', a' + n, g2, by omega⟩
  exact ⟨key h.symm, key h⟩

theorem SameEntry.ordered (h : SameEntry c nr c' nr') (ho : c.Ordered nr) : c'.Ordered nr' := by
  intro i e j e' ha hin hj ha' hin'
  obtain ⟨d, d', f, h1, h2, h3, h4, h5, _, h6⟩ := h.symm.at ha
  obtain ⟨g, g', f', k1, k2, k3, k4, k5, _⟩ := h.symm.at ha'
  rw [h1] at k1; cases k1
  rw [h2] at k2; cases k2
  have hf : f.Inner := by unfold Instr.Inner at *; rw [h5]; exact hin
  have hf' : f'.Inner := by unfold Instr.Inner at *; rw [k5]; exact hin'
  have := ho _ f _ f' h4 hf (by have := h6 hin; rcases hj with rfl | rfl; exact Or.inl this.2.2.1.symm; exact Or.inr this.2.2.2.symm) k4 hf'
  rw [h5, k5] at this
  exact this

theorem SameEntry.reduced (h : SameEntry c nr c' nr') (ho : c.Reduced nr) : c'.Reduced nr' := by
  refine ⟨?_, ?_⟩
  · intro i e ha hin
    obtain ⟨d, d', f, h1, h2, h3, h4, h5, _, h6⟩ := h.symm.at ha
    have hf : f.Inner := by unfold Instr.Inner at *; rw [h5]; exact hin
    have := ho.1 _ f h4 hf
    have := h6 hin
    omega
  · intro i j e ha hb hin
    obtain ⟨d, d', f, h1, h2, h3, h4, h5, _, h6⟩ := h.symm.at ha
    obtain ⟨g, g', f', k1, k2, k3, k4, k5, _, k6⟩ := h.symm.at hb
    rw [h1] at k1; cases k1
    rw [h2] at k2; cases k2
    have hf : f.Inner := by unfold Instr.Inner at *; rw [h5]; exact hin
    have q1 := h6 hin
    have q2 := k6 hin
    have : f' = f := by
      cases f; cases f'
      simp only [Instr.mk.injEq] at *
      omega
    subst this
    have := ho.2 _ _ f' h4 k4 hf
    omega

end
end LBDD
