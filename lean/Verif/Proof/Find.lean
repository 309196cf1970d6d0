import Verif.Proof.Unique
/-! Specification of `unique_find`. -/
namespace LBDD
section
variable {cfg : Cfg} {md : Md} {refs : Nat → Nat} {s : Mgr}

theorem mkTree_eval (v : Nat) (tl th : Tree) (x : Assign) :
    (mkTree v tl th).eval x = if x v then th.eval x else tl.eval x := by
  unfold mkTree
  split
  · rename_i h; subst h; simp
  · rfl

theorem mkTree_mem {v w : Nat} {tl th : Tree} (h : (mkTree v tl th).Mem w) : w = v ∨ tl.Mem w ∨ th.Mem w := by
  unfold mkTree at h
  split at h
  · exact Or.inr (Or.inl h)
  · exact h

theorem insertNode_ok (hi : Inv cfg md refs s) {v l h : Nat} {tl th : Tree} (hv : v < s.nvars) (hlh : l ≠ h)
    (hl : Repr s.cells l tl) (hh : Repr s.cells h th)
    (hord : md.ordered → ∀ w, tl.Mem w ∨ th.Mem w → v < w)
    (hnew : ∀ p, 2 ≤ p → (s.cells p).live = true → (s.cells p).index = v →
      ¬ ((s.cells p).lo = l ∧ (s.cells p).hi = h)) :
    Spec cfg md refs (insertNode cfg v l h) s
      (fun p s' => Repr s'.cells p (.node v tl th) ∧ s'.pool.total = s.pool.total + 1 ∧ New s s' p) := by
  unfold insertNode
  have step : M.Sat (growIfNeeded cfg v) s
      (fun _ s' => ∃ t, s' = { s with tabs := upd s.tabs v t } ∧ TabOk s.cells v t ∧
        2 * (t.mask + 1 - t.free) ≤ t.mask + 1) (Thrown cfg md refs s) := by
    unfold growIfNeeded
    refine M.Sat_get_bind ?_
    split
    · rename_i ho
      exact (doubleCache_ok hi hv ho).mono (fun _ s' ⟨t, h1, h2, _, _, h3⟩ => ⟨t, h1, h2, h3⟩) (fun _ h => h)
    · rename_i ho
      refine ⟨s.tabs v, ?_, hi.tab v hv, ?_⟩
      · have : upd s.tabs v (s.tabs v) = s.tabs := by funext i; by_cases e : i = v <;> simp [upd, e]
        rw [this]
      · have := mt (overfull_iff (hi.tab v hv)).2 ho; omega
  refine M.Sat.bind step ?_
  rintro _ s1 ⟨t, rfl, ht, hfill⟩
  have hi1 := hi.setTab ht
  have hg : Grow s { s with tabs := upd s.tabs v t } := ⟨.refl _, Nat.le_refl _, Nat.le_refl _⟩
  generalize hs1 : { s with tabs := upd s.tabs v t } = s1 at *
  have e1 : s1.cells = s.cells := by rw [← hs1]
  have e2 : s1.nvars = s.nvars := by rw [← hs1]
  have e3 : s1.tabs v = t := by rw [← hs1]; simp
  have e4 : s1.pool = s.pool := by rw [← hs1]
  have e5 : s1.rngPos = s.rngPos := by rw [← hs1]
  rw [← e1] at hl hh hnew ht
  rw [← e3] at ht hfill
  refine M.Sat_bind.2 ?_
  show M.Sat _ { s1 with pool := s1.pool.reserve.2 } _ _
  refine M.Sat_bind.2 ?_
  unfold initNewNode
  have hvlt : v < 2 ^ 41 := by
    have := hi.nv; unfold topsinkIndex at this; omega
  refine M.Sat_assert_bind (by simp [hvlt]) ?_
  simp only [M.Sat_modify]
  refine M.Sat_get_bind ?_
  simp only
  have hmk := ht.mask_le
  have hfree := ht.free
  have hfl := ht.free_le
  refine M.Sat_assert_bind (by simp; omega) ?_
  obtain ⟨p2, pdead, ptot, _⟩ := Pool.reserve_ok hi1.pool
  have hll := hi1.live_of hl
  have hhl := hi1.live_of hh
  have hext := newCells_ext (cfg := cfg) (v := v) hi1 hlh
  have hcells : (upd (upd (upd s1.cells h { s1.cells h with xref := (s1.cells h).xref + 1 }) l
      { upd s1.cells h { s1.cells h with xref := (s1.cells h).xref + 1 } l with
        xref := ((upd s1.cells h { s1.cells h with xref := (s1.cells h).xref + 1 }) l).xref + 1 })
      s1.pool.reserve.1 ⟨l, h, v, cfg.rng s1.rngPos, 0, true⟩) = newCells cfg s1 s1.pool.reserve.1 v l h := rfl
  rw [hcells]
  have hhash : hashCode (newCells cfg s1 s1.pool.reserve.1 v l h)
      (newCells cfg s1 s1.pool.reserve.1 v l h s1.pool.reserve.1).lo
      (newCells cfg s1 s1.pool.reserve.1 v l h s1.pool.reserve.1).hi = hashCode s1.cells l h := by
    rw [newCells_self]
    unfold hashCode
    simp only
    rw [(hext _ hll).2.2.2.2, (hext _ hhl).2.2.2.2]
  rw [hhash]
  obtain ⟨k, _, _, hk⟩ := ht.pow
  obtain ⟨i, i1, i2, i3, i4⟩ := nextFreeSlot_ok hk ht.cap (hashCode s1.cells l h) ht.free_pos
  refine M.Sat_lift_bind i1 ?_
  refine M.Sat_modify_bind ?_
  simp only [M.Sat_pure]
  obtain ⟨r1, r2, r3⟩ := newState_inv (cfg := cfg) hi1 (e2 ▸ hv) hlh hl hh hord hnew i2 i3 i4 hfill
  have hst : newState cfg s1 v l h i = { s1 with
      cells := newCells cfg s1 s1.pool.reserve.1 v l h
      marks := upd s1.marks s1.pool.reserve.1 false
      pool := s1.pool.reserve.2
      rngPos := s1.rngPos + 1
      tabs := upd s1.tabs v { s1.tabs v with
        free := sub64 (s1.tabs v).free 1, slots := upd (s1.tabs v).slots i (some s1.pool.reserve.1) } } := by
    unfold newState
    rw [sub64_eq (a := (s1.tabs v).free) (b := 1) (by omega) (by omega)]
  rw [hst] at r1 r2 r3
  refine ⟨⟨?_, r2.nvars.trans e2, by rw [← e5]; exact r2.rng⟩, r1, r3, ?_⟩
  · rw [← e1]; exact r2.cells
  · constructor
    · show s1.pool.reserve.2.total = _
      rw [ptot, e4]
    · intro q hq
      by_cases e : q = s1.pool.reserve.1
      · exact Or.inr (e ▸ .refl _)
      · left
        rw [← e1, ← (newCells_ne (cfg := cfg) (s := s1) (v := v) e hlh).1]
        exact hq

/-- Bumping the miss counter of a table is invisible. -/
theorem Inv.bumpTimer (hi : Inv cfg md refs s) {v : Nat} (hv : v < s.nvars) (n : Nat) :
    Inv cfg md refs { s with tabs := upd s.tabs v { s.tabs v with timer := n } } := by
  refine hi.setTab ?_
  have h := hi.tab v hv
  exact ⟨h.pow, h.cap, h.slots, h.free, h.fill, h.page, h.dense⟩

theorem uniqueFindAux_miss {n : Nat} (hi : Inv cfg md refs s) {v l h : Nat} {tl th : Tree} (hv : v < s.nvars)
    (hlh : l ≠ h)
    (hl : Repr s.cells l tl) (hh : Repr s.cells h th)
    (hord : md.ordered → ∀ w, tl.Mem w ∨ th.Mem w → v < w)
    (hnew : ∀ p, 2 ≤ p → (s.cells p).live = true → (s.cells p).index = v →
      ¬ ((s.cells p).lo = l ∧ (s.cells p).hi = h)) (hn : 2 ≤ n) :
    Spec cfg md refs (uniqueFindAux cfg v l h n) s
      (fun p s' => Repr s'.cells p (.node v tl th) ∧ s'.pool.total = s.pool.total + 1 ∧ New s s' p) := by
  have key : ∀ n s, Inv cfg md refs s → v < s.nvars → Repr s.cells l tl → Repr s.cells h th →
      (∀ p, 2 ≤ p → (s.cells p).live = true → (s.cells p).index = v →
      ¬ ((s.cells p).lo = l ∧ (s.cells p).hi = h)) →
      (1 ≤ n ∧ ((s.tabs v).timer + 1) % 1024 ≠ 0 ∨ 2 ≤ n) →
      Spec cfg md refs (uniqueFindAux cfg v l h n) s
      (fun p s' => Repr s'.cells p (.node v tl th) ∧ s'.pool.total = s.pool.total + 1 ∧ New s s' p) := by
    intro n
    induction n with
    | zero => intro s _ _ _ _ _ h; omega
    | succ n ih =>
      intro s hi hv hl hh hnew hn
      simp only [uniqueFindAux]
      rw [if_neg hlh]
      refine Spec.get_bind ?_
      have ht := hi.tab v hv
      have hmk := ht.mask_le
      refine Spec.assert_bind (by simp; omega) ?_
      rcases lookup_ok (l := l) (h := h) ht with ⟨h1, _⟩ | ⟨p, h1, h2, h3, h4, h5⟩
      · refine Spec.read_bind (a := none) (by rw [h1]; rfl) ?_
        simp only
        refine M.Sat_modify_bind ?_
        have hi' := hi.bumpTimer hv ((s.tabs v).timer + 1)
        split
        · rename_i hmod
          have := ih _ hi' hv hl hh hnew (Or.inl ⟨by omega, by simp; omega⟩)
          refine M.Sat.mono this ?_ ?_
          · rintro p s' ⟨h1, h2, h3⟩
            exact ⟨⟨h1.cells, h1.nvars, h1.rng⟩, h2, h3⟩
          · rintro s' ⟨h1, h2⟩; exact ⟨⟨h1.cells, h1.nvars, h1.rng⟩, h2⟩
        · have := insertNode_ok hi' hv hlh hl hh hord hnew
          refine M.Sat.mono this ?_ ?_
          · rintro p s' ⟨h1, h2, h3⟩
            exact ⟨⟨h1.cells, h1.nvars, h1.rng⟩, h2, h3⟩
          · rintro s' ⟨h1, h2⟩; exact ⟨⟨h1.cells, h1.nvars, h1.rng⟩, h2⟩
      · exact absurd h5 (hnew p h2 h3 h4)
  exact key n s hi hv hl hh hnew (Or.inr hn)

theorem uniqueFindAux_hit {n : Nat} (hi : Inv cfg md refs s) {v l h : Nat} (hv : v < s.nvars) (hlh : l ≠ h) {p : Nat}
    (h2 : 2 ≤ p) (hpl : (s.cells p).live = true) (hpv : (s.cells p).index = v) (hp1 : (s.cells p).lo = l)
    (hp2 : (s.cells p).hi = h) (hn : 1 ≤ n) :
    uniqueFindAux cfg v l h n s = .ok p s := by
  cases n with
  | zero => omega
  | succ n =>
    simp only [uniqueFindAux]
    rw [if_neg hlh]
    have ht := hi.tab v hv
    have hmk := ht.mask_le
    rcases lookup_ok (l := l) (h := h) ht with ⟨_, h1⟩ | ⟨q, h1, q2, q3, q4, q5⟩
    · exact absurd ⟨hp1, hp2⟩ (h1 p h2 hpl hpv)
    · have : q = p := hi.uniq q p q2 h2 q3 hpl (q4.trans hpv.symm) (q5.1.trans hp1.symm) (q5.2.trans hp2.symm)
      subst this
      show M.bind M.get _ s = _
      simp only [M.bind, M.get]
      show M.bind (M.assert cfg.ndebug _) _ s = _
      simp only [M.bind, M.assert]
      rw [if_pos (by simp; omega)]
      show M.bind (M.lift _) _ s = _
      simp only [M.bind, M.lift, h1]
      rfl

/-- `unique_find` on an existing triple returns the node and changes nothing at all. -/
theorem uniqueFind_hit (hi : Inv cfg md refs s) {v l h : Nat} (hv : v < s.nvars) (hlh : l ≠ h) {p : Nat}
    (h2 : 2 ≤ p) (hpl : (s.cells p).live = true) (hpv : (s.cells p).index = v) (hp1 : (s.cells p).lo = l)
    (hp2 : (s.cells p).hi = h) : uniqueFind cfg v l h s = .ok p s := by
  unfold uniqueFind
  show M.bind M.get _ s = _
  simp only [M.bind, M.get]
  rw [if_neg (by omega)]
  exact uniqueFindAux_hit hi hv hlh h2 hpl hpv hp1 hp2 (by omega)

theorem uniqueFind_same (v l : Nat) (hv : v < s.nvars) : uniqueFind cfg v l l s = .ok l s := by
  unfold uniqueFind
  show M.bind M.get _ s = _
  simp only [M.bind, M.get]
  rw [if_neg (by omega)]
  simp only [uniqueFindAux, if_true]
  rfl

/-- `unique_find(v, l, h)` returns the node for (v, l, h), or `l` if the children are equal. -/
theorem uniqueFind_spec (hi : Inv cfg md refs s) {v l h : Nat} {tl th : Tree} (hv : v < s.nvars)
    (hl : Repr s.cells l tl) (hh : Repr s.cells h th)
    (hord : md.ordered → ∀ w, tl.Mem w ∨ th.Mem w → v < w) :
    Spec cfg md refs (uniqueFind cfg v l h) s (fun p s' => Repr s'.cells p (mkTree v tl th) ∧ New s s' p) := by
  by_cases hlh : l = h
  · subst hlh
    have := hl.fn hh
    subst this
    unfold Spec M.Sat
    rw [uniqueFind_same v l hv]
    refine ⟨.refl _, hi, ?_, .refl⟩
    simpa [mkTree] using hl
  · have hne : tl ≠ th := by
      rintro rfl; exact hlh (hi.repr_inj hl hh)
    have hmk : mkTree v tl th = .node v tl th := by simp [mkTree, hne]
    rw [hmk]
    by_cases hex : ∃ p, 2 ≤ p ∧ (s.cells p).live = true ∧ (s.cells p).index = v ∧ (s.cells p).lo = l ∧ (s.cells p).hi = h
    · obtain ⟨p, h1, h2, h3, h4, h5⟩ := hex
      unfold Spec M.Sat
      rw [uniqueFind_hit hi hv hlh h1 h2 h3 h4 h5]
      refine ⟨.refl _, hi, ?_, .refl⟩
      have := Repr.node (cells := s.cells) h1 h2 (by rw [h3]; exact Nat.lt_of_lt_of_le hv hi.nv)
        (h4.symm ▸ hl) (h5.symm ▸ hh)
      rwa [h3] at this
    · unfold uniqueFind
      refine Spec.get_bind ?_
      rw [if_neg (by omega)]
      refine (uniqueFindAux_miss hi hv hlh hl hh hord ?_ (Nat.le_refl 2)).mono (fun p s' _ _ h => ⟨h.1, h.2.2⟩)
      intro p h1 h2 h3 h4
      exact hex ⟨p, h1, h2, h3, h4⟩

end
end LBDD
