import Verif.Proof.Ite
/-! Initial state, variables, projections, handles, evaluation. -/
namespace LBDD
section
variable {cfg : Cfg} {md : Md} {refs : Nat → Nat} {s : Mgr} {α β : Type}

/-- Like `Spec`, for operations that may also add variables. -/
def SpecG (cfg : Cfg) (md : Md) (refs : Nat → Nat) {α : Type} (m : M Mgr α) (s : Mgr) (P : α → Mgr → Prop) : Prop :=
  M.Sat m s (fun a s' => Grow s s' ∧ Inv cfg md refs s' ∧ P a s') (Thrown cfg md refs s)

theorem Spec.toG {m : M Mgr α} {P : α → Mgr → Prop} (h : Spec cfg md refs m s P) : SpecG cfg md refs m s P :=
  M.Sat.mono h (fun _ _ h => ⟨h.1.grow, h.2⟩) (fun _ h => h)

/-- A `Spec` operation also keeps the number of variables. -/
theorem Spec.toG' {m : M Mgr α} {P : α → Mgr → Prop} (h : Spec cfg md refs m s P) :
    SpecG cfg md refs m s (fun a s' => P a s' ∧ s'.nvars = s.nvars) :=
  M.Sat.mono h (fun _ _ h => ⟨h.1.grow, h.2.1, h.2.2, h.1.nvars⟩) (fun _ h => h)

theorem SpecG.bind {m : M Mgr α} {f : α → M Mgr β} {P : α → Mgr → Prop} {R : β → Mgr → Prop}
    (h : SpecG cfg md refs m s P)
    (hf : ∀ a s', Grow s s' → Inv cfg md refs s' → P a s' → SpecG cfg md refs (f a) s' R) :
    SpecG cfg md refs (m >>= f) s R := by
  refine M.Sat.bind h ?_
  rintro a s' ⟨h1, h2, h3⟩
  refine (hf a s' h1 h2 h3).mono ?_ ?_
  · rintro b s'' ⟨h4, h5, h6⟩; exact ⟨h1.trans h4, h5, h6⟩
  · intro s'' h; exact h.of_grow h1

theorem SpecG.mono {m : M Mgr α} {P R : α → Mgr → Prop} (h : SpecG cfg md refs m s P)
    (hf : ∀ a s', Grow s s' → Inv cfg md refs s' → P a s' → R a s') : SpecG cfg md refs m s R :=
  M.Sat.mono h (fun a s' h => ⟨h.1, h.2.1, hf a s' h.1 h.2.1 h.2.2⟩) (fun _ h => h)

theorem SpecG.pure {a : α} {P : α → Mgr → Prop} (hi : Inv cfg md refs s) (h : P a s) :
    SpecG cfg md refs (Pure.pure a) s P := ⟨.refl _, hi, h⟩

theorem SpecG.get_bind {f : Mgr → M Mgr β} {R : β → Mgr → Prop}
    (h : SpecG cfg md refs (f s) s R) : SpecG cfg md refs (M.get >>= f) s R := M.Sat_get_bind h

theorem SpecG.assert_bind {nd c : Bool} {f : Unit → M Mgr β} {R : β → Mgr → Prop}
    (hc : c = true) (h : SpecG cfg md refs (f ()) s R) :
    SpecG cfg md refs ((M.assert nd c : M Mgr Unit) >>= f) s R := M.Sat_assert_bind hc h

theorem SpecG.read_bind {m : M Mgr α} {a : α} {f : α → M Mgr β} {R : β → Mgr → Prop}
    (hm : m s = .ok a s) (h : SpecG cfg md refs (f a) s R) : SpecG cfg md refs (m >>= f) s R := by
  refine M.Sat_bind.2 ?_
  unfold M.Sat
  rw [hm]
  exact h

/-! ### initial state -/

theorem init_live (p : Nat) : ((Mgr.init cfg).cells p).live = true ↔ p < 2 := by
  unfold Mgr.init botId topId
  simp only
  split
  · simp_all
  · split
    · simp_all
    · simp; omega

theorem init_hw (cfg : Cfg) : (Mgr.init cfg).pool.hw = 2 := by simp [Mgr.init, Pool.hw]

theorem init_inv (cfg : Cfg) (md : Md) : Inv cfg md (fun _ => 0) (Mgr.init cfg) where
  bot := ⟨rfl, rfl⟩
  top := ⟨rfl, rfl⟩
  nv := by show 0 ≤ _; omega
  node p h2 hl := by have := (init_live p).1 hl; omega
  uniq p q h2 _ hl := by have := (init_live p).1 hl; omega
  ord _ p t h := by
    cases h with
    | bot => trivial
    | top => trivial
    | node h2 hl => have := (init_live p).1 hl; omega
  ht p t h := by
    cases h with
    | bot => exact Nat.zero_le _
    | top => exact Nat.zero_le _
    | node h2 hl => have := (init_live p).1 hl; omega
  tab v hv := absurd hv (Nat.not_lt_zero v)
  pool := by
    refine ⟨Nat.le_refl _, ?_, ?_, ?_, ?_, List.nodup_nil, ?_⟩
    · show 2 ≤ 4096; omega
    · rw [init_hw]; exact Nat.le_refl _
    · intro p
      rw [init_live, init_hw]
      show p < 2 ↔ p < 2 ∧ p ∉ []
      simp
    · intro p hp; cases hp
    · rw [init_hw]; rfl
  memo := ⟨⟨0, rfl⟩, rfl, fun k _ r hr => (by cases hr), fun k _ hr => (by cases hr)⟩
  ref := by
    constructor
    · intro p hl
      have h2 := (init_live p).1 hl
      have e : p = 0 ∨ p = 1 := by omega
      rw [init_hw]
      rcases e with rfl | rfl <;> simp [arcsTo, Mgr.init, botId, topId]
    · intro p hp; cases hp
  mark p h2 hl := by have := (init_live p).1 hl; omega
  smark := ⟨rfl, rfl⟩

/-! ### variables -/

theorem addVariable_ok (hi : Inv cfg md refs s) (hn : s.nvars < topsinkIndex) :
    SpecG cfg md refs (addVariable cfg) s (fun v s' => v = s.nvars ∧ s'.nvars = s.nvars + 1 ∧ s'.cells = s.cells) := by
  unfold addVariable
  refine SpecG.get_bind ?_
  refine SpecG.assert_bind (by unfold topsinkIndex at hn; simp; omega) ?_
  refine M.Sat_set_bind ?_
  refine ⟨⟨.refl _, Nat.le_succ _, Nat.le_refl _⟩, ?_, rfl, rfl, rfl⟩
  constructor
  · exact hi.bot
  · exact hi.top
  · exact hn
  · intro p h2 hl
    obtain ⟨a, b⟩ := hi.node p h2 hl
    exact ⟨Nat.lt_succ_of_lt a, b⟩
  · exact hi.uniq
  · exact hi.ord
  · exact hi.ht
  · intro v hv
    show TabOk s.cells v (upd s.tabs s.nvars _ v)
    by_cases e : v = s.nvars
    · subst e
      rw [upd_same]
      refine ⟨⟨6, Nat.le_refl _, by omega, rfl⟩, Nat.le_refl _, ?_, ?_, by show 63 + 1 ≤ 2 * 64 + 2; omega, Or.inl ⟨rfl, rfl⟩, fun h => absurd rfl h⟩
      · refine (Slots.empty _ (fun p => hashCode s.cells (s.cells p).lo (s.cells p).hi)).congr ?_ (fun _ h => h.elim)
        intro p
        simp only [iff_false]
        rintro ⟨h2, hl, he⟩
        have := (hi.node p h2 hl).1
        omega
      · show 64 = countFree (fun _ => none) 64
        rw [countFree_empty]
    · rw [upd_ne _ _ e]
      exact hi.tab v (by have : v < s.nvars + 1 := hv; omega)
  · exact ⟨hi.pool.pages, hi.pool.off, hi.pool.off2, hi.pool.live, hi.pool.avail, hi.pool.nodup, hi.pool.total⟩
  · exact ⟨hi.memo.pow, hi.memo.mask, hi.memo.entry, hi.memo.place⟩
  · exact ⟨hi.ref.count, hi.ref.live⟩
  · exact hi.mark
  · exact hi.smark

theorem addVariables_ok : ∀ (n : Nat) (s : Mgr), Inv cfg md refs s → s.nvars + n ≤ topsinkIndex →
    SpecG cfg md refs (addVariables cfg n) s (fun _ s' => s'.nvars = s.nvars + n ∧ s'.cells = s.cells) := by
  intro n
  induction n with
  | zero => intro s hi _; exact SpecG.pure hi ⟨rfl, rfl⟩
  | succ n ih =>
    intro s hi hn
    unfold addVariables
    refine SpecG.bind (addVariable_ok hi (by omega)) ?_
    rintro v s1 _ hi1 ⟨_, h2, h3⟩
    refine (ih s1 hi1 (by omega)).mono ?_
    rintro _ s2 _ _ ⟨h4, h5⟩
    exact ⟨by omega, h5.trans h3⟩

theorem ensureVar_ok (hi : Inv cfg md refs s) {v : Nat} (hv : v < topsinkIndex) :
    SpecG cfg md refs (ensureVar cfg v) s (fun _ s' => s'.nvars = max s.nvars (v + 1) ∧ s'.cells = s.cells) := by
  unfold ensureVar
  refine SpecG.get_bind ?_
  have := hi.nv
  refine (addVariables_ok _ s hi (by omega)).mono ?_
  rintro _ s1 _ _ ⟨h1, h2⟩
  exact ⟨by omega, h2⟩

theorem projection_ok (hi : Inv cfg md refs s) {v : Nat} (hv : v < topsinkIndex) :
    SpecG cfg md refs (projection cfg v) s
      (fun p s' => Repr s'.cells p (.node v .bot .top) ∧ s'.nvars = max s.nvars (v + 1) ∧ New s s' p) := by
  unfold projection
  refine SpecG.bind (ensureVar_ok hi hv) ?_
  rintro _ s1 _ hi1 ⟨h1, hc⟩
  refine ((uniqueFind_spec hi1 (by omega) (.bot) (.top) ?_).toG').mono ?_
  · intro _ w hw; rcases hw with h | h <;> exact h.elim
  · rintro p s' _ _ ⟨⟨h2, hn⟩, h3⟩
    exact ⟨by simpa [mkTree] using h2, h3.trans h1, fun q hq => hc ▸ hn q hq⟩

theorem negProjection_ok (hi : Inv cfg md refs s) {v : Nat} (hv : v < s.nvars) :
    Spec cfg md refs (negProjection cfg v) s (fun p s' => Repr s'.cells p (.node v .top .bot) ∧ New s s' p) := by
  unfold negProjection
  refine Spec.get_bind ?_
  refine Spec.assert_bind (by simpa using hv) ?_
  refine ((uniqueFind_spec hi hv (.top) (.bot) ?_)).mono ?_
  · intro _ w hw; rcases hw with h | h <;> exact h.elim
  · rintro p s' _ _ ⟨h2, hn⟩
    exact ⟨by simpa [mkTree] using h2, hn⟩

theorem mgrUniqueFind_ok (hi : Inv cfg md refs s) {v l h : Nat} {tl th : Tree} (hv : v < s.nvars)
    (hl : Repr s.cells l tl) (hh : Repr s.cells h th)
    (hord : md.ordered → ∀ w, tl.Mem w ∨ th.Mem w → v < w) :
    Spec cfg md refs (mgrUniqueFind cfg v l h) s (fun p s' => Repr s'.cells p (mkTree v tl th) ∧ New s s' p) := by
  unfold mgrUniqueFind
  refine Spec.get_bind ?_
  exact Spec.assert_bind (by simpa using hv) (uniqueFind_spec hi hv hl hh hord)

/-! ### handles -/

/-- Changing only a reference count (and the ghost handle count with it) keeps the invariant. -/
theorem Inv.setXref (hi : Inv cfg md refs s) {p : Nat} {x : Int} {n : Nat}
    (hp : (s.cells p).live = true)
    (hx : x = n + arcsTo s.cells p s.pool.hw + (if p < 2 then 1 else 0)) :
    Inv cfg md (upd refs p n) { s with cells := upd s.cells p { s.cells p with xref := x } } ∧
    CellsExt s.cells (upd s.cells p { s.cells p with xref := x }) := by
  have key : ∀ q, (upd s.cells p { s.cells p with xref := x } q).live = (s.cells q).live ∧
      (upd s.cells p { s.cells p with xref := x } q).lo = (s.cells q).lo ∧
      (upd s.cells p { s.cells p with xref := x } q).hi = (s.cells q).hi ∧
      (upd s.cells p { s.cells p with xref := x } q).index = (s.cells q).index ∧
      (upd s.cells p { s.cells p with xref := x } q).hashKey = (s.cells q).hashKey := by
    intro q
    by_cases e : q = p
    · subst e; simp
    · rw [upd_ne _ _ e]; simp
  have hxq : ∀ q, q ≠ p → (upd s.cells p { s.cells p with xref := x } q).xref = (s.cells q).xref := by
    intro q e; rw [upd_ne _ _ e]
  have hxp : (upd s.cells p { s.cells p with xref := x } p).xref = x := by simp
  generalize hc : upd s.cells p { s.cells p with xref := x } = c' at *
  have hext : CellsExt s.cells c' := fun q hq => ⟨(key q).1.trans hq, (key q).2⟩
  have hext' : CellsExt c' s.cells := by
    intro q hq
    obtain ⟨a, b, c, d, e⟩ := key q
    exact ⟨a ▸ hq, b.symm, c.symm, d.symm, e.symm⟩
  refine ⟨?_, hext⟩
  constructor
  · obtain ⟨a, b, c, d, _⟩ := key 0
    show (c' 0).index = _ ∧ (c' 0).lo = (c' 0).hi
    rw [b, c, d]; exact hi.bot
  · obtain ⟨a, b, c, d, _⟩ := key 1
    show (c' 1).index = _ ∧ (c' 1).lo = (c' 1).hi
    rw [b, c, d]; exact hi.top
  · exact hi.nv
  · intro q h2 hl
    obtain ⟨a, b, c, d, _⟩ := key q
    show (c' q).index < _ ∧ (c' q).lo ≠ (c' q).hi ∧ ∃ t, Repr c' q t
    rw [b, c, d]
    obtain ⟨h1, h3, t, h4⟩ := hi.node q h2 (a ▸ hl)
    exact ⟨h1, h3, t, h4.ext hext⟩
  · intro a b a2 b2 ha hb
    show (c' a).index = (c' b).index → (c' a).lo = (c' b).lo → (c' a).hi = (c' b).hi → a = b
    obtain ⟨a0, a1, a2', a3, _⟩ := key a
    obtain ⟨b0, b1, b2', b3, _⟩ := key b
    rw [a1, a2', a3, b1, b2', b3]
    exact hi.uniq a b a2 b2 (a0 ▸ ha) (b0 ▸ hb)
  · intro hmd q t hq; exact hi.ord hmd q t (hq.ext hext')
  · intro q t hq; exact hi.ht q t (hq.ext hext')
  · intro v hv
    have h := hi.tab v hv
    refine ⟨h.pow, h.cap, ?_, h.free, h.fill, h.page, h.dense⟩
    refine h.slots.congr ?_ ?_
    · intro q
      show (2 ≤ q ∧ (c' q).live = true ∧ (c' q).index = v) ↔ _
      rw [(key q).1, (key q).2.2.2.1]
    · intro q _
      show hashCode c' (c' q).lo (c' q).hi = _
      unfold hashCode
      rw [(key q).2.1, (key q).2.2.1, (key _).2.2.2.2, (key _).2.2.2.2]
  · refine ⟨hi.pool.pages, hi.pool.off, hi.pool.off2, ?_, hi.pool.avail, hi.pool.nodup, hi.pool.total⟩
    intro q
    show (c' q).live = true ↔ _
    rw [(key q).1]; exact hi.pool.live q
  · exact ⟨hi.memo.pow, hi.memo.mask, fun k hk => (hi.memo.entry k hk).ext hext, fun k hk hr => hi.place_ext hext hk hr⟩
  · have harc : ∀ q n, arcsTo c' q n = arcsTo s.cells q n := fun q n =>
      arcsTo_congr (fun i _ _ => ⟨(key i).1, fun _ => ⟨(key i).2.1, (key i).2.2.1⟩⟩)
    constructor
    · intro q hq
      show (c' q).xref = upd refs p n q + arcsTo c' q s.pool.hw + _
      rw [harc]
      by_cases e : q = p
      · subst e; rw [hxp, upd_same]; exact hx
      · rw [hxq q e, upd_ne _ _ e]; exact hi.ref.count q ((key q).1 ▸ hq)
    · intro q hq
      show (c' q).live = true
      rw [(key q).1]
      by_cases e : q = p
      · subst e; exact hp
      · rw [upd_ne _ _ e] at hq; exact hi.ref.live q hq
  · intro q h2 hl
    exact hi.mark q h2 ((key q).1 ▸ hl)
  · exact hi.smark

theorem acquire_ok (hi : Inv cfg md refs s) {p : Nat} {t : Tree} (hp : Repr s.cells p t) :
    ∃ s', acquire p s = .ok () s' ∧ Inv cfg md (upd refs p (refs p + 1)) s' ∧ Ext s s' ∧ s'.pool = s.pool := by
  have hl := hi.live_of hp
  obtain ⟨h1, h2⟩ := hi.setXref (x := (s.cells p).xref + 1) (n := refs p + 1) hl (by
    rw [hi.ref.count p hl]; push_cast; omega)
  exact ⟨_, rfl, h1, ⟨h2, rfl, Nat.le_refl _⟩, rfl⟩

theorem release_ok (hi : Inv cfg md refs s) {p : Nat} (hr : 0 < refs p) :
    ∃ s', release cfg p s = .ok () s' ∧ Inv cfg md (upd refs p (refs p - 1)) s' ∧ Ext s s' ∧ s'.pool = s.pool := by
  have hl := hi.ref.live p hr
  have hcount := hi.ref.count p hl
  obtain ⟨h1, h2⟩ := hi.setXref (x := (s.cells p).xref - 1) (n := refs p - 1) hl (by
    rw [hcount]; omega)
  refine ⟨_, ?_, h1, ⟨h2, rfl, Nat.le_refl _⟩, rfl⟩
  unfold release
  rw [M.get_bind_apply, M.assert_bind_apply]
  · rfl
  · have : 0 < (s.cells p).xref := by rw [hcount]; split <;> omega
    simpa using this

/-! ### evaluation -/

/-- The assignment given by a sequence of bools. -/
def asg (x : List Bool) : Assign := fun i => x.getD i false

theorem evaluateAux_ok (hi : Inv cfg md refs s) (x : List Bool) : ∀ (n p : Nat) (t : Tree), Repr s.cells p t →
    t.height + 1 ≤ n → (∀ w, t.Mem w → w < x.length) →
    evaluateAux cfg s x n p = .ok (t.eval (asg x)) () := by
  intro n
  induction n with
  | zero => intro p t _ h; omega
  | succ n ih =>
    intro p t hp hn hm
    have hb := isBot_ok hi hp
    unfold evaluateAux
    have key : ((s.cells p).index == topsinkIndex || (s.cells p).index == botsinkIndex) = ((s.cells p).lo == (s.cells p).hi) := by
      cases hp with
      | bot => simp [hi.bot]
      | top => simp [hi.top]
      | node h2 hl hx _ _ =>
        have hne := (hi.node _ h2 hl).2.1
        have a : (s.cells p).index ≠ topsinkIndex := by omega
        have b : (s.cells p).index ≠ botsinkIndex := by unfold topsinkIndex botsinkIndex at *; omega
        rw [beq_eq_false_iff_ne.2 a, beq_eq_false_iff_ne.2 b, beq_eq_false_iff_ne.2 hne]
        rfl
    simp only [key, bne_self_eq_false, Bool.and_false, Bool.false_eq_true, if_false]
    cases hp with
    | bot => rw [if_pos hi.bot.1]; rfl
    | top => rw [if_neg (by rw [hi.top.1]; decide), if_pos hi.top.1]; rfl
    | node h2 hl hx hlo hhi =>
      have a : (s.cells p).index ≠ topsinkIndex := by omega
      have b : (s.cells p).index ≠ botsinkIndex := by unfold topsinkIndex botsinkIndex at *; omega
      rw [if_neg b, if_neg a]
      simp only [hl, Bool.not_true, Bool.false_eq_true, if_false]
      have hlt := hm _ (Or.inl rfl)
      rw [List.getElem?_eq_getElem hlt]
      simp only [Tree.height] at hn
      have hx : asg x (s.cells p).index = x[(s.cells p).index] := by
        unfold asg; simp [List.getD_eq_getElem?_getD, List.getElem?_eq_getElem hlt]
      cases hv : x[(s.cells p).index] with
      | true =>
        simp only
        rw [ih _ _ hhi (by omega) (fun w hw => hm w (Or.inr (Or.inr hw)))]
        simp only [Tree.eval, hx, hv, if_true]
      | false =>
        simp only
        rw [ih _ _ hlo (by omega) (fun w hw => hm w (Or.inr (Or.inl hw)))]
        simp only [Tree.eval, hx, hv, Bool.false_eq_true, if_false]

theorem evaluate_ok (hi : Inv cfg md refs s) {p : Nat} {t : Tree} (hp : Repr s.cells p t) (x : List Bool)
    (hm : ∀ w, t.Mem w → w < x.length) : evaluate cfg s p x = .ok (t.eval (asg x)) () := by
  refine evaluateAux_ok hi x _ p t hp ?_ hm
  have := hi.ht _ _ hp
  unfold fuel1; omega

end
end LBDD
