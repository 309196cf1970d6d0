import Verif.Proof.Coll.Add
import Verif.Proof.Any
/-! `export_bdd` and `bdd_mgr::add_bdd`: rebuilding an entry of a collection inside a manager. -/
namespace LBDD

/-- An ordered entry unfolds to ordered trees. -/
theorem Coll.Wf.tree_ordered {c : Coll} {nr d0 d1 : Nat} (hw : c.Wf nr) (he : c.Entry nr d0 d1) (ho : c.Ordered nr) {i : Nat} {t : Tree}
    (ht : CRepr c.ins i t) (h0 : d0 ≤ i) (h1 : i < d1) : t.Ordered := by
  have hr := hw.entry he
  -- labels below an inner node are at least its own label
  have key : ∀ (i : Nat) (t : Tree), CRepr c.ins i t → d0 ≤ i → i < d1 → t.Ordered ∧
      ∀ e, c.ins[i]? = some e → e.Inner → ∀ w, t.Mem w → e.index ≤ w := by
    intro i t ht
    induction ht with
    | bot a b => intro _ _; exact ⟨trivial, fun _ _ _ w hw => hw.elim⟩
    | top a b => intro _ _; exact ⟨trivial, fun _ _ _ w hw => hw.elim⟩
    | @node i e tl th ha hin _ _ ih1 ih2 =>
      intro h0 h1
      obtain ⟨a1, a2, a3, a4, a5, a6, a7⟩ := hr.node h0 h1 ha hin
      obtain ⟨o1, k1⟩ := ih1 (by omega) a5
      obtain ⟨o2, k2⟩ := ih2 (by omega) a7
      have step : ∀ (j : Nat) (tj : Tree), (j = e.lo ∨ j = e.hi) → CRepr c.ins j tj → d0 ≤ j → j < d1 →
          (∀ e', c.ins[j]? = some e' → e'.Inner → ∀ w, tj.Mem w → e'.index ≤ w) → ∀ w, tj.Mem w → e.index < w := by
        intro j tj hj hrj hj0 hj1 hk w hw
        cases hrj with
        | bot => exact hw.elim
        | top => exact hw.elim
        | @node _ e' _ _ b1 b2 b3 b4 =>
          have := ho i e j e' ⟨d0, d1, he, h0, h1, ha⟩ hin hj ⟨d0, d1, he, hj0, hj1, b1⟩ b2
          have := hk e' b1 b2 w hw
          omega
      have m1 := step e.lo tl (Or.inl rfl) (by assumption) (by omega) a5 k1
      have m2 := step e.hi th (Or.inr rfl) (by assumption) (by omega) a7 k2
      refine ⟨⟨m1, m2, o1, o2⟩, ?_⟩
      intro f hf _ w hw
      rw [ha] at hf; cases hf
      rcases hw with rfl | hw | hw
      · exact Nat.le_refl _
      · exact Nat.le_of_lt (m1 w hw)
      · exact Nat.le_of_lt (m2 w hw)
  exact (key i t ht h0 h1).1

/-- `t'` is what rebuilding `t` in a manager gives: the same function, no new variables, and nothing changes if `t` is reduced. -/
structure Rebuilt (t t' : Tree) : Prop where
  eval : ∀ x, t'.eval x = t.eval x
  mem : ∀ w, t'.Mem w → t.Mem w
  same : t.Reduced → t' = t
  tree : t' = redT t

theorem Rebuilt.bot : Rebuilt .bot .bot := ⟨fun _ => rfl, fun _ h => h, fun _ => rfl, rfl⟩
theorem Rebuilt.top : Rebuilt .top .top := ⟨fun _ => rfl, fun _ h => h, fun _ => rfl, rfl⟩

theorem Rebuilt.node {v : Nat} {tl th tl' th' : Tree} (h1 : Rebuilt tl tl') (h2 : Rebuilt th th') : Rebuilt (.node v tl th) (mkTree v tl' th') where
  eval := by intro x; rw [mkTree_eval, h1.eval, h2.eval]; rfl
  mem := by
    intro w hw
    rcases mkTree_mem hw with h | h | h
    · exact Or.inl h
    · exact Or.inr (Or.inl (h1.mem w h))
    · exact Or.inr (Or.inr (h2.mem w h))
  same := by
    rintro ⟨a, b, d⟩
    rw [h1.same b, h2.same d]
    simp [mkTree, a]
  tree := by rw [h1.tree, h2.tree]; rfl

section
variable {cfg : Cfg} {md : Md} {refs : Nat → Nat} {c : Coll} {nr d0 d1 : Nat}

/-- The hash map of `export_bdd`: all inner positions from `d0 + k` on are rebuilt. -/
structure ExpMap (c : Coll) (d0 d1 : Nat) (cells : Nat → Cell) (k : Nat) (h : List (Nat × Nat)) : Prop where
  ok : ∀ j, d0 + k ≤ j → j + 2 < d1 → ∃ r t t', h.lookup j = some r ∧ CRepr c.ins j t ∧ Repr cells r t' ∧ Rebuilt t t'
  dom : ∀ j r, h.lookup j = some r → d0 + k ≤ j

theorem ExpMap.ext {cells cells' : Nat → Cell} {k : Nat} {h : List (Nat × Nat)} (hm : ExpMap c d0 d1 cells k h) (hx : CellsExt cells cells') :
    ExpMap c d0 d1 cells' k h where
  ok := by
    intro j a b
    obtain ⟨r, t, t', h1, h2, h3, h4⟩ := hm.ok j a b
    exact ⟨r, t, t', h1, h2, h3.ext hx, h4⟩
  dom := hm.dom

theorem ExpMap.insert {cells : Nat → Cell} {k : Nat} {h : List (Nat × Nat)} (hm : ExpMap c d0 d1 cells (k + 1) h) {r : Nat} {t t' : Tree}
    (h1 : CRepr c.ins (d0 + k) t) (h2 : Repr cells r t') (h3 : Rebuilt t t') : ExpMap c d0 d1 cells k (insertNew h (d0 + k) r) where
  ok := by
    intro j a b
    rw [insertNew_lookup]
    by_cases hj : j = d0 + k
    · subst hj
      have : h.lookup (d0 + k) = none := by
        cases e : h.lookup (d0 + k) with
        | none => rfl
        | some r => have := hm.dom _ _ e; omega
      exact ⟨r, t, t', by rw [this]; simp, h1, h2, h3⟩
    · obtain ⟨q, u, u', g1, g2, g3, g4⟩ := hm.ok j (by omega) b
      exact ⟨q, u, u', by rw [g1]; rfl, g2, g3, g4⟩
  dom := by
    intro j q hj
    rw [insertNew_lookup] at hj
    cases e : h.lookup j with
    | some _ => have := hm.dom _ _ e; omega
    | none =>
      rw [e] at hj
      by_cases hk : j = d0 + k
      · omega
      · simp [hk] at hj

/-- What `get_node_ref` returns. -/
theorem exportRef_ok (hw : WfRange c.ins d0 d1) {s : Mgr} {k i : Nat} {h : List (Nat × Nat)} (hm : ExpMap c d0 d1 s.cells k h)
    (h0 : d0 + k ≤ i) (h1 : i < d1) :
    ∃ r t t', exportRef cfg c d0 d1 h i s = .ok r s ∧ CRepr c.ins i t ∧ Repr s.cells r t' ∧ Rebuilt t t' := by
  have hl := hw.len
  obtain ⟨e, he, hc⟩ := hw.cases (i := i) (by omega) h1
  have hi : insOf c i s = .ok e s := by unfold insOf; rw [he]
  unfold exportRef
  rw [M.assert_bind_apply (by simp; omega), M.bind_ok hi]
  rcases hc with ⟨a1, a2, _⟩ | ⟨a1, _, a3⟩
  · have hin := Instr.inner_of_lt a2
    obtain ⟨r, t, t', g1, g2, g3, g4⟩ := hm.ok i h0 a1
    refine ⟨r, t, t', ?_, g2, g3, g4⟩
    have b1 : e.isBot = false := by simp [Instr.isBot, hin.1]
    have b2 : e.isTop = false := by simp [Instr.isTop, hin.2]
    rw [b1, b2]
    simp only [Bool.false_eq_true, if_false]
    rw [M.assert_bind_apply (by simp; omega), M.assert_bind_apply (by simp; omega)]
    rw [g1]; rfl
  · rcases a3 with a3 | a3
    · refine ⟨botId, .bot, .bot, ?_, .bot he a3, .bot, .bot⟩
      simp [Instr.isBot, a3]; rfl
    · refine ⟨topId, .top, .top, ?_, .top he a3, .top, .top⟩
      have : ¬ cTop = cBot := fun h => cBot_ne_cTop h.symm
      simp [Instr.isBot, Instr.isTop, a3, this]; rfl

theorem exportLoop_ok (hw : c.Wf nr) (he : c.Entry nr d0 d1) (hord : md.ordered → c.Ordered nr) : ∀ (k : Nat) (h : List (Nat × Nat)) (s : Mgr),
    Inv cfg md refs s → d0 + k + 2 ≤ d1 → (∀ v, c.Var nr v → v < s.nvars) → ExpMap c d0 d1 s.cells k h →
    Spec cfg md refs (exportLoop cfg c d0 d1 k h) s (fun h' s' => ExpMap c d0 d1 s'.cells 0 h')
  | 0, h, s, hi, _, _, hm => Spec.pure hi hm
  | k + 1, h, s, hi, hk, hv, hm => by
    have hr := hw.entry he
    obtain ⟨e, ha, a2, a3, a4, a5, a6, a7⟩ := hr.inner (d0 + k) (by omega) (by omega)
    have hin := Instr.inner_of_lt a2
    obtain ⟨p, tl, tl', e1, l1, l2, l3⟩ := exportRef_ok (cfg := cfg) hr hm (i := e.lo) (by omega) a5
    obtain ⟨q, th, th', e2, r1, r2, r3⟩ := exportRef_ok (cfg := cfg) hr hm (i := e.hi) (by omega) a7
    have ht : CRepr c.ins (d0 + k) (.node e.index tl th) := .node ha hin l1 r1
    unfold exportLoop
    refine Spec.read_bind (a := e) (by unfold insOf; rw [ha]) ?_
    refine Spec.assert_bind (by simp [Instr.isTerm, a3]) ?_
    refine Spec.read_bind e1 (Spec.read_bind e2 ?_)
    refine Spec.bind (mgrUniqueFind_ok hi (hv _ ⟨_, e, ⟨d0, d1, he, by omega, by omega, ha⟩, hin, rfl⟩) l2 r2 ?_) ?_
    · intro ho w hw'
      have hot := hw.tree_ordered he (hord ho) ht (by omega) (by omega)
      rcases hw' with h | h
      · exact hot.1 w (l3.mem w h)
      · exact hot.2.1 w (r3.mem w h)
    · rintro r s1 x1 hi1 ⟨hrr, _⟩
      have hnone : h.lookup (d0 + k) = none := by
        cases e : h.lookup (d0 + k) with
        | none => rfl
        | some r => have := hm.dom _ _ e; omega
      refine Spec.assert_bind (by simp [hnone]) ?_
      exact exportLoop_ok hw he hord k _ s1 hi1 (by omega) (by rw [x1.nvars]; exact hv) ((hm.ext x1.cells).insert ht hrr (l3.node r3))

/-- `export_bdd`: the returned node denotes the function of the entry. -/
theorem exportBdd_ok {s : Mgr} (hi : Inv cfg md refs s) (hw : c.Wf nr) (he : c.Entry nr d0 d1) (hbig : d0 + 2 < d1)
    (hord : md.ordered → c.Ordered nr) (hv : ∀ v, c.Var nr v → v < s.nvars) :
    Spec cfg md refs (exportBdd cfg c nr) s (fun r s' => ∃ t t', CRepr c.ins d0 t ∧ Repr s'.cells r t' ∧ Rebuilt t t') := by
  have hr := hw.entry he
  unfold exportBdd
  refine Spec.assert_bind (by simpa using he.lt) ?_
  refine Spec.read_bind (a := d1) (by unfold dlmOf; rw [he.2]) ?_
  refine Spec.read_bind (a := d0) (by unfold dlmOf; rw [he.1]) ?_
  obtain ⟨a, b, ha, hb, h1, h2, _⟩ := hr.sinks
  refine Spec.assert_bind (by simp; omega) (Spec.assert_bind (by simp [ha, Instr.isTerm, h1]) (Spec.assert_bind (by simp [hb, Instr.isTerm, h2]) ?_))
  refine Spec.bind (exportLoop_ok hw he hord _ _ s hi (by omega) hv ⟨fun j h0 h1 => by omega, fun j r h => by simp at h⟩) ?_
  intro h s1 _ hi1 hm
  obtain ⟨r, t, t', g1, g2, g3, g4⟩ := hm.ok d0 (by omega) (by omega)
  simp only [g1]
  exact Spec.pure hi1 ⟨t, t', g2, g3, g4⟩

/-! ## `bdd_mgr::add_bdd` -/

/-- `t'` denotes the function of `t` and has no other variables. -/
structure Same (t t' : Tree) : Prop where
  eval : ∀ x, t'.eval x = t.eval x
  mem : ∀ w, t'.Mem w → t.Mem w

/-- The hash map of `bdd_mgr::add_bdd`: all positions from `d0 + k` on are rebuilt. -/
structure ImpMap (c : Coll) (d0 d1 : Nat) (cells : Nat → Cell) (k : Nat) (h : List (Nat × Nat)) : Prop where
  ok : ∀ j, d0 + k ≤ j → j < d1 → ∃ r t t', h.lookup j = some r ∧ CRepr c.ins j t ∧ Repr cells r t' ∧ Same t t'
  dom : ∀ j r, h.lookup j = some r → d0 + k ≤ j

theorem ImpMap.ext {cells cells' : Nat → Cell} {k : Nat} {h : List (Nat × Nat)} (hm : ImpMap c d0 d1 cells k h) (hx : CellsExt cells cells') :
    ImpMap c d0 d1 cells' k h where
  ok := by
    intro j a b
    obtain ⟨r, t, t', h1, h2, h3, h4⟩ := hm.ok j a b
    exact ⟨r, t, t', h1, h2, h3.ext hx, h4⟩
  dom := hm.dom

theorem ImpMap.insert {cells : Nat → Cell} {k : Nat} {h : List (Nat × Nat)} (hm : ImpMap c d0 d1 cells (k + 1) h) {r : Nat} {t t' : Tree}
    (h1 : CRepr c.ins (d0 + k) t) (h2 : Repr cells r t') (h3 : Same t t') : ImpMap c d0 d1 cells k (insertNew h (d0 + k) r) where
  ok := by
    intro j a b
    rw [insertNew_lookup]
    by_cases hj : j = d0 + k
    · subst hj
      have : h.lookup (d0 + k) = none := by
        cases e : h.lookup (d0 + k) with
        | none => rfl
        | some r => have := hm.dom _ _ e; omega
      exact ⟨r, t, t', by rw [this]; simp, h1, h2, h3⟩
    · obtain ⟨q, u, u', g1, g2, g3, g4⟩ := hm.ok j (by omega) b
      exact ⟨q, u, u', by rw [g1]; rfl, g2, g3, g4⟩
  dom := by
    intro j q hj
    rw [insertNew_lookup] at hj
    cases e : h.lookup j with
    | some _ => have := hm.dom _ _ e; omega
    | none =>
      rw [e] at hj
      by_cases hk : j = d0 + k
      · omega
      · simp [hk] at hj

theorem iteSem_or (hmd : OrMode md) {a b d r : Bool} (h : iteSem md.sem a b d r) : r = if a then b else d := by
  rcases h with h | ⟨rfl, rfl, rfl, h⟩
  · exact h
  · rw [hmd.sem] at h
    simpa using h

theorem importLoop_ok (hmd : OrMode md) (hw : c.Wf nr) (he : c.Entry nr d0 d1) (ho : c.Ordered nr)
    (hv : ∀ v, c.Var nr v → v < topsinkIndex) (hdbg : cfg.ndebug = true ∨ d1 ≤ 1002) : ∀ (k : Nat) (h : List (Nat × Nat)) (s : Mgr),
    Inv cfg md refs s → d0 + k ≤ d1 → ImpMap c d0 d1 s.cells k h →
    SpecG cfg md refs (importLoop cfg c d0 k h) s (fun h' s' => ImpMap c d0 d1 s'.cells 0 h')
  | 0, h, s, hi, _, hm => SpecG.pure hi hm
  | k + 1, h, s, hi, hk, hm => by
    have hr := hw.entry he
    obtain ⟨e, ha, hc⟩ := hr.cases (i := d0 + k) (by omega) (by omega)
    unfold importLoop
    refine SpecG.read_bind (a := e) (by unfold insOf; rw [ha]) ?_
    rcases hc with ⟨a1, a2, a3, a4, a5, a6, a7⟩ | ⟨a1, _, a3⟩
    · have hin := Instr.inner_of_lt a2
      have b1 : e.isBot = false := by simp [Instr.isBot, hin.1]
      have b2 : e.isTop = false := by simp [Instr.isTop, hin.2]
      rw [b1, b2]
      simp only [Bool.false_eq_true, if_false]
      have hassert : ∀ {β : Type} (f : Unit → M Mgr β) (R : β → Mgr → Prop), SpecG cfg md refs (f ()) s R →
          SpecG cfg md refs (M.assert cfg.ndebug (decide (d0 + k < 1000)) >>= f) s R := by
        intro β f R hf
        rcases hdbg with h | h
        · rw [h]; exact hf
        · exact SpecG.assert_bind (by simp; omega) hf
      refine hassert _ _ ?_
      obtain ⟨p, tl, tl', e1, l1, l2, l3⟩ := hm.ok e.lo (by omega) a5
      obtain ⟨q, th, th', e2, r1, r2, r3⟩ := hm.ok e.hi (by omega) a7
      have ht : CRepr c.ins (d0 + k) (.node e.index tl th) := .node ha hin l1 r1
      have hot := hw.tree_ordered he ho ht (by omega) (by omega)
      simp only [e1, e2]
      refine SpecG.bind (projection_ok hi (hv _ ⟨_, e, ⟨d0, d1, he, by omega, by omega, ha⟩, hin, rfl⟩)) ?_
      rintro v s1 g1 hi1 ⟨hrv, hnv, _⟩
      have l2' := l2.ext g1.cells
      have r2' := r2.ext g1.cells
      have hsafe : IteSafe s1.nvars (.node e.index .bot .top) th' tl' := by
        by_cases hlast : e.index + 1 < s1.nvars
        · left
          rintro w (rfl | h | h)
          · exact hlast
          · exact h.elim
          · exact h.elim
        · right
          rintro w (h | h)
          · have := hot.2.1 w (r3.mem w h)
            have := hi1.mem_lt r2' h
            omega
          · have := hot.1 w (l3.mem w h)
            have := hi1.mem_lt l2' h
            omega
      have hsem : SemIte md := hmd.semIte
      refine SpecG.bind (iteOp_ok hsem hi1 hrv r2' l2' hsafe).toG ?_
      rintro r s2 g2 hi2 ⟨tr, hrr, hev, hmem, _⟩
      refine importLoop_ok hmd hw he ho hv hdbg k _ s2 hi2 (by omega) (((hm.ext g1.cells).ext g2.cells).insert ht hrr ⟨?_, ?_⟩)
      · intro x
        have := iteSem_or hmd (hev x)
        rw [this, r3.eval, l3.eval]
        simp only [Tree.eval]
        by_cases hxe : x e.index = true <;> simp [hxe]
      · intro w hw'
        rcases hmem w hw' with h | h | h
        · rcases h with rfl | h | h
          · exact Or.inl rfl
          · exact h.elim
          · exact h.elim
        · exact Or.inr (Or.inr (r3.mem w h))
        · exact Or.inr (Or.inl (l3.mem w h))
    · have hne : ¬ cTop = cBot := fun h => cBot_ne_cTop h.symm
      rcases a3 with a3 | a3
      · have b1 : e.isBot = true := by simp [Instr.isBot, a3]
        rw [b1, if_pos rfl]
        exact importLoop_ok hmd hw he ho hv hdbg k _ s hi (by omega) (hm.insert (.bot ha a3) .bot ⟨fun _ => rfl, fun _ h => h⟩)
      · have b1 : e.isBot = false := by simp [Instr.isBot, a3, hne]
        have b2 : e.isTop = true := by simp [Instr.isTop, a3]
        rw [b1, b2, if_neg (by decide), if_pos rfl]
        exact importLoop_ok hmd hw he ho hv hdbg k _ s hi (by omega) (hm.insert (.top ha a3) .top ⟨fun _ => rfl, fun _ h => h⟩)

/-- `bdd_mgr::add_bdd` of an ordered entry: the returned node denotes the function of the entry. -/
theorem mgrAddBdd_ok {s : Mgr} (hmd : OrMode md) (hi : Inv cfg md refs s) (hw : c.Wf nr) (he : c.Entry nr d0 d1) (ho : c.Ordered nr)
    (hv : ∀ v, c.Var nr v → v < topsinkIndex) (hdbg : cfg.ndebug = true ∨ d1 ≤ 1002) :
    SpecG cfg md refs (mgrAddBdd cfg c nr) s (fun r s' => ∃ t t', CRepr c.ins d0 t ∧ Repr s'.cells r t' ∧ Same t t') := by
  have hr := hw.entry he
  have h2 := hr.two
  unfold mgrAddBdd
  refine SpecG.assert_bind (by simpa using he.lt) ?_
  refine SpecG.read_bind (a := d0) (by unfold dlmOf; rw [he.1]) ?_
  refine SpecG.read_bind (a := d1) (by unfold dlmOf; rw [he.2]) ?_
  refine SpecG.bind (importLoop_ok hmd hw he ho hv hdbg _ _ s hi (by omega) ⟨fun j h0 h1 => by omega, fun j r h => by simp at h⟩) ?_
  intro h s1 _ hi1 hm
  obtain ⟨r, t, t', g1, g2, g3, g4⟩ := hm.ok d0 (by omega) (by omega)
  simp only [g1]
  exact SpecG.pure hi1 ⟨t, t', g2, g3, g4⟩

end
end LBDD
