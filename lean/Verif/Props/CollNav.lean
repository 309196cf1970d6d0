import Verif.Spec.CollNav
import Verif.Props.CollQuery
/-!
# Walking over entries with node handles (C59, C60)
-/
namespace LBDD
section
variable {cfg : Cfg} {c : Coll} {nr d0 d1 : Nat}

theorem navRoot (he : c.Entry nr d0 d1) (hw : WfRange c.ins d0 d1) : entryRoot cfg nr c = .ok d0 c := by
  have := hw.two
  unfold entryRoot
  rw [M.bind_ok (mkEntry_ok he.lt), M.bind_ok (dlm_ok0 he)]
  exact mkNode_ok he (Nat.le_refl _) (by omega)

theorem navIsTerm_ok {i : Nat} {e : Instr} (h : c.ins[i]? = some e) : navIsTerm i c = .ok e.isTerm c := by
  unfold navIsTerm
  rw [M.bind_ok (insAt_ok h)]; rfl

theorem navIsTop_ok {i : Nat} {e : Instr} (h : c.ins[i]? = some e) : navIsTop i c = .ok e.isTop c := by
  unfold navIsTop
  rw [M.bind_ok (insAt_ok h)]; rfl

theorem navWalk_ok (he : c.Entry nr d0 d1) (hw : WfRange c.ins d0 d1) {x : List Bool} {i : Nat} {t : Tree} (ht : CRepr c.ins i t) (hx : ∀ v, t.Mem v → v < x.length)
    (h0 : d0 ≤ i) (h1 : i < d1) : ∀ n, d1 ≤ i + n → navWalk cfg nr x n i c = .ok (t.eval (fun v => x.getD v false)) c := by
  induction ht with
  | @bot i e a b =>
    intro n hn
    obtain ⟨n, rfl⟩ : ∃ k, n = k + 1 := ⟨n - 1, by omega⟩
    obtain ⟨q1, q2⟩ := hw.inner_iff h0 h1 a
    have : e.isTerm = true := q2.2 (Nat.le_of_not_lt fun h => (q1.2 h).1 b)
    unfold navWalk
    rw [M.bind_ok (navIsTerm_ok a), this, if_pos rfl, navIsTop_ok a]
    simp [Instr.isTop, b, cBot_ne_cTop, Tree.eval]
  | @top i e a b =>
    intro n hn
    obtain ⟨n, rfl⟩ : ∃ k, n = k + 1 := ⟨n - 1, by omega⟩
    obtain ⟨q1, q2⟩ := hw.inner_iff h0 h1 a
    have : e.isTerm = true := q2.2 (Nat.le_of_not_lt fun h => (q1.2 h).2 b)
    unfold navWalk
    rw [M.bind_ok (navIsTerm_ok a), this, if_pos rfl, navIsTop_ok a]
    simp [Instr.isTop, b, Tree.eval]
  | @node i e tl th a b _ _ ih1 ih2 =>
    intro n hn
    obtain ⟨n, rfl⟩ : ∃ k, n = k + 1 := ⟨n - 1, by omega⟩
    obtain ⟨p1, p2, p3, p4, p5, p6, p7⟩ := hw.node h0 h1 a b
    obtain ⟨q1, q2⟩ := hw.inner_iff h0 h1 a
    have hf : e.isTerm = false := by simpa using fun h => Nat.not_lt.2 (q2.1 h) p1
    have hlt : e.index < x.length := hx _ (Or.inl rfl)
    have hg : x[e.index]? = some (x.getD e.index false) := by simp [hlt]
    have hs : ∀ bb, x.getD e.index false = bb → navStep cfg nr x i c = .ok (if bb then e.hi else e.lo) c := by
      intro bb hbb
      have e1 : navVar i c = .ok e.index c := by unfold navVar; rw [M.bind_ok (insAt_ok a)]; rfl
      unfold navStep
      rw [M.bind_ok e1, hg, hbb]
      show navChild cfg nr bb i c = _
      unfold navChild
      rw [M.bind_ok (insAt_ok a), M.assert_bind_apply (by simp [hf])]
      cases bb
      · exact mkNode_ok (i := e.lo) he (by omega) p5
      · exact mkNode_ok (i := e.hi) he (by omega) p7
    unfold navWalk
    rw [M.bind_ok (navIsTerm_ok a), hf, if_neg (by simp), M.bind_ok (hs _ rfl)]
    cases hb : x.getD e.index false with
    | true =>
      simp only [if_true]
      rw [ih2 (fun v hv => hx v (Or.inr (Or.inr hv))) (by omega) p7 n (by omega)]
      simp only [Tree.eval, hb, if_true]
    | false =>
      simp only [Bool.false_eq_true, if_false]
      rw [ih1 (fun v hv => hx v (Or.inr (Or.inl hv))) (by omega) p5 n (by omega)]
      simp only [Tree.eval, hb, Bool.false_eq_true, if_false]

/-- C59: walking from `root_node()` along `lo()` and `hi()` as the assignment says, until `is_terminal()`, takes at most as many steps as the entry has
instructions, trips no assertion, and ends in a node with `is_topsink()` exactly when `evaluate` returns true. -/
theorem C59_navigate (hC : CReachable cfg c) (hn : nr < c.nrBdds) {x : List Bool} (hx : CCovers c nr x) :
    ∃ b k, cEvaluate cfg c nr x = .ok b () ∧ c.Size nr k ∧ ∀ n, k ≤ n → navEval cfg nr x n c = .ok b c := by
  have hwf := hC.inv.wf nr hn
  obtain ⟨d0, d1, he, hw⟩ := hwf
  have h2 := hw.two
  obtain ⟨t, ht⟩ := Coll.Wf.tree ⟨d0, d1, he, hw⟩ he
  have hm : ∀ v, t.Mem v → v < x.length := fun v hv => by
    obtain ⟨j, e, a1, a2, a3, a4, a5⟩ := hw.mem ht (Nat.le_refl _) (by omega) hv
    exact hx v ⟨j, e, ⟨d0, d1, he, a1, a2, a3⟩, a4, a5⟩
  refine ⟨_, d1 - d0, cEvaluate_ok he hw ht hm, ⟨d0, d1, he, by omega⟩, fun n hn => ?_⟩
  unfold navEval
  rw [M.bind_ok (navRoot he hw)]
  exact navWalk_ok he hw ht hm (Nat.le_refl _) (by omega) n (by omega)

theorem navIsBot_ok {i : Nat} {e : Instr} (h : c.ins[i]? = some e) : navIsBot i c = .ok e.isBot c := by
  unfold navIsBot
  rw [M.bind_ok (insAt_ok h)]; rfl

/-- C59: exactly one node of the entry answers `is_topsink()`, exactly one other node `is_botsink()`, and these two are the nodes that answer `is_terminal()`. -/
theorem C59_sinks (hC : CReachable cfg c) (hn : nr < c.nrBdds) :
    ∃ t b et eb, t ≠ b ∧ c.At nr t et ∧ c.At nr b eb ∧ ∀ i e, c.At nr i e → navIsTop i c = .ok (decide (i = t)) c ∧ navIsBot i c = .ok (decide (i = b)) c ∧
      navIsTerm i c = .ok (decide (i = t ∨ i = b)) c := by
  obtain ⟨d0, d1, he, hw⟩ := hC.inv.wf nr hn
  obtain ⟨t, b, et, eb, t0, t2, t1, ht, hti, htl, b0, b2, b1, hb, hbi, hbl⟩ := hw.topPos
  have hne := cBot_ne_cTop
  refine ⟨t, b, et, eb, ?_, ⟨d0, d1, he, t0, t1, ht⟩, ⟨d0, d1, he, b0, b1, hb⟩, ?_⟩
  · rintro rfl
    rw [ht] at hb; cases hb
    exact hne (hbi.symm.trans hti)
  · rintro i e ⟨a, a', h1, i0, i1, hi⟩
    obtain ⟨rfl, rfl⟩ := h1.unique he
    have k1 : (e.index = cTop) ↔ i = t := by
      constructor
      · intro h
        exact (hw.sink_inj t0 t1 i0 i1 ht hi (fun hI => hI.2 hti) (by rw [hti, h])).symm
      · rintro rfl
        rw [ht] at hi; cases hi; exact hti
    have k2 : (e.index = cBot) ↔ i = b := by
      constructor
      · intro h
        exact (hw.sink_inj b0 b1 i0 i1 hb hi (fun hI => hI.1 hbi) (by rw [hbi, h])).symm
      · rintro rfl
        rw [hb] at hi; cases hi; exact hbi
    have k3 : e.isTerm = true ↔ i = t ∨ i = b := by
      obtain ⟨q1, q2⟩ := hw.inner_iff i0 i1 hi
      rw [q2, ← k1, ← k2]
      constructor
      · intro h
        have : ¬ e.Inner := fun hI => by have := q1.1 hI; omega
        unfold Instr.Inner at this
        by_cases h1 : e.index = cTop
        · exact Or.inl h1
        · exact Or.inr (Classical.byContradiction fun h2 => this ⟨h2, h1⟩)
      · intro h
        refine Nat.le_of_not_lt fun h' => ?_
        obtain ⟨a1, a2⟩ := q1.2 h'
        exact h.elim a2 a1
    rw [navIsTop_ok hi, navIsBot_ok hi, navIsTerm_ok hi]
    refine ⟨?_, ?_, ?_⟩
    · congr 1; rw [Bool.eq_iff_iff]; simpa [Instr.isTop] using k1
    · congr 1; rw [Bool.eq_iff_iff]; simpa [Instr.isBot] using k2
    · congr 1; rw [Bool.eq_iff_iff]; simpa using k3

/-- The positions from `i` down to `r`. -/
def downTo (r : Nat) : Nat → List Nat
  | 0 => [r]
  | k + 1 => (r + k + 1) :: downTo r k

theorem mem_downTo {r : Nat} : ∀ {k j : Nat}, j ∈ downTo r k ↔ r ≤ j ∧ j ≤ r + k
  | 0, j => by simp [downTo]; omega
  | k + 1, j => by
    simp only [downTo, List.mem_cons, mem_downTo (k := k)]
    omega

theorem downTo_nodup {r : Nat} : ∀ {k : Nat}, (downTo r k).Nodup
  | 0 => by simp [downTo]
  | k + 1 => by
    simp only [downTo, List.nodup_cons, mem_downTo]
    exact ⟨by omega, downTo_nodup⟩

theorem downTo_split {r : Nat} : ∀ {k i j : Nat}, r ≤ i → i < j → j ≤ r + k → ∃ l1 l2, downTo r k = l1 ++ l2 ∧ j ∈ l1 ∧ i ∈ l2
  | 0, i, j => by intro _ _ _; omega
  | k + 1, i, j => by
    intro h1 h2 h3
    rcases Nat.lt_or_ge j (r + k + 1) with h | h
    · obtain ⟨l1, l2, q1, q2, q3⟩ := downTo_split (k := k) h1 h2 (by omega)
      exact ⟨(r + k + 1) :: l1, l2, by simp [downTo, q1], by simp [q2], q3⟩
    · have : j = r + k + 1 := by omega
      subst this
      exact ⟨[r + k + 1], downTo r k, rfl, by simp, mem_downTo.2 (by omega)⟩

theorem navUpTo_ok (he : c.Entry nr d0 d1) (hw : WfRange c.ins d0 d1) : ∀ (k n : Nat), k < n → d0 + k + 2 < d1 →
    navUpTo cfg nr d0 n (d0 + k) c = .ok (downTo d0 k) c
  | 0, n, hn, h => by
    obtain ⟨n, rfl⟩ : ∃ k, n = k + 1 := ⟨n - 1, by omega⟩
    unfold navUpTo
    rw [if_pos (by omega)]; rfl
  | k + 1, n, hn, h => by
    obtain ⟨n, rfl⟩ : ∃ k, n = k + 1 := ⟨n - 1, by omega⟩
    unfold navUpTo
    rw [if_neg (by omega)]
    have e1 : navNext cfg nr (d0 + (k + 1)) c = .ok (d0 + k) c := by
      obtain ⟨e, a, b⟩ := hw.inner (d0 + (k + 1)) (by omega) (by omega)
      obtain ⟨q1, q2⟩ := hw.inner_iff (by omega) (by omega) a
      have hf : e.isTerm = false := by simpa using fun h' => Nat.not_lt.2 (q2.1 h') (by omega)
      unfold navNext
      rw [M.bind_ok (insAt_ok a), M.assert_bind_apply (by simp [hf]), M.bind_ok (dlm_ok0 he), M.bind_ok (mkNode_ok he (Nat.le_refl _) (by omega)),
        M.assert_bind_apply (by
          have : (d0 != d0 + (k + 1)) = true := by rw [bne_iff_ne]; omega
          simp [this])]
      rw [show d0 + (k + 1) - 1 = d0 + k by omega]
      exact mkNode_ok he (by omega) (by omega)
    rw [M.bind_ok e1, M.bind_ok (navUpTo_ok he hw k n (by omega) (by omega))]
    rfl

/-- C60: the loop from `first_node_postorder()` by `next_postorder()` to `root_node()` visits every inner node of the entry exactly once, children before
their parents and the root last, and trips no assertion. -/
theorem C60_postorder (hC : CReachable cfg c) (hn : nr < c.nrBdds) (hb : c.Big nr) :
    ∃ ps k r, c.Size nr k ∧ (∀ n, k ≤ n → navAll cfg nr n c = .ok ps c) ∧ ps.Nodup ∧ (∀ i, i ∈ ps ↔ ∃ e, c.At nr i e ∧ e.Inner) ∧
      entryRoot cfg nr c = .ok r c ∧ ps.getLast? = some r ∧
      ∀ i e j e', c.At nr i e → e.Inner → (j = e.lo ∨ j = e.hi) → c.At nr j e' → e'.Inner → ∃ l1 l2, ps = l1 ++ l2 ∧ j ∈ l1 ∧ i ∈ l2 := by
  obtain ⟨d0, d1, he, hw⟩ := hC.inv.wf nr hn
  have h3 := hb d0 d1 he
  have at_iff : ∀ {i e}, c.At nr i e → d0 ≤ i ∧ i < d1 ∧ c.ins[i]? = some e := by
    rintro i e ⟨a, b, h1, h2⟩
    obtain ⟨rfl, rfl⟩ := h1.unique he
    exact h2
  refine ⟨downTo d0 (d1 - 3 - d0), d1 - d0, d0, ⟨d0, d1, he, by omega⟩, fun n hn => ?_, downTo_nodup, fun i => ?_, navRoot he hw, ?_, ?_⟩
  · unfold navAll
    rw [M.bind_ok (navRoot he hw)]
    have e1 : navFirst cfg nr c = .ok (d1 - 3) c := by
      unfold navFirst
      rw [M.bind_ok (mkEntry_ok he.lt), M.bind_ok (cNrNodes_ok he), M.assert_bind_apply (by simp; omega), M.bind_ok (dlm_ok1 he)]
      exact mkNode_ok he (by omega) (by omega)
    rw [M.bind_ok e1]
    have := navUpTo_ok (cfg := cfg) he hw (d1 - 3 - d0) n (by omega) (by omega)
    rw [show d0 + (d1 - 3 - d0) = d1 - 3 by omega] at this
    exact this
  · rw [mem_downTo]
    constructor
    · intro h
      obtain ⟨e, a, b⟩ := hw.inner i h.1 (by omega)
      exact ⟨e, ⟨d0, d1, he, h.1, by omega, a⟩, Instr.inner_of_lt b.1⟩
    · rintro ⟨e, ha, hi⟩
      obtain ⟨a1, a2, a3⟩ := at_iff ha
      have := hw.node a1 a2 a3 hi
      omega
  · have : ∀ k, (downTo d0 k).getLast? = some d0 := by
      intro k
      induction k with
      | zero => rfl
      | succ k ih =>
        have : downTo d0 k ≠ [] := by cases k <;> simp [downTo]
        simp [downTo, List.getLast?_cons, ih]
    exact this _
  · intro i e j e' ha hi hj ha' hi'
    obtain ⟨a1, a2, a3⟩ := at_iff ha
    obtain ⟨b1, b2, b3⟩ := at_iff ha'
    have p1 := hw.node a1 a2 a3 hi
    have p2 := hw.node b1 b2 b3 hi'
    exact downTo_split a1 (by rcases hj with rfl | rfl <;> omega) (by omega)

end

/-- The size of entry 2 of the demo collection. -/
theorem demoC_size (nd : Bool) {k : Nat} (h : (demoC nd).Size 2 k) : k = 5 := by
  obtain ⟨d0, d1, ⟨h1, h2⟩, h3⟩ := h
  have hd : (demoC nd).del = [0, 4, 8, 13, 16] := by cases nd <;> decide +kernel
  rw [hd] at h1 h2
  simp at h1 h2
  omega

/-- Entry 2 of the demo collection, (x0∧x1)∨x2, is true under x0 = false, x2 = true. -/
theorem C59_example (nd : Bool) : ∀ n, 5 ≤ n → navEval (envOf nd) 2 [false, true, true] n (demoC nd) = .ok true (demoC nd) := by
  have hx : CCovers (demoC nd) 2 [false, true, true] := fun v hv => by
    have := demoC_vars nd 2 (by omega) v hv
    simp; omega
  obtain ⟨b, k, h1, h2, h3⟩ := C59_navigate (demoC_reachable nd) (nr := 2) (by rw [demoC_nrBdds]; omega) hx
  have e : cEvaluate (envOf nd) (demoC nd) 2 [false, true, true] = .ok true () := cevB_sound (by cases nd <;> decide +kernel)
  rw [e] at h1
  cases h1
  have := demoC_size nd h2
  subst this
  exact h3

/-- The three inner nodes of that entry. -/
theorem C60_example (nd : Bool) : ∃ ps, navAll (envOf nd) 2 5 (demoC nd) = .ok ps (demoC nd) ∧ ps.Nodup ∧ ∀ i, i ∈ ps ↔ ∃ e, (demoC nd).At 2 i e ∧ e.Inner := by
  obtain ⟨ps, k, r, h1, h2, h3, h4, _⟩ := C60_postorder (demoC_reachable nd) (nr := 2) (by rw [demoC_nrBdds]; omega) (demoC_big_reduced nd 2 (by omega)).1
  have := demoC_size nd h1
  subst this
  exact ⟨ps, h2 5 (Nat.le_refl _), h3, h4⟩

end LBDD
