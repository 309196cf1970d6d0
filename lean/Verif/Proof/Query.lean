import Verif.Proof.Bfs
/-! The read-only queries on BDDs: results, and that the state is exactly as before. -/
namespace LBDD
section
variable {cfg : Cfg} {md : Md} {refs : Nat → Nat} {s : Mgr}

theorem Lists.length_eq {c : Nat → Cell} {p : Nat} {l l' : List Nat} (h : Lists c p l) (h' : Lists c p l') : l.length = l'.length := by
  refine List.Perm.length_eq ((List.perm_ext_iff_of_nodup h.nodup h'.nodup).2 fun q => ?_)
  rw [h.mem, h'.mem]

/-- The mark bit read by the entry assert is clear (always so for inner nodes; sinks never get theirs initialised). -/
def MarkOk (cfg : Cfg) (s : Mgr) (p : Nat) : Prop := 2 ≤ p ∨ cfg.ndebug = true ∨ s.marks p = false

theorem SinkOk.mark (h : SinkOk cfg) (hi : Inv cfg md refs s) (p : Nat) : MarkOk cfg s p := by
  rcases h with h | h
  · exact Or.inr (Or.inl h)
  · by_cases h2 : 2 ≤ p
    · exact Or.inl h2
    · have e : p = 0 ∨ p = 1 := by omega
      rcases e with rfl | rfl
      · exact Or.inr (Or.inr (hi.smark.1.trans (h _)))
      · exact Or.inr (Or.inr (hi.smark.2.trans (h _)))

theorem markAssert (hi : Inv cfg md refs s) {p : Nat} {t : Tree} (hp : Repr s.cells p t) (hm : MarkOk cfg s p) {β : Type}
    (f : Unit → M Mgr β) : ((M.assert cfg.ndebug (!s.marks p) : M Mgr Unit) >>= f) s = f () s := by
  refine M.bind_ok ?_
  unfold M.assert
  rcases hm with h | h | h
  · rw [hi.mark p h (hi.live_of hp)]; simp
  · simp [h]
  · simp [h]

theorem nrNodes_ok (hi : Inv cfg md refs s) {p : Nat} {t : Tree} (hp : Repr s.cells p t) (hm : MarkOk cfg s p) :
    ∃ l, Lists s.cells p l ∧ nrNodes cfg p s = .ok l.length s := by
  obtain ⟨l, s1, e1, e2, h, _⟩ := visit_unmark hi false hp
  refine ⟨l, h, ?_⟩
  unfold nrNodes
  rw [M.get_bind_apply, M.bind_ok (getMark_ok s p), markAssert hi hp hm, M.bind_ok e1, M.bind_ok e2]
  rfl

theorem assertCount_ok (hi : Inv cfg md refs s) {p : Nat} {t : Tree} (hp : Repr s.cells p t) (hm : MarkOk cfg s p) {l : List Nat}
    (hl : Lists s.cells p l) : assertCount cfg p l.length s = .ok () s := by
  unfold assertCount
  split
  · rfl
  · obtain ⟨l', h', e⟩ := nrNodes_ok hi hp hm
    rw [M.bind_ok e]
    unfold M.assert
    simp [hl.length_eq h']

theorem nodesPostorder_ok (hi : Inv cfg md refs s) {p : Nat} {t : Tree} (hp : Repr s.cells p t) (hm : MarkOk cfg s p) :
    ∃ l, nodesPostorder cfg p s = .ok l s ∧ Lists s.cells p l ∧ PostOk s.cells (fun _ => False) l ∧
      (2 ≤ p → ∃ l', l = l' ++ [p]) := by
  obtain ⟨l, s1, e1, e2, h, h2, _⟩ := visit_unmark hi true hp
  refine ⟨l, ?_, h, h2 rfl⟩
  unfold nodesPostorder
  rw [M.get_bind_apply, M.bind_ok (getMark_ok s p), markAssert hi hp hm, M.bind_ok e1, M.bind_ok e2,
    M.bind_ok (assertCount_ok hi hp hm h)]
  rfl

theorem nodesBfs_run (hi : Inv cfg md refs s) {p : Nat} {t : Tree} (hp : Repr s.cells p t) (h2 : 2 ≤ p) :
    ∃ l s1, bfsLoop cfg ((s.pool.pages - 1) * 4096 + s.pool.off + 1) [p] [] { s with marks := upd s.marks p true } = .ok l s1 ∧
      unmark cfg (fuel1 s) p s1 = .ok () s ∧ BfsList s.cells p l := by
  have hl := hi.live_of hp
  have hmp := hi.mark p h2 hl
  have h0 : Bfs s.cells p s.marks (upd s.marks p true) ([] ++ [p]) (fun _ => 0) := by
    constructor
    · intro q
      by_cases e : q = p
      · subst e; simp
      · rw [upd_ne _ _ e]; simp [e]
    · simp
    · intro q hq; simp only [List.nil_append, List.mem_singleton] at hq; subst hq; exact ⟨h2, hl, hmp⟩
    · exact ⟨[], rfl⟩
    · rfl
    · simp
    · intro q hq; simp only [List.nil_append, List.mem_singleton] at hq; subst hq; exact .refl _
    · intro l1 q l2 e
      cases l1 with
      | nil => simp only [List.nil_append, List.cons.injEq] at e; exact Or.inl e.1.symm
      | cons x l1 => simp at e
  obtain ⟨l, m', d', e, b, hc⟩ := bfsLoop_ok (cfg := cfg) hi (fun q q2 hr => hi.mark q q2 (hr.live_or hi hp)) ((s.pool.pages - 1) * 4096 + s.pool.off + 1) [p] [] _ _ h0 (by simp [Pool.hw])
    (fun _ _ _ _ _ => Nat.zero_le _) (by intro q hq; cases hq)
  have hbl := bfsList_of b hc
  exact ⟨l, _, e, unmark_restores hi hp b.marks hbl.lists.mem, hbl⟩

theorem nodesBfs_ok (hi : Inv cfg md refs s) {p : Nat} {t : Tree} (hp : Repr s.cells p t) (h2 : 2 ≤ p) :
    ∃ l, nodesBfs cfg p s = .ok l s ∧ BfsList s.cells p l := by
  obtain ⟨l, s1, e, e2, hbl⟩ := nodesBfs_run (cfg := cfg) hi hp h2
  refine ⟨l, ?_, hbl⟩
  unfold nodesBfs
  rw [M.get_bind_apply, M.bind_ok (getMark_ok s p), markAssert hi hp (Or.inl h2), M.bind_ok (setMark_ok s p true), M.bind_ok e,
    M.bind_ok e2, M.bind_ok (assertCount_ok hi hp (Or.inl h2) hbl.lists)]
  rfl

/-! ### variables -/

theorem uniq_mem : ∀ (l : List Nat) (x : Nat), x ∈ uniq l ↔ x ∈ l := by
  intro l
  induction l with
  | nil => intro x; rfl
  | cons a l ih =>
    intro x
    cases l with
    | nil => rfl
    | cons b l =>
      simp only [uniq]
      split
      · rename_i e; subst e; rw [ih]; simp
      · simp only [List.mem_cons, ih]

theorem uniq_sorted : ∀ (l : List Nat), l.Pairwise (· ≤ ·) → (uniq l).Pairwise (· < ·) := by
  intro l
  induction l with
  | nil => intro _; exact List.Pairwise.nil
  | cons a l ih =>
    intro h
    cases l with
    | nil => simp [uniq]
    | cons b l =>
      simp only [uniq]
      rw [List.pairwise_cons] at h
      split
      · exact ih h.2
      · rename_i hne
        rw [List.pairwise_cons]
        refine ⟨?_, ih h.2⟩
        intro x hx
        rw [uniq_mem] at hx
        have hab := h.1 b (by simp)
        rcases List.mem_cons.1 hx with rfl | hx
        · omega
        · have := (List.pairwise_cons.1 h.2).1 x hx
          omega

theorem sortUniq_mem (l : List Nat) (x : Nat) : x ∈ sortUniq l ↔ x ∈ l := by
  unfold sortUniq
  rw [uniq_mem, List.mem_mergeSort]

theorem sortUniq_sorted (l : List Nat) : (sortUniq l).Pairwise (· < ·) := by
  refine uniq_sorted _ ?_
  refine (List.pairwise_mergeSort (le := fun a b => decide (a ≤ b)) ?_ ?_ l).imp ?_
  · intro a b c h1 h2
    simp only [decide_eq_true_eq] at *; omega
  · intro a b
    simp only [Bool.or_eq_true, decide_eq_true_eq]; omega
  · intro a b h; simpa using h

/-- The labels of a tree are the labels of the reachable nodes. -/
theorem Repr.mem_iff {c : Nat → Cell} {p : Nat} {t : Tree} (h : Repr c p t) (v : Nat) :
    t.Mem v ↔ ∃ q, 2 ≤ q ∧ Reaches c p q ∧ (c q).index = v := by
  constructor
  · induction h with
    | bot => intro h; exact h.elim
    | top => intro h; exact h.elim
    | @node p _ _ h2 hl _ _ _ ihl ihh =>
      rintro (h | h | h)
      · exact ⟨p, h2, .refl _, h.symm⟩
      · obtain ⟨q, a, b, d⟩ := ihl h; exact ⟨q, a, .lo h2 hl b, d⟩
      · obtain ⟨q, a, b, d⟩ := ihh h; exact ⟨q, a, .hi h2 hl b, d⟩
  · rintro ⟨q, q2, hr, rfl⟩
    induction hr generalizing t with
    | refl => obtain ⟨_, _, rfl, _⟩ := h.inv q2; exact Or.inl rfl
    | lo h2 _ _ ih =>
      obtain ⟨_, _, rfl, _, _, h3, _⟩ := h.inv h2
      exact Or.inr (Or.inl (ih h3 q2))
    | hi h2 _ _ ih =>
      obtain ⟨_, _, rfl, _, _, _, h3⟩ := h.inv h2
      exact Or.inr (Or.inr (ih h3 q2))

theorem variables_ok (hi : Inv cfg md refs s) {p : Nat} {t : Tree} (hp : Repr s.cells p t) :
    ∃ l, variables cfg p s = .ok l s ∧ l.Pairwise (· < ·) ∧ ∀ v, v ∈ l ↔ t.Mem v := by
  obtain ⟨l, s1, e1, e2, h, _⟩ := visit_unmark hi false hp
  refine ⟨sortUniq (l.map fun q => (s.cells q).index), ?_, sortUniq_sorted _, ?_⟩
  · unfold variables
    rw [M.get_bind_apply, M.bind_ok e1, M.bind_ok e2]
    rfl
  · intro v
    rw [sortUniq_mem, hp.mem_iff, List.mem_map]
    constructor
    · rintro ⟨q, hq, rfl⟩; obtain ⟨a, b⟩ := (h.mem q).1 hq; exact ⟨q, a, b, rfl⟩
    · rintro ⟨q, a, b, e⟩; exact ⟨q, (h.mem q).2 ⟨a, b⟩, e⟩

theorem printArcs_ok (hi : Inv cfg md refs s) {p : Nat} {t : Tree} (hp : Repr s.cells p t) :
    ∃ a, printArcs cfg p s = .ok a s ∧ a.Nodup ∧
      ∀ q b r, (q, b, r) ∈ a ↔ 2 ≤ q ∧ Reaches s.cells p q ∧ r = (if b then (s.cells q).hi else (s.cells q).lo) := by
  obtain ⟨l, s1, e1, e2, h, _⟩ := visit_unmark hi false hp
  refine ⟨l.flatMap fun q => [(q, false, (s.cells q).lo), (q, true, (s.cells q).hi)], ?_, ?_, ?_⟩
  · unfold printArcs
    rw [M.get_bind_apply, M.bind_ok e1, M.bind_ok e2]
    rfl
  · have : ∀ l : List Nat, l.Nodup →
        (l.flatMap fun q => [(q, false, (s.cells q).lo), (q, true, (s.cells q).hi)]).Nodup := by
      intro l
      induction l with
      | nil => simp
      | cons a l ih =>
        intro hn
        rw [List.nodup_cons] at hn
        rw [List.flatMap_cons, List.nodup_append]
        refine ⟨by simp, ih hn.2, ?_⟩
        rintro ⟨x, y, z⟩ hx ⟨x', y', z'⟩ hy e
        have hxa : x = a := by
          simp only [List.mem_cons, Prod.mk.injEq, List.not_mem_nil, or_false] at hx
          rcases hx with h | h <;> exact h.1
        rw [List.mem_flatMap] at hy
        obtain ⟨w, hw, hy⟩ := hy
        have hxw : x' = w := by
          simp only [List.mem_cons, Prod.mk.injEq, List.not_mem_nil, or_false] at hy
          rcases hy with h | h <;> exact h.1
        simp only [Prod.mk.injEq] at e
        apply hn.1
        rw [← hxa, e.1, hxw]; exact hw
    exact this l h.nodup
  · intro q b r
    rw [List.mem_flatMap]
    constructor
    · rintro ⟨w, hw, hx⟩
      obtain ⟨a1, a2⟩ := (h.mem w).1 hw
      simp only [List.mem_cons, Prod.mk.injEq, List.not_mem_nil, or_false] at hx
      rcases hx with ⟨rfl, rfl, rfl⟩ | ⟨rfl, rfl, rfl⟩ <;> exact ⟨a1, a2, rfl⟩
    · rintro ⟨a1, a2, rfl⟩
      refine ⟨q, (h.mem q).2 ⟨a1, a2⟩, ?_⟩
      cases b <;> simp

/-! ### exactly one solution, manager of a handle -/

theorem Repr.eq_bot_iff {c : Nat → Cell} {p : Nat} {t : Tree} (h : Repr c p t) : p = 0 ↔ t = .bot := by
  cases h with
  | bot => simp
  | top => simp
  | node h2 => simp; omega

theorem Repr.eq_top_iff {c : Nat → Cell} {p : Nat} {t : Tree} (h : Repr c p t) : p = 1 ↔ t = .top := by
  cases h with
  | bot => simp
  | top => simp
  | node h2 => simp; omega

theorem exactlyOne_ok (hi : Inv cfg md refs s) (ho : md.ordered) : ∀ (n p : Nat) (t : Tree), Repr s.cells p t → t.height + 1 ≤ n →
    ∃ b, exactlyOne cfg n p s = .ok b s ∧ (b = true ↔ BFun.UniqueSol t.eval) := by
  intro n
  induction n with
  | zero => intro p t _ h; omega
  | succ n ih =>
    intro p t hp hn
    unfold exactlyOne
    rw [M.bind_ok (isTop_ok hi hp)]
    by_cases h1 : p = 1
    · have := hp.eq_top_iff.1 h1; subst this
      simp only [h1, decide_true, if_true]
      exact ⟨true, rfl, by simp [Tree.uniqueSol_top]⟩
    · simp only [h1, decide_false, Bool.false_eq_true, if_false]
      rw [M.bind_ok (isBot_ok hi hp)]
      by_cases h0 : p = 0
      · have := hp.eq_bot_iff.1 h0; subst this
        simp only [h0, decide_true, if_true]
        exact ⟨false, rfl, by simp [Tree.uniqueSol_bot]⟩
      · simp only [h0, decide_false, Bool.false_eq_true, if_false]
        have h2 : 2 ≤ p := by omega
        have htO := hi.ord ho _ _ hp
        have htR := hi.reduced hp
        obtain ⟨tl, th, rfl, hl, _, h3, h4⟩ := hp.inv h2
        simp only [Tree.height] at hn
        rw [M.bind_ok (lowOf_congr hi h2 hl rfl), M.bind_ok (highOf_congr hi h2 hl rfl), M.bind_ok (isBot_ok hi h3)]
        by_cases l0 : (s.cells p).lo = 0
        · simp only [l0, decide_true, if_true]
          have := h3.eq_bot_iff.1 l0; subst this
          obtain ⟨b, e, hb⟩ := ih _ _ h4 (by omega)
          refine ⟨b, e, hb.trans (Tree.uniqueSol_one (b := true) htO htR ?_ htO.2.2.2 htR.2.2 (Tree.not_mem_hi htO) ?_).symm⟩
          · intro x; simp only [Tree.eval]
          · intro w; simp [Tree.Mem]
        · simp only [l0, decide_false, Bool.false_eq_true, if_false]
          rw [M.bind_ok (isBot_ok hi h4)]
          by_cases r0 : (s.cells p).hi = 0
          · simp only [r0, decide_true, if_true]
            have := h4.eq_bot_iff.1 r0; subst this
            obtain ⟨b, e, hb⟩ := ih _ _ h3 (by omega)
            refine ⟨b, e, hb.trans (Tree.uniqueSol_one (b := false) htO htR ?_ htO.2.2.1 htR.2.1 (Tree.not_mem_lo htO) ?_).symm⟩
            · intro x; simp only [Tree.eval]; cases x (s.cells p).index <;> simp
            · intro w; simp [Tree.Mem]
          · simp only [r0, decide_false, Bool.false_eq_true, if_false]
            refine ⟨false, rfl, ?_⟩
            simp only [Bool.false_eq_true, false_iff]
            exact Tree.uniqueSol_two htO htR (fun e => l0 (h3.eq_bot_iff.2 e)) (fun e => r0 (h4.eq_bot_iff.2 e))

theorem exactlyOneSolution_ok (hi : Inv cfg md refs s) (ho : md.ordered) {p : Nat} {t : Tree} (hp : Repr s.cells p t) :
    ∃ b, exactlyOneSolution cfg p s = .ok b s ∧ (b = true ↔ BFun.UniqueSol t.eval) := by
  unfold exactlyOneSolution
  rw [M.get_bind_apply]
  exact exactlyOne_ok hi ho _ p t hp (by have := hi.ht _ _ hp; unfold fuel1; omega)

theorem findMgr_ok (hi : Inv cfg md refs s) : ∀ (n p : Nat) (t : Tree), Repr s.cells p t → t.height + 1 ≤ n →
    ∃ q, findMgr cfg n p s = .ok q s ∧ q < 2 ∧ Reaches s.cells p q := by
  intro n
  induction n with
  | zero => intro p t _ h; omega
  | succ n ih =>
    intro p t hp hn
    unfold findMgr
    rw [M.bind_ok (isTerm_ok hi hp rfl)]
    by_cases h2 : p < 2
    · simp only [h2, decide_true, if_true]; exact ⟨p, rfl, h2, .refl _⟩
    · simp only [h2, decide_false, Bool.false_eq_true, if_false]
      have h2' : 2 ≤ p := by omega
      obtain ⟨tl, th, rfl, hl, _, h3, h4⟩ := hp.inv h2'
      simp only [Tree.height] at hn
      rw [M.bind_ok (lowOf_congr hi h2' hl rfl), M.bind_ok (isTerm_ok hi h3 rfl)]
      by_cases l2 : (s.cells p).lo < 2
      · simp only [l2, decide_true, if_true]; exact ⟨_, rfl, l2, .lo h2' hl (.refl _)⟩
      · simp only [l2, decide_false, Bool.false_eq_true, if_false]
        rw [M.bind_ok (highOf_congr hi h2' hl rfl)]
        obtain ⟨q, e, q2, hr⟩ := ih _ _ h4 (by omega)
        exact ⟨q, e, q2, .hi h2' hl hr⟩

theorem findBddMgr_ok (hi : Inv cfg md refs s) {p : Nat} {t : Tree} (hp : Repr s.cells p t) :
    ∃ q, findBddMgr cfg p s = .ok q s ∧ q < 2 ∧ Reaches s.cells p q := by
  unfold findBddMgr
  rw [M.get_bind_apply]
  exact findMgr_ok hi _ p t hp (by have := hi.ht _ _ hp; unfold fuel1; omega)

end
end LBDD
