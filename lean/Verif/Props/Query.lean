import Verif.Props.Ranges
/-!
# Queries, renaming and the limited conjunction (C22–C29, C54, C56, C58)
-/
namespace LBDD
section
variable {cfg : Cfg} {u : Use} {a : Api} {p f g : Nat} {F G : List Bool → Bool}

/-! ## C22 -/

/-- C22: whatever the limit, the cache contents and the build, if `and_rec_limited(f, g, limit)` returns a non-null handle, it is a BDD of the
conjunction, and in histories that respect the variable order it is the handle that `and_rec(f, g)` returns. -/
theorem C22_limited_correct (hR : Reachable cfg u a) (hf : a.Holds f) (hg : a.Holds g) (dF : Denotes cfg a.mgr f F) (dG : Denotes cfg a.mgr g G)
    {limit r k : Nat} {s' : Mgr} (e : andLimited cfg f g limit a.mgr = .ok (some (r, k)) s') :
    Denotes cfg s' r (fun x => F x && G x) ∧ (u = .ordered → Returns (andOp cfg f g s') (fun q _ => q = r)) := by
  obtain ⟨tf, rf⟩ := hR.good.any hf
  obtain ⟨tg, rg⟩ := hR.good.any hg
  have h := andLimited_okA (bad := True) (Or.inl trivial) hR.good rf rg limit
  unfold SpecA at h
  rw [e] at h
  obtain ⟨hx, hi', ⟨tr, rr, he, _⟩, _⟩ := h
  refine ⟨?_, ?_⟩
  · intro x hc
    have hc' := hc.anti (s := a.mgr) (by rw [hx.nvars]; exact Nat.le_refl _)
    have h1 := dF.eq (denotes_repr hR.good rf) hc'
    have h2 := dG.eq (denotes_repr hR.good rg) hc'
    show EvalsTo cfg s' r x (F x && G x)
    rw [h1, h2, ← he]
    exact evals_repr hi' rr hc
  · intro hu
    have ho := Use.ordered_iff.2 hu
    refine (andOp_ok hi' (rf.ext hx.cells) (rg.ext hx.cells)).returns ?_
    rintro q s2 x2 i2 ⟨tq, rq, eq, _⟩
    have := Tree.eq_of_eval (i2.ord ho _ _ rq) (i2.ord ho _ _ (rr.ext x2.cells)) (i2.reduced rq) (i2.reduced (rr.ext x2.cells))
      (fun x => (eq x).trans (he x).symm)
    subst this
    exact i2.repr_inj rq (rr.ext x2.cells)

/-- C22: the call itself returns (possibly null), except in debug builds in which the uninitialised mark bit of a sink happens to be set, see
`C22_assert`. -/
theorem C22_limited_returns (hR : Reachable cfg u a) (hs : SinkOk cfg) (hf : a.Holds f) (hg : a.Holds g) (limit : Nat) :
    Returns (andLimited cfg f g limit a.mgr) (fun _ _ => True) := by
  obtain ⟨tf, rf⟩ := hR.good.any hf
  obtain ⟨tg, rg⟩ := hR.good.any hg
  exact (andLimited_ok hs hR.good rf rg limit).returns fun _ _ _ _ _ => trivial

/-! ## C24 -/

/-- C24: `nr_nodes()` is the number of inner nodes reachable from the handle; the call changes nothing. `C24_assert` shows why the last hypothesis
is needed: on a sink, debug builds read an uninitialised mark bit. -/
theorem C24_nr_nodes (hR : Reachable cfg u a) (hp : a.Holds p) (hs : SinkOk cfg ∨ 2 ≤ p) :
    ∃ l, ListsOnce a.mgr p l ∧ nrNodes cfg p a.mgr = .ok l.length a.mgr := by
  obtain ⟨t, ht⟩ := hR.good.any hp
  obtain ⟨l, h, e⟩ := nrNodes_ok hR.good ht (.of hR.good hs)
  exact ⟨l, ⟨h.nodup, h.mem⟩, e⟩

/-- The count is determined by the BDD: any duplicate-free list of exactly the reachable inner nodes has that length. -/
theorem ListsOnce.length_unique {s : Mgr} {l l' : List Nat} (h : ListsOnce s p l) (h' : ListsOnce s p l') : l.length = l'.length :=
  Lists.length_eq ⟨h.1, h.2⟩ ⟨h'.1, h'.2⟩

/-! ## C25 -/

theorem PostOk.before {c : Nat → Cell} : ∀ {l : List Nat} {S : Nat → Prop}, PostOk c S l → ∀ l1 q l2, l = l1 ++ q :: l2 →
    ∀ r, (r = (c q).lo ∨ r = (c q).hi) → 2 ≤ r → S r ∨ r ∈ l1
  | [], _, _, l1, q, l2, e => by simp at e
  | b :: l, S, h, l1, q, l2, e => by
    intro r hr r2
    cases l1 with
    | nil => simp at e; rw [← e.1] at hr; exact Or.inl (h.1 r hr r2)
    | cons b' l1 =>
      simp at e
      rcases PostOk.before h.2 l1 q l2 e.2 r hr r2 with (h | h) | h
      · exact Or.inl h
      · exact Or.inr (by rw [h, e.1]; simp)
      · exact Or.inr (by simp [h])

/-- C25: `nodes_postorder()` lists every reachable inner node once, each after its inner children, the root last; the state, including all mark
bits, is unchanged. -/
theorem C25_nodes_postorder (hR : Reachable cfg u a) (hp : a.Holds p) (hs : SinkOk cfg ∨ 2 ≤ p) :
    ∃ l, nodesPostorder cfg p a.mgr = .ok l a.mgr ∧ ListsOnce a.mgr p l ∧
      (∀ l1 q l2, l = l1 ++ q :: l2 → ∀ r, (r = (a.mgr.cells q).lo ∨ r = (a.mgr.cells q).hi) → 2 ≤ r → r ∈ l1) ∧
      (2 ≤ p → ∃ l', l = l' ++ [p]) := by
  obtain ⟨t, ht⟩ := hR.good.any hp
  obtain ⟨l, e, h, h2, h3⟩ := nodesPostorder_ok hR.good ht (.of hR.good hs)
  refine ⟨l, e, ⟨h.nodup, h.mem⟩, ?_, h3⟩
  intro l1 q l2 el r hr r2
  rcases h2.before l1 q l2 el r hr r2 with h | h
  · exact h.elim
  · exact h

/-! ## C26 -/

/-- C26: `nodes_bfs()` of a non-terminal BDD lists every reachable inner node once, the root first, every other node after one of its parents, by
non-decreasing distance from the root; the state is unchanged. -/
theorem C26_nodes_bfs (hR : Reachable cfg u a) (hp : a.Holds p) (p2 : 2 ≤ p) :
    ∃ l, nodesBfs cfg p a.mgr = .ok l a.mgr ∧ ListsOnce a.mgr p l ∧ (∃ l', l = p :: l') ∧
      (∀ l1 q l2, l = l1 ++ q :: l2 → q = p ∨ ∃ x ∈ l1, q = (a.mgr.cells x).lo ∨ q = (a.mgr.cells x).hi) ∧
      (∃ d : Nat → Nat, (∀ q ∈ l, Path a.mgr.cells p q (d q) ∧ ∀ n, Path a.mgr.cells p q n → d q ≤ n) ∧ l.Pairwise (fun b c => d b ≤ d c)) := by
  obtain ⟨t, ht⟩ := hR.good.any hp
  obtain ⟨l, e, h⟩ := nodesBfs_ok hR.good ht p2
  exact ⟨l, e, ⟨h.lists.nodup, h.lists.mem⟩, h.head, h.parent, h.dist⟩

/-! ## C27 -/

/-- C27, first half, in every discipline: `variables()` is the strictly increasing list of the variables that label reachable nodes. -/
theorem C27_variables_occurring (hR : Reachable cfg u a) (hp : a.Holds p) :
    ∃ l, variables cfg p a.mgr = .ok l a.mgr ∧ l.Pairwise (· < ·) ∧ ∀ v, v ∈ l ↔ Occurs a.mgr p v := by
  obtain ⟨t, ht⟩ := hR.good.any hp
  obtain ⟨l, e, h1, h2⟩ := variables_ok hR.good ht
  exact ⟨l, e, h1, fun v => (h2 v).trans (occurs_iff ht v).symm⟩

theorem asg_set {x : List Bool} {v w : Nat} {b : Bool} (h : v < x.length) : asg (x.set v b) w = if w = v then b else asg x w := by
  unfold asg
  by_cases e : w = v
  · subst e; simp [List.getElem?_set_self h]
  · rw [if_neg e]; simp [List.getElem?_set_ne (Ne.symm e)]

theorem depends_iff {refs : Nat → Nat} {md : Md} {s : Mgr} (hi : Inv cfg md refs s) {t : Tree} (ht : Repr s.cells p t) (dF : Denotes cfg s p F) (v : Nat) :
    Depends s F v ↔ BFun.DependsOn t.eval v := by
  have key : ∀ x, Covers s x → F x = t.eval (asg x) := fun x hx => dF.eq (denotes_repr hi ht) hx
  constructor
  · rintro ⟨x, hx, hne⟩
    have hv : v < x.length := by
      rcases Nat.lt_or_ge v x.length with h | h
      · exact h
      · rw [List.set_eq_of_length_le h] at hne; exact absurd rfl hne
    refine ⟨asg x, ?_⟩
    rw [key x hx, key _ (by unfold Covers at *; simpa using hx)] at hne
    intro h
    apply hne
    rw [h]
    congr 1
    funext w
    rw [asg_set hv]
    by_cases e : w = v
    · subst e; simp [asg]
    · simp [e]
  · intro hd
    have hv : v < s.nvars := hi.mem_lt ht (Tree.dependsOn_mem hd)
    obtain ⟨y, hy⟩ := hd
    refine ⟨toList s.nvars y, covers_toList s y, ?_⟩
    rw [key _ (covers_toList s y), key _ (by unfold Covers; simp [toList_length])]
    rw [eval_toList hi ht]
    intro h
    apply hy
    rw [h]
    refine Tree.eval_congr ?_
    intro w hw
    have hwn := hi.mem_lt ht hw
    rw [asg_set (by rw [toList_length]; exact hv)]
    by_cases e : w = v
    · subst e
      have := asg_toList (x := y) hwn
      unfold asg at this
      rw [if_pos rfl, if_pos rfl, this]
    · rw [if_neg e, if_neg e, asg_toList hwn]

/-- C27: in histories that respect the variable order, `variables()` is exactly the list of variables the function depends on. -/
theorem C27_variables_support (hR : Reachable cfg .ordered a) (hp : a.Holds p) (dF : Denotes cfg a.mgr p F) :
    ∃ l, variables cfg p a.mgr = .ok l a.mgr ∧ l.Pairwise (· < ·) ∧ ∀ v, v ∈ l ↔ Depends a.mgr F v := by
  obtain ⟨t, ht⟩ := hR.good.any hp
  obtain ⟨l, e, h1, h2⟩ := variables_ok hR.good ht
  refine ⟨l, e, h1, fun v => ?_⟩
  rw [h2 v, depends_iff hR.good ht dF]
  exact Tree.mem_iff_dependsOn (hR.good.ord (Use.ordered_iff.2 rfl) _ _ ht) (hR.good.reduced ht) v

/-! ## C28 -/

theorem oneSolution_iff {refs : Nat → Nat} {md : Md} {s : Mgr} (hi : Inv cfg md refs s) {t : Tree} (ht : Repr s.cells p t) (dF : Denotes cfg s p F) :
    OneSolution s F ↔ BFun.UniqueSol t.eval := by
  have key : ∀ x, Covers s x → F x = t.eval (asg x) := fun x hx => dF.eq (denotes_repr hi ht) hx
  constructor
  · rintro ⟨x, hx, h1, h2⟩
    refine ⟨asg x, by rw [← key x hx]; exact h1, ?_⟩
    intro y hy v hv
    have := h2 (toList s.nvars y) (covers_toList s y) (by rw [key _ (covers_toList s y), eval_toList hi ht]; exact hy) v
      ((depends_iff hi ht dF v).2 hv)
    have hvn := hi.mem_lt ht (Tree.dependsOn_mem hv)
    rw [← asg_toList (x := y) hvn]
    exact this
  · rintro ⟨x, h1, h2⟩
    refine ⟨toList s.nvars x, covers_toList s x, by rw [key _ (covers_toList s x), eval_toList hi ht]; exact h1, ?_⟩
    intro y hy hy1 v hv
    have hd := (depends_iff hi ht dF v).1 hv
    have := h2 (asg y) (by rw [← key y hy]; exact hy1) v hd
    have hvn := hi.mem_lt ht (Tree.dependsOn_mem hd)
    have e := asg_toList (x := x) hvn
    unfold asg at this e
    rw [this, e]

/-- C28: in histories that respect the variable order, `exactly_one_solution()` is true exactly when one and only one assignment of the variables the
function depends on makes it true. -/
theorem C28_exactly_one_solution (hR : Reachable cfg .ordered a) (hp : a.Holds p) (dF : Denotes cfg a.mgr p F) :
    ∃ b, exactlyOneSolution cfg p a.mgr = .ok b a.mgr ∧ (b = true ↔ OneSolution a.mgr F) := by
  obtain ⟨t, ht⟩ := hR.good.any hp
  obtain ⟨b, e, h⟩ := exactlyOneSolution_ok hR.good (Use.ordered_iff.2 rfl) ht
  exact ⟨b, e, h.trans (oneSolution_iff hR.good ht dF).symm⟩

/-! ## C29 -/

/-- The assignment `v ↦ x[m(v)]`, long enough for all variables below `n`. -/
def pullback (n : Nat) (m : Nat → Nat) (x : List Bool) : List Bool := (List.range n).map (fun v => x.getD (m v) false)

theorem eval_pullback {refs : Nat → Nat} {md : Md} {s : Mgr} (hi : Inv cfg md refs s) {t : Tree} (ht : Repr s.cells p t) (dF : Denotes cfg s p F)
    (m : Nat → Nat) (x : List Bool) : F (pullback s.nvars m x) = t.eval (fun v => asg x (m v)) := by
  have hc : Covers s (pullback s.nvars m x) := by unfold Covers pullback; simp
  rw [dF.eq (denotes_repr hi ht) hc]
  refine Tree.eval_congr ?_
  intro w hw
  have := hi.mem_lt ht hw
  simp [asg, pullback, this]

/-- C29: `rebase(f, map)` with a hash map covering the variables of `f` evaluates on `x` like `f` on `v ↦ x[map(v)]`; missing variables are created and
no existing BDD changes. (In a history that must respect the order, the map has to be increasing on the variables of `f`, see `Fn.Pre`.) -/
theorem C29_rebase_map (hR : Reachable cfg u a) (hp : a.Holds p) (hs : SinkOk cfg ∨ 2 ≤ p) (dF : Denotes cfg a.mgr p F)
    {m : List (Nat × Nat)} {f : Nat → Nat} (hm : ∀ v, Occurs a.mgr p v → m.lookup v = some (f v)) (hmax : ∀ q ∈ m, q.2 < topsinkIndex)
    (ho : u = .ordered → ∀ v w, Occurs a.mgr p v → Occurs a.mgr p w → v < w → f v < f w) :
    Returns (rebaseMap cfg p m a.mgr) (fun r s' => Denotes cfg s' r (fun x => F (pullback a.mgr.nvars f x)) ∧
      s'.nvars = max a.mgr.nvars ((m.map (·.2)).foldl max 0 + 1) ∧
      ∀ q H, a.Holds q → Denotes cfg a.mgr q H → Denotes cfg s' q H) := by
  obtain ⟨t, ht⟩ := hR.good.any hp
  refine (rebaseMap_ok hR.good ht hs (fun v hv => hm v ((occurs_iff ht v).2 hv)) hmax (fun hmd v w hv hw => ho (Use.ordered_iff.1 hmd) v w
    ((occurs_iff ht v).2 hv) ((occurs_iff ht w).2 hw))).returns ?_
  rintro r s' hg hi' ⟨h1, h2, _⟩
  refine ⟨?_, h2, ?_⟩
  · intro x hc
    show EvalsTo cfg s' r x (F (pullback a.mgr.nvars f x))
    rw [eval_pullback hR.good ht dF, ← renTree_eval]
    exact evals_repr hi' h1 hc
  · intro q H hq dH x hc
    obtain ⟨tq, rq⟩ := hR.good.any hq
    rw [dH.eq (denotes_repr hR.good rq) (hc.anti hg.nvars)]
    exact evals_repr hi' (rq.ext hg.cells) hc

/-- C29: `rebase(f, begin, end)` with a vector. -/
theorem C29_rebase_vec (hR : Reachable cfg u a) (hp : a.Holds p) (hs : cfg.ndebug = true ∨ 2 ≤ p) (dF : Denotes cfg a.mgr p F)
    {m : List Nat} (hne : m ≠ []) (hm : ∀ v, Occurs a.mgr p v → v < m.length) (hmax : ∀ q ∈ m, q < topsinkIndex)
    (ho : u = .ordered → ∀ v w, Occurs a.mgr p v → Occurs a.mgr p w → v < w → m.getD v 0 < m.getD w 0) :
    Returns (rebaseVec cfg p m a.mgr) (fun r s' => Denotes cfg s' r (fun x => F (pullback a.mgr.nvars (fun v => m.getD v 0) x)) ∧
      s'.nvars = max a.mgr.nvars (m.foldl max 0 + 1) ∧
      ∀ q H, a.Holds q → Denotes cfg a.mgr q H → Denotes cfg s' q H) := by
  obtain ⟨t, ht⟩ := hR.good.any hp
  refine (rebaseVec_ok hR.good ht hs hne (f := fun v => m.getD v 0) (fun v hv => ?_) hmax (fun hmd v w hv hw => ho (Use.ordered_iff.1 hmd) v w
    ((occurs_iff ht v).2 hv) ((occurs_iff ht w).2 hw))).returns ?_
  · have := hm v ((occurs_iff ht v).2 hv)
    simp [List.getD, this]
  rintro r s' hg hi' ⟨h1, h2, _⟩
  refine ⟨?_, h2, ?_⟩
  · intro x hc
    show EvalsTo cfg s' r x (F (pullback a.mgr.nvars (fun v => m.getD v 0) x))
    rw [eval_pullback hR.good ht dF, ← renTree_eval]
    exact evals_repr hi' h1 hc
  · intro q H hq dH x hc
    obtain ⟨tq, rq⟩ := hR.good.any hq
    rw [dH.eq (denotes_repr hR.good rq) (hc.anti hg.nvars)]
    exact evals_repr hi' (rq.ext hg.cells) hc

/-- C29: both overloads return the same handle. -/
theorem C29_overloads_agree (hR : Reachable cfg u a) (hp : a.Holds p) (hs : SinkOk cfg ∨ 2 ≤ p) (hs' : cfg.ndebug = true ∨ 2 ≤ p)
    {m : List (Nat × Nat)} {mv : List Nat} (hne : mv ≠ [])
    (hm : ∀ v, Occurs a.mgr p v → v < mv.length ∧ m.lookup v = some (mv.getD v 0)) (hmax : ∀ q ∈ m, q.2 < topsinkIndex) (hmax' : ∀ q ∈ mv, q < topsinkIndex)
    (ho : u = .ordered → ∀ v w, Occurs a.mgr p v → Occurs a.mgr p w → v < w → mv.getD v 0 < mv.getD w 0) :
    SameHandle (rebaseMap cfg p m) (rebaseVec cfg p mv) a.mgr := by
  obtain ⟨t, ht⟩ := hR.good.any hp
  have hmo : u.md.ordered → ∀ v w, t.Mem v → t.Mem w → v < w → mv.getD v 0 < mv.getD w 0 := fun hmd v w hv hw => ho (Use.ordered_iff.1 hmd) v w
    ((occurs_iff ht v).2 hv) ((occurs_iff ht w).2 hw)
  have hf : ∀ v, t.Mem v → mv[v]? = some (mv.getD v 0) := fun v hv => by
    have := (hm v ((occurs_iff ht v).2 hv)).1
    simp [List.getD, this]
  have : SpecG cfg u.md a.count (both (rebaseMap cfg p m) (rebaseVec cfg p mv)) a.mgr (fun rq _ => rq.1 = rq.2) := by
    unfold both
    refine SpecG.bind (rebaseMap_ok hR.good ht hs (f := fun v => mv.getD v 0) (fun v hv => (hm v ((occurs_iff ht v).2 hv)).2) hmax hmo) ?_
    rintro r s1 x1 i1 ⟨h1, _⟩
    refine SpecG.bind (rebaseVec_ok i1 (ht.ext x1.cells) hs' hne (f := fun v => mv.getD v 0) hf hmax' hmo) ?_
    rintro q s2 x2 i2 ⟨h2, _⟩
    exact SpecG.pure i2 (i2.repr_inj (h1.ext x2.cells) h2)
  exact this.returns fun _ _ _ _ h => h

/-! ## C54 -/

/-- C54: in every reachable state all variable indices are below 2^41 - 2, so that no inner node carries a sink's index; the classification of
nodes as inner nodes or sinks is right for every held handle. -/
theorem C54_sinks_distinct_partial (hR : Reachable cfg u a) (hp : a.Holds p) : (isTerm cfg p a.mgr = .ok (decide (p < 2)) a.mgr) ∧
    (2 ≤ p → (a.mgr.cells p).index < a.mgr.nvars ∧ a.mgr.nvars ≤ 2 ^ 41 - 2) := by
  obtain ⟨t, ht⟩ := hR.good.any hp
  refine ⟨isTerm_ok hR.good ht rfl, fun p2 => ?_⟩
  refine ⟨(hR.good.node p p2 (hR.good.live_of ht)).1, ?_⟩
  have := hR.good.nv
  unfold topsinkIndex at this
  exact this

/-! ## C56 -/

/-- C56: `find_bdd_mgr()` ends at a sink of the manager; the sinks hold the manager's address, so the operators act on the right manager. The
state is unchanged. -/
theorem C56_find_bdd_mgr (hR : Reachable cfg u a) (hp : a.Holds p) : ∃ q, findBddMgr cfg p a.mgr = .ok q a.mgr ∧ (q = botId ∨ q = topId) ∧
    Reaches a.mgr.cells p q := by
  obtain ⟨t, ht⟩ := hR.good.any hp
  obtain ⟨q, e, h⟩ := findBddMgr_ok hR.good ht
  exact ⟨q, e, by unfold botId topId; omega, h.2⟩

/-! ## C58 -/

/-- C58: `print()` writes for every reachable inner node exactly its two arcs, each once, and restores the state. -/
theorem C58_print (hR : Reachable cfg u a) (hp : a.Holds p) :
    ∃ arcs, printArcs cfg p a.mgr = .ok arcs a.mgr ∧ arcs.Nodup ∧
      ∀ q b r, (q, b, r) ∈ arcs ↔ 2 ≤ q ∧ Reaches a.mgr.cells p q ∧ r = (if b then (a.mgr.cells q).hi else (a.mgr.cells q).lo) := by
  obtain ⟨t, ht⟩ := hR.good.any hp
  exact printArcs_ok hR.good ht
end

/-! ## The hypotheses are met -/

/-- C24–C26, C56, C58: the handle to (x0 ∧ x1) ∨ x2 of the demo state and its three nodes. -/
example : Reachable (envOf false) .ordered (demo .ordered) ∧ (demo .ordered).Holds 9 ∧ 2 ≤ 9 ∧
    (resOf (nrNodes (envOf false) 9 (demo .ordered).mgr) 0 (demo .ordered).mgr).1 = 3 ∧
    (resOf (nodesPostorder (envOf false) 9 (demo .ordered).mgr) [] (demo .ordered).mgr).1 = [4, 8, 9] ∧
    (resOf (nodesBfs (envOf false) 9 (demo .ordered).mgr) [] (demo .ordered).mgr).1 = [9, 4, 8] := by
  refine ⟨demo_reachable _, by unfold Api.Holds; rw [demo_hs]; decide, by decide, ?_, ?_, ?_⟩ <;> decide +kernel

theorem demo_nvars : (demo .ordered).mgr.nvars = 3 := by decide +kernel

theorem occurs_lt {cfg : Cfg} {u : Use} {a : Api} {p v : Nat} (hR : Reachable cfg u a) (hp : a.Holds p) (h : Occurs a.mgr p v) : v < a.mgr.nvars := by
  obtain ⟨t, ht⟩ := hR.good.any hp
  exact hR.good.mem_lt ht ((occurs_iff ht v).1 h)

theorem demo_occurs {v : Nat} (hv : Occurs (demo .ordered).mgr 9 v) : v = 0 ∨ v = 1 ∨ v = 2 := by
  have h9 : (demo .ordered).Holds 9 := by unfold Api.Holds; rw [demo_hs]; decide
  have := occurs_lt (demo_reachable .ordered) h9 hv
  rw [demo_nvars] at this
  omega

/-- C29: the renaming x0 ↦ x1, x1 ↦ x3, x2 ↦ x4 of that BDD meets all hypotheses. -/
example : (∀ v, Occurs (demo .ordered).mgr 9 v → v < [1, 3, 4].length ∧ [(1, 3), (0, 1), (2, 4)].lookup v = some ([1, 3, 4].getD v 0)) ∧
    (∀ v w, Occurs (demo .ordered).mgr 9 v → Occurs (demo .ordered).mgr 9 w → v < w → [1, 3, 4].getD v 0 < [1, 3, 4].getD w 0) := by
  refine ⟨fun v hv => ?_, fun v w hv hw => ?_⟩
  · rcases demo_occurs hv with h | h | h <;> subst h <;> clear hv <;> decide
  · rcases demo_occurs hv with h | h | h <;> rcases demo_occurs hw with h' | h' | h' <;> subst h h' <;> clear hv hw <;> decide

/-- C28: x0 ∧ x1 has exactly one solution, (x0 ∧ x1) ∨ x2 does not. -/
example : (resOf (exactlyOneSolution (envOf false) 5 (demo .ordered).mgr) false (demo .ordered).mgr).1 = true ∧
    (resOf (exactlyOneSolution (envOf false) 9 (demo .ordered).mgr) true (demo .ordered).mgr).1 = false := by
  constructor <;> decide +kernel

/-- C22: a limited conjunction that returns a non-null handle. -/
example : ((resOf (andLimited (envOf false) 7 9 100 (demo .ordered).mgr) none (demo .ordered).mgr).1).isSome = true := by decide +kernel

/-! ## Refutations -/

/-- A build with asserts in which the uninitialised mark bits of the sinks are 1. -/
def markedEnv : Cfg := { envOf false with sinkMark := fun _ => true }

def failB {α : Type} (o : Res Mgr α) : Bool :=
  match o with
  | .assertFail => true
  | _ => false

theorem failB_sound {α : Type} {o : Res Mgr α} (h : failB o = true) : o = .assertFail := by
  cases o <;> simp [failB] at h; rfl

def sinkState : Api := stateAfter markedEnv .ordered [.call .topsink []]

/-- The side condition of C24 (and C25) is needed: in debug builds `nr_nodes()` of a constant reads an uninitialised bit, and fails an assert when
that bit is set. -/
theorem C24_assert : ∃ a p, Reachable markedEnv .ordered a ∧ a.Holds p ∧ nrNodes markedEnv p a.mgr = .assertFail :=
  ⟨sinkState, 1, stateAfter_reachable _ _ _, by unfold Api.Holds; decide +kernel, failB_sound (by decide +kernel)⟩

/-- The same for `and_rec_limited(true, true, limit)`. -/
theorem C22_assert : ∃ a p, Reachable markedEnv .ordered a ∧ a.Holds p ∧ ∀ limit, andLimited markedEnv p p limit a.mgr = .assertFail := by
  refine ⟨sinkState, 1, stateAfter_reachable _ _ _, by unfold Api.Holds; decide +kernel, fun limit => ?_⟩
  have h : nrNodes markedEnv 1 sinkState.mgr = .assertFail := failB_sound (by decide +kernel)
  unfold andLimited
  rw [M.get_bind_apply]
  have hf : ∃ n, fuel2 sinkState.mgr = n + 1 := ⟨fuel2 sinkState.mgr - 1, by unfold fuel2; omega⟩
  obtain ⟨n, e⟩ := hf
  rw [e]
  unfold andLimRec
  rw [if_pos rfl]
  show M.bind _ _ _ = _
  unfold M.bind
  rw [h]

/-- Result of `and_rec_limited`, with the number of nodes. -/
def limOf (o : Res Mgr (Option (Nat × Nat))) : Option (Option (Nat × Nat)) :=
  match o with
  | .ok r _ => some r
  | _ => none

def cntOf (o : Res Mgr Nat) : Option Nat :=
  match o with
  | .ok r _ => some r
  | _ => none

/-- Handles x0, x1. -/
def twoVars (nd : Bool) : Api := stateAfter (envOf nd) .ordered [.call (.projection 0) [], .call (.projection 1) []]

/-- The full C23 is false: `and_rec_limited(x0, x1, 1)` returns the conjunction, which has 2 nodes, with the node count 1. -/
theorem C23_refuted : ∀ nd : Bool, ∃ a f g r s', Reachable (envOf nd) .ordered a ∧ a.Holds f ∧ a.Holds g ∧
    andLimited (envOf nd) f g 1 a.mgr = .ok (some (r, 1)) s' ∧ cntOf (nrNodes (envOf nd) r s') = some 2 := by
  intro nd
  have h : (resOf (andLimited (envOf nd) 2 3 1 (twoVars nd).mgr) none (twoVars nd).mgr).1 = some (4, 1) := by cases nd <;> decide +kernel
  refine ⟨twoVars nd, 2, 3, 4, (resOf (andLimited (envOf nd) 2 3 1 (twoVars nd).mgr) none (twoVars nd).mgr).2, stateAfter_reachable _ _ _, ?_, ?_, ?_, ?_⟩
  · unfold Api.Holds; cases nd <;> decide +kernel
  · unfold Api.Holds; cases nd <;> decide +kernel
  · rw [← h]
    exact resOf_eq (by cases nd <;> decide +kernel)
  · cases nd <;> decide +kernel

/-- Slots 0-5: x0..x5, slot 8: x2 ∧ (¬x0 ∨ x1), slot 10: x3 ∧ x4 ∧ x5. -/
def limOps : List Op :=
  [.call (.projection 0) [], .call (.projection 1) [], .call (.projection 2) [], .call (.projection 3) [],
   .call (.projection 4) [], .call (.projection 5) [],
   .call .negate [0], .call .or [6, 1], .call .and [7, 2],
   .call .and [3, 4], .call .and [9, 5]]

def limState (nd : Bool) : Api := stateAfter (envOf nd) .ordered limOps

/-- C23 fails in the other direction too: with limit 6 the call returns null although the conjunction has 6 nodes, and after
`and_rec(f, g)` has put the result into the memo cache the same call returns it. So the result depends on the cache contents (contrary to the
last part of C13). -/
theorem C23_refuted_null : ∀ nd : Bool, ∃ a a' f g r s' s'', Reachable (envOf nd) .ordered a ∧ Reachable (envOf nd) .ordered a' ∧
    a.Holds f ∧ a.Holds g ∧ step (envOf nd) (.call .and [8, 10]) a = .ok () a' ∧ a.args [8, 10] = some [f, g] ∧
    andLimited (envOf nd) f g 6 a.mgr = .ok none s' ∧ andLimited (envOf nd) f g 6 a'.mgr = .ok (some (r, 6)) s'' ∧
    cntOf (nrNodes (envOf nd) r a'.mgr) = some 6 := by
  intro nd
  have hargs : (limState nd).args [8, 10] = some [11, 14] := by cases nd <;> decide +kernel
  have h1 : (resOf (andLimited (envOf nd) 11 14 6 (limState nd).mgr) (some (0, 0)) (limState nd).mgr).1 = none := by cases nd <;> decide +kernel
  have e1 : okB (andLimited (envOf nd) 11 14 6 (limState nd).mgr) = true := by cases nd <;> decide +kernel
  have hrun : ∃ a', step (envOf nd) (.call .and [8, 10]) (limState nd) = .ok () a' ∧ okB (andLimited (envOf nd) 11 14 6 a'.mgr) = true ∧
      (resOf (andLimited (envOf nd) 11 14 6 a'.mgr) none a'.mgr).1 = some (17, 6) ∧ cntOf (nrNodes (envOf nd) 17 a'.mgr) = some 6 := by
    have key : (match step (envOf nd) (.call .and [8, 10]) (limState nd) with
        | .ok _ a' => okB (andLimited (envOf nd) 11 14 6 a'.mgr) && ((resOf (andLimited (envOf nd) 11 14 6 a'.mgr) none a'.mgr).1 == some (17, 6)) &&
            (cntOf (nrNodes (envOf nd) 17 a'.mgr) == some 6)
        | _ => false) = true := by cases nd <;> decide +kernel
    cases e : step (envOf nd) (.call .and [8, 10]) (limState nd) with
    | ok r a' =>
      rw [e] at key
      simp only [Bool.and_eq_true, beq_iff_eq] at key
      exact ⟨a', rfl, key.1.1, key.1.2, key.2⟩
    | _ => rw [e] at key; cases key
  obtain ⟨a', es, k1, k2, k3⟩ := hrun
  have hR : Reachable (envOf nd) .ordered (limState nd) := stateAfter_reachable _ _ _
  refine ⟨limState nd, a', 11, 14, 17, (resOf (andLimited (envOf nd) 11 14 6 (limState nd).mgr) (some (0, 0)) (limState nd).mgr).2,
    (resOf (andLimited (envOf nd) 11 14 6 a'.mgr) none a'.mgr).2, hR, .step (op := .call .and [8, 10]) hR (show Legal _ _ _ (.call .and _) from fun _ _ => trivial) es, ?_, ?_, es, hargs, ?_, ?_, k3⟩
  · unfold Api.Holds; cases nd <;> decide +kernel
  · unfold Api.Holds; cases nd <;> decide +kernel
  · rw [← h1]; exact resOf_eq e1
  · rw [← k2]; exact resOf_eq k1

end LBDD
