import Verif.Props.Query
import Verif.Props.Handle
import Verif.Props.CollCanon
import Verif.Props.CollRest
import Verif.Proof.Size
import Verif.Proof.Det
import Verif.Spec.Residual
/-! C80: the number of nodes of a BDD is determined by its function, and is the smallest possible. -/
namespace LBDD
section
variable {cfg : Cfg} {u : Use} {a : Api} {p : Nat} {F : List Bool → Bool}

theorem SameFn.refl (n : Nat) (F : List Bool → Bool) : SameFn n F F := fun _ _ => rfl
theorem SameFn.symm {n : Nat} {F G : List Bool → Bool} (h : SameFn n F G) : SameFn n G F := fun x hx => (h x hx).symm
theorem SameFn.trans {n : Nat} {F G H : List Bool → Bool} (h : SameFn n F G) (h' : SameFn n G H) : SameFn n F H := fun x hx => (h x hx).trans (h' x hx)
theorem SameFn.const {n : Nat} {F G : List Bool → Bool} (h : SameFn n F G) (hc : ConstFn n F) : ConstFn n G :=
  fun x y hx hy => by rw [← h x hx, ← h y hy, hc x y hx hy]

theorem distinct_inj {n : Nat} : ∀ {Gs : List (List Bool → Bool)}, Gs.Pairwise (fun G H => ¬ SameFn n G H) → ∀ G ∈ Gs, ∀ H ∈ Gs, SameFn n G H → G = H := by
  intro Gs
  induction Gs with
  | nil => intro _ G hG; cases hG
  | cons A Gs ih =>
    intro hp G hG H hH h
    cases hp with
    | cons h1 h2 =>
      rcases List.mem_cons.1 hG with eG | hG <;> rcases List.mem_cons.1 hH with eH | hH
      · rw [eG, eH]
      · exact absurd (eG ▸ h) (h1 H hH)
      · exact absurd (eH ▸ h.symm) (h1 G hG)
      · exact ih h2 G hG H hH h

theorem distinct_nodup {n : Nat} {Gs : List (List Bool → Bool)} (h : Gs.Pairwise (fun G H => ¬ SameFn n G H)) : Gs.Nodup :=
  List.Pairwise.imp (fun {G H} (hn : ¬ SameFn n G H) (e : G = H) => hn (e ▸ SameFn.refl n G)) h

/-- Fixing the first variables, on lists and on assignments. -/
theorem asg_fixed (c x : List Bool) : asg (c ++ x.drop c.length) = mix c.length (asg c) (asg x) := by
  funext w
  unfold asg mix
  by_cases hw : w < c.length
  · rw [if_pos hw]
    simp only [List.getD_eq_getElem?_getD, List.getElem?_append_left hw]
  · rw [if_neg hw]
    simp only [List.getD_eq_getElem?_getD, List.getElem?_append_right (Nat.le_of_not_lt hw), List.getElem?_drop]
    congr 2; omega

theorem residual_eval {n : Nat} {t : Tree} (hF : SameFn n F (fun x => t.eval (asg x))) (c : List Bool) :
    SameFn n (residual F c) (fun x => t.eval (mix c.length (asg c) (asg x))) := by
  intro x hx
  unfold residual
  have hl : n ≤ (c ++ x.drop c.length).length := by simp only [List.length_append, List.length_drop]; omega
  rw [hF _ hl]
  show t.eval (asg (c ++ x.drop c.length)) = _
  rw [asg_fixed]

/-- Every inner subtree of an ordered tree is a residual of its function. -/
theorem Tree.Sub.residual {n : Nat} {t w : Tree} (h : t.Sub w) (o : t.Ordered) (hv : ∀ v, t.Mem v → v < n) (hF : SameFn n F (fun x => t.eval (asg x))) :
    ∃ c, c.length ≤ n ∧ SameFn n (fun x => w.eval (asg x)) (LBDD.residual F c) := by
  obtain ⟨k, y, hy⟩ := h.fixed o
  have hlen : (toList (min k n) y).length = min k n := toList_length _ _
  refine ⟨toList (min k n) y, by rw [hlen]; omega, ?_⟩
  refine SameFn.trans ?_ (residual_eval hF _).symm
  intro x hx
  show w.eval (asg x) = _
  rw [hy, hlen]
  refine Tree.eval_congr fun v hm => ?_
  have := hv v hm
  unfold mix
  by_cases hk : v < k
  · rw [if_pos hk, if_pos (by omega), asg_toList (by omega)]
  · rw [if_neg hk, if_neg (by omega)]

/-- Every residual of the function of an ordered tree is a subtree. -/
theorem subL_of_residual {n : Nat} {t : Tree} (o : t.Ordered) (hF : SameFn n F (fun x => t.eval (asg x))) (c : List Bool) :
    ∃ w, t.SubL w ∧ SameFn n (fun x => w.eval (asg x)) (residual F c) := by
  obtain ⟨w, h1, h2⟩ := Tree.fixed_subL o c.length (asg c)
  refine ⟨w, h1, SameFn.trans ?_ (residual_eval hF c).symm⟩
  intro x _
  exact h2 _

theorem const_sinks (n : Nat) : ConstFn n (fun x => Tree.bot.eval (asg x)) ∧ ConstFn n (fun x => Tree.top.eval (asg x)) := ⟨fun _ _ _ _ => rfl, fun _ _ _ _ => rfl⟩

theorem sub_of_residual {n : Nat} {t : Tree} (o : t.Ordered) (hF : SameFn n F (fun x => t.eval (asg x))) {c : List Bool}
    (hn : ¬ ConstFn n (residual F c)) : ∃ w, t.Sub w ∧ SameFn n (fun x => w.eval (asg x)) (residual F c) := by
  obtain ⟨w, h1, h2⟩ := subL_of_residual o hF c
  rcases h1.cases with rfl | rfl | h
  · exact absurd (h2.const (const_sinks n).1) hn
  · exact absurd (h2.const (const_sinks n).2) hn
  · exact ⟨w, h, h2⟩

/-- From lists to assignments. -/
theorem eval_of_same {n : Nat} {t t' : Tree} (hv : ∀ v, t.Mem v → v < n) (hv' : ∀ v, t'.Mem v → v < n)
    (h : SameFn n (fun x => t.eval (asg x)) (fun x => t'.eval (asg x))) (x : Assign) : t.eval x = t'.eval x := by
  have := h (toList n x) (by rw [toList_length]; exact Nat.le_refl _)
  simp only at this
  rw [Tree.eval_congr (fun w hw => asg_toList (hv w hw)), Tree.eval_congr (fun w hw => asg_toList (hv' w hw))] at this
  exact this

theorem Tree.Sub.mem {t w : Tree} (h : t.Sub w) {v : Nat} (hv : w.Mem v) : t.Mem v := by
  induction t with
  | bot => exact h.elim
  | top => exact h.elim
  | node k l r ihl ihh =>
    rcases h with h | h | h
    · exact h ▸ hv
    · exact Or.inr (Or.inl (ihl h))
    · exact Or.inr (Or.inr (ihh h))

/-- An inner ordered reduced tree is not constant. -/
theorem inconstant {n : Nat} {t : Tree} (o : t.Ordered) (r : t.Reduced) (hb : t ≠ .bot) (ht : t ≠ .top) (hv : ∀ v, t.Mem v → v < n) :
    ¬ ConstFn n (fun x => t.eval (asg x)) := by
  intro hc
  obtain ⟨x, hx⟩ := Tree.ne_eval (t2 := .bot) o trivial r trivial hb
  obtain ⟨y, hy⟩ := Tree.ne_eval (t2 := .top) o trivial r trivial ht
  have h := hc (toList n x) (toList n y) (by rw [toList_length]; exact Nat.le_refl _) (by rw [toList_length]; exact Nat.le_refl _)
  simp only at h
  rw [Tree.eval_congr (fun w hw => asg_toList (hv w hw)), Tree.eval_congr (fun w hw => asg_toList (hv w hw))] at h
  simp only [Tree.eval] at hx hy
  cases e1 : t.eval x <;> cases e2 : t.eval y <;> simp_all

theorem denotes_same {md : Md} {refs : Nat → Nat} {s : Mgr} (hi : Inv cfg md refs s) {t : Tree} (ht : Repr s.cells p t) (dF : Denotes cfg s p F) :
    SameFn s.nvars F (fun x => t.eval (asg x)) := fun _ hx => Denotes.eq dF (denotes_repr hi ht) hx

/-- If the keys `ks` stand for the inner subtrees of an ordered reduced tree, one for each, then there are as many as residuals of its function that are not
constant. -/
theorem residuals_count {α : Type} {n : Nat} {t : Tree} (o : t.Ordered) (r : t.Reduced) (hv : ∀ v, t.Mem v → v < n) (hF : SameFn n F (fun x => t.eval (asg x)))
    {ks : List α} {Rp : α → Tree → Prop} (hn : ks.Nodup) (h1 : ∀ k ∈ ks, ∃ w, t.Sub w ∧ Rp k w) (h2 : ∀ w, t.Sub w → ∃ k ∈ ks, Rp k w)
    (hf : ∀ k w w', Rp k w → Rp k w' → w = w') (hj : ∀ k ∈ ks, ∀ k' ∈ ks, ∀ w, Rp k w → Rp k' w → k = k')
    {Gs : List (List Bool → Bool)} (hG : ListsResiduals n F Gs) : ks.length = Gs.length := by
  refine Nat.le_antisymm ?_ ?_
  · refine pigeon (fun q G => ∃ w, t.Sub w ∧ Rp q w ∧ SameFn n (fun x => w.eval (asg x)) G) hn ?_ ?_
    · intro q hq
      obtain ⟨w, hs, hw⟩ := h1 q hq
      obtain ⟨c, hc, hcs⟩ := hs.residual o hv hF
      have hn : ¬ ConstFn n (residual F c) := fun h =>
        inconstant (hs.ordered o) (hs.reduced r) hs.inner.1 hs.inner.2 (fun v h => hv v (hs.mem h)) (hcs.symm.const h)
      obtain ⟨G, g1, g2⟩ := hG.all c hc hn
      exact ⟨G, g1, w, hs, hw, hcs.trans g2.symm⟩
    · rintro q q' G hq hq' ⟨w, s1, r1, e1⟩ ⟨w', s2, r2, e2⟩
      have := Tree.eq_of_eval (s1.ordered o) (s2.ordered o) (s1.reduced r) (s2.reduced r)
        (eval_of_same (fun v h => hv v (s1.mem h)) (fun v h => hv v (s2.mem h)) (e1.trans e2.symm))
      subst this
      exact hj q hq q' hq' w r1 r2
  · refine pigeon (fun G q => ∃ w, Rp q w ∧ SameFn n (fun x => w.eval (asg x)) G) (distinct_nodup hG.distinct) ?_ ?_
    · intro G hg
      obtain ⟨c, _, e⟩ := hG.residual G hg
      obtain ⟨w, h3, h4⟩ := sub_of_residual o hF (fun h => hG.inconstant G hg (e.symm.const h))
      obtain ⟨q, hq, hw⟩ := h2 w h3
      exact ⟨q, hq, w, hw, h4.trans e.symm⟩
    · rintro G G' q hg hg' ⟨w, r1, e1⟩ ⟨w', r2, e2⟩
      have := hf q w w' r1 r2
      subst this
      exact distinct_inj hG.distinct G hg G' hg' (e1.symm.trans e2)

/-- The inner nodes of an ordered BDD and the residuals of its function that are not constant correspond to each other. -/
theorem residuals_length {md : Md} {refs : Nat → Nat} {s : Mgr} (ho : md.ordered) (hi : Inv cfg md refs s) {t : Tree} (ht : Repr s.cells p t) (dF : Denotes cfg s p F)
    {l : List Nat} (hl : Lists s.cells p l) {Gs : List (List Bool → Bool)} (hG : ListsResiduals s.nvars F Gs) : l.length = Gs.length := by
  refine residuals_count (Rp := Repr s.cells) (hi.ord ho _ _ ht) (hi.reduced ht) (fun v h => hi.mem_lt ht h) (denotes_same hi ht dF) hl.nodup ?_ ?_
    (fun _ _ _ h h' => h.fn h') (fun _ _ _ _ _ h h' => hi.repr_inj h h') hG
  · intro q hq
    obtain ⟨q2, hq⟩ := (hl.mem q).1 hq
    obtain ⟨w, hw⟩ := hi.repr (hq.live_or hi ht)
    exact ⟨w, (ht.sub_iff w).2 ⟨q, q2, hq, hw⟩, hw⟩
  · intro w hw
    obtain ⟨q, q2, hq, hr⟩ := (ht.sub_iff w).1 hw
    exact ⟨q, (hl.mem q).2 ⟨q2, hq⟩, hr⟩

/-- The functions of the inner nodes of an ordered BDD are the residuals of its function that are not constant. -/
theorem residuals_of {md : Md} {refs : Nat → Nat} {s : Mgr} (ho : md.ordered) (hi : Inv cfg md refs s) {t : Tree} (ht : Repr s.cells p t) (dF : Denotes cfg s p F)
    {l : List Nat} (hl : Lists s.cells p l) : ∃ Gs, ListsResiduals s.nvars F Gs ∧ Pairs (fun q G => Denotes cfg s q G) l Gs := by
  have o := hi.ord ho _ _ ht
  have hv : ∀ v, t.Mem v → v < s.nvars := fun v h => hi.mem_lt ht h
  have hF := denotes_same hi ht dF
  have hsub : ∀ q ∈ l, ∃ w, t.Sub w ∧ Repr s.cells q w := by
    intro q hq
    obtain ⟨q2, hq⟩ := (hl.mem q).1 hq
    obtain ⟨w, hw⟩ := hi.repr (hq.live_or hi ht)
    exact ⟨w, (ht.sub_iff w).2 ⟨q, q2, hq, hw⟩, hw⟩
  have key : ∀ l' : List Nat, l'.Nodup → (∀ q ∈ l', q ∈ l) → ∃ ws : List Tree, Pairs (fun q w => t.Sub w ∧ Repr s.cells q w) l' ws ∧ ws.Nodup ∧
      (∀ w ∈ ws, t.Sub w) ∧ (∀ w, w ∈ ws ↔ ∃ q ∈ l', Repr s.cells q w) := by
    intro l'
    induction l' with
    | nil => intro _ _; exact ⟨[], trivial, .nil, (fun _ h => by cases h), (fun w => ⟨(fun h => by cases h), (fun ⟨_, h, _⟩ => by cases h)⟩)⟩
    | cons q l' ih =>
      intro hn hm
      obtain ⟨hq, hn⟩ := List.nodup_cons.1 hn
      obtain ⟨ws, p1, p2, p3, p4⟩ := ih hn (fun q' h => hm q' (by simp [h]))
      obtain ⟨w, hw1, hw2⟩ := hsub q (hm q (by simp))
      refine ⟨w :: ws, ⟨⟨hw1, hw2⟩, p1⟩, List.nodup_cons.2 ⟨?_, p2⟩, ?_, ?_⟩
      · intro hmem
        obtain ⟨q', h1, h2⟩ := (p4 w).1 hmem
        exact hq (hi.repr_inj hw2 h2 ▸ h1)
      · intro w' h'
        rcases List.mem_cons.1 h' with rfl | h'
        · exact hw1
        · exact p3 w' h'
      · intro w'
        constructor
        · intro h'
          rcases List.mem_cons.1 h' with rfl | h'
          · exact ⟨q, by simp, hw2⟩
          · obtain ⟨q', h1, h2⟩ := (p4 w').1 h'
            exact ⟨q', by simp [h1], h2⟩
        · rintro ⟨q', h1, h2⟩
          rcases List.mem_cons.1 h1 with rfl | h1
          · rw [h2.fn hw2]; simp
          · exact List.mem_cons_of_mem _ ((p4 w').2 ⟨q', h1, h2⟩)
  obtain ⟨ws, p1, p2, p3, p4⟩ := key l hl.nodup (fun _ h => h)
  refine ⟨ws.map (fun w x => w.eval (asg x)), ⟨?_, ?_, ?_, ?_⟩, ?_⟩
  · intro G hg
    obtain ⟨w, hw, rfl⟩ := List.mem_map.1 hg
    exact (p3 w hw).residual o hv hF
  · intro G hg
    obtain ⟨w, hw, rfl⟩ := List.mem_map.1 hg
    have hs := p3 w hw
    obtain ⟨q, _, hr⟩ := (p4 w).1 hw
    exact inconstant (hs.ordered o) (hi.reduced hr) hs.inner.1 hs.inner.2 (fun v h => hv v (hs.mem h))
  · rw [List.pairwise_map]
    refine List.Pairwise.imp_of_mem ?_ p2
    intro w w' h h' hne hs
    obtain ⟨q, _, hr⟩ := (p4 w).1 h
    obtain ⟨q', _, hr'⟩ := (p4 w').1 h'
    exact hne (Tree.eq_of_eval ((p3 w h).ordered o) ((p3 w' h').ordered o) (hi.reduced hr) (hi.reduced hr')
      (eval_of_same (fun v h0 => hv v ((p3 w h).mem h0)) (fun v h0 => hv v ((p3 w' h').mem h0)) hs))
  · intro c hc hn
    obtain ⟨w, h1, h2⟩ := sub_of_residual o hF hn
    obtain ⟨q, q2, hq, hw⟩ := (ht.sub_iff w).1 h1
    exact ⟨_, List.mem_map.2 ⟨w, (p4 w).2 ⟨q, (hl.mem q).2 ⟨q2, hq⟩, hw⟩, rfl⟩, h2⟩
  · have : ∀ (l : List Nat) (ws : List Tree), Pairs (fun q w => t.Sub w ∧ Repr s.cells q w) l ws →
        Pairs (fun q G => Denotes cfg s q G) l (ws.map (fun w x => w.eval (asg x))) := by
      intro l
      induction l with
      | nil => intro ws h; match ws, h with | [], _ => exact trivial
      | cons q l ih =>
        intro ws h
        match ws, h with
        | w :: ws, h => exact ⟨denotes_repr hi h.1.2, ih ws h.2⟩
    exact this l ws p1

/-- C80: in histories that respect the variable order and do not use `xor_rec`, `nr_nodes()` of a BDD is the number of different functions that are not constant and
that arise from its function by fixing some number of its first variables; so it is determined by the function (and the order of the variables) alone. Such a
list of functions exists. -/
theorem C80_nr_nodes (hR : Reachable cfg .ordered a) (hp : a.Holds p) (dF : Denotes cfg a.mgr p F) (hs : SinkOk cfg ∨ 2 ≤ p) :
    (∃ Gs, ListsResiduals a.mgr.nvars F Gs) ∧ ∀ Gs, ListsResiduals a.mgr.nvars F Gs → nrNodes cfg p a.mgr = .ok Gs.length a.mgr := by
  have hi := hR.good
  have ho : Use.ordered.md.ordered := Use.ordered_iff.2 rfl
  obtain ⟨t, ht⟩ := hi.any hp
  obtain ⟨l, hl, e⟩ := nrNodes_ok hi ht (.of hi hs)
  refine ⟨?_, ?_⟩
  · obtain ⟨Gs, h, _⟩ := residuals_of ho hi ht dF hl
    exact ⟨Gs, h⟩
  · intro Gs hG
    rw [e, residuals_length ho hi ht dF hl hG]

/-- C80: `nodes_postorder()` returns handles to these functions, one for each. -/
theorem C80_postorder (hR : Reachable cfg .ordered a) (hp : a.Holds p) (dF : Denotes cfg a.mgr p F) (hs : SinkOk cfg ∨ 2 ≤ p) :
    ∃ l Gs, nodesPostorder cfg p a.mgr = .ok l a.mgr ∧ ListsResiduals a.mgr.nvars F Gs ∧ Pairs (fun q G => Denotes cfg a.mgr q G) l Gs := by
  have hi := hR.good
  have ho : Use.ordered.md.ordered := Use.ordered_iff.2 rfl
  obtain ⟨t, ht⟩ := hi.any hp
  obtain ⟨l, e, hl, _⟩ := C25_nodes_postorder hR hp hs
  obtain ⟨Gs, h1, h2⟩ := residuals_of ho hi ht dF ⟨hl.1, hl.2⟩
  exact ⟨l, Gs, e, h1, h2⟩

/-- Along every arc between inner nodes of the BDD `p` the variable index increases. -/
def RespectsOrder (s : Mgr) (p : Nat) : Prop :=
  ∀ q c, Reaches s.cells p q → 2 ≤ q → 2 ≤ c → c = (s.cells q).lo ∨ c = (s.cells q).hi → (s.cells q).index < (s.cells c).index

theorem Tree.Ordered.root_le {v : Nat} {l r : Tree} (o : (Tree.node v l r).Ordered) {w : Nat} (h : (Tree.node v l r).Mem w) : v ≤ w := by
  rcases h with h | h | h
  · omega
  · exact Nat.le_of_lt (o.1 w h)
  · exact Nat.le_of_lt (o.2.1 w h)

theorem RespectsOrder.ordered {s : Mgr} {p : Nat} {t : Tree} (h : RespectsOrder s p) (ht : Repr s.cells p t) : t.Ordered := by
  induction ht with
  | bot => trivial
  | top => trivial
  | @node p tl th h2 hl hx h3 h4 ihl ihh =>
    have ol := ihl (fun q c hr => h q c (.lo h2 hl hr))
    have oh := ihh (fun q c hr => h q c (.hi h2 hl hr))
    have key : ∀ {c : Nat} {tc : Tree}, Repr s.cells c tc → tc.Ordered → c = (s.cells p).lo ∨ c = (s.cells p).hi → ∀ w, tc.Mem w → (s.cells p).index < w := by
      intro c tc rc oc hc w hw
      by_cases c2 : 2 ≤ c
      · have := h p c (.refl _) h2 c2 hc
        obtain ⟨a, b, e, _⟩ := rc.inv c2
        subst e
        exact Nat.lt_of_lt_of_le this (oc.root_le hw)
      · cases rc with
        | bot => exact hw.elim
        | top => exact hw.elim
        | node h2 => exact absurd h2 c2
    exact ⟨key h3 ol (Or.inl rfl), key h4 oh (Or.inr rfl), ol, oh⟩

/-- One direction of `C80_same_size`. -/
theorem same_tree_le {md : Md} {refs : Nat → Nat} {s s' : Mgr} {p' : Nat} (hi : Inv cfg md refs s)
    {t : Tree} (ht : Repr s.cells p t) (ht' : Repr s'.cells p' t) {l l' : List Nat} (hl : Lists s.cells p l) (hl' : Lists s'.cells p' l') :
    l.length ≤ l'.length := by
  refine pigeon (fun q q' => ∃ w, Repr s.cells q w ∧ Repr s'.cells q' w) hl.nodup ?_ ?_
  · intro q hq
    obtain ⟨q2, hq⟩ := (hl.mem q).1 hq
    obtain ⟨w, hw⟩ := hi.repr (hq.live_or hi ht)
    obtain ⟨q', q2', hq', hw'⟩ := (ht'.sub_iff w).1 ((ht.sub_iff w).2 ⟨q, q2, hq, hw⟩)
    exact ⟨q', (hl'.mem q').2 ⟨q2', hq'⟩, w, hw, hw'⟩
  · rintro q1 q2 q' _ _ ⟨w1, r1, r1'⟩ ⟨w2, r2, r2'⟩
    have := r1'.fn r2'
    subst this
    exact hi.repr_inj r1 r2

/-- C80: every BDD of the same function that respects the variable order has the same number of nodes, whatever the manager it lives in and the history it comes
from (for instance one with `xor_rec`). -/
theorem C80_same_size (hR : Reachable cfg .ordered a) (hp : a.Holds p) (dF : Denotes cfg a.mgr p F) (hs : SinkOk cfg ∨ 2 ≤ p)
    {cfg' : Cfg} {u' : Use} {a' : Api} {p' : Nat} {F' : List Bool → Bool} (hR' : Reachable cfg' u' a') (hp' : a'.Holds p') (dF' : Denotes cfg' a'.mgr p' F')
    (hs' : SinkOk cfg' ∨ 2 ≤ p') (ho : RespectsOrder a'.mgr p') (hF : ∀ x, Covers a.mgr x → Covers a'.mgr x → F x = F' x) :
    ∃ k, nrNodes cfg p a.mgr = .ok k a.mgr ∧ nrNodes cfg' p' a'.mgr = .ok k a'.mgr := by
  have hi := hR.good
  have hi' := hR'.good
  obtain ⟨t, ht⟩ := hi.any hp
  obtain ⟨t', ht'⟩ := hi'.any hp'
  obtain ⟨l, hl, e⟩ := nrNodes_ok hi ht (.of hi hs)
  obtain ⟨l', hl', e'⟩ := nrNodes_ok hi' ht' (.of hi' hs')
  have o := hi.ord (Use.ordered_iff.2 rfl) _ _ ht
  have o' := ho.ordered ht'
  have heq : ∀ x, t.eval x = t'.eval x := by
    refine eval_of_same (n := max a.mgr.nvars a'.mgr.nvars) (fun v h => ?_) (fun v h => ?_) ?_
    · have := hi.mem_lt ht h; omega
    · have := hi'.mem_lt ht' h; omega
    · intro x hx
      have c1 : Covers a.mgr x := by unfold Covers; omega
      have c2 : Covers a'.mgr x := by unfold Covers; omega
      have h1 : F x = t.eval (asg x) := denotes_same hi ht dF x c1
      have h2 : F' x = t'.eval (asg x) := denotes_same hi' ht' dF' x c2
      show t.eval (asg x) = t'.eval (asg x)
      rw [← h1, ← h2, hF x c1 c2]
  have := Tree.eq_of_eval o o' (hi.reduced ht) (hi'.reduced ht') heq
  subst this
  have := Nat.le_antisymm (same_tree_le hi ht ht' hl hl') (same_tree_le hi' ht' ht hl' hl)
  exact ⟨_, e, this ▸ e'⟩

/-- Positions reachable in an entry unfold to subtrees. -/
theorem CReach.subL {ins : List Instr} {i k : Nat} (h : CReach ins i k) : ∀ {t : Tree}, CRepr ins i t → ∃ w, t.SubL w ∧ CRepr ins k w := by
  induction h with
  | refl i => intro t ht; exact ⟨t, .refl _, ht⟩
  | lo g1 g2 _ ih =>
    intro t ht
    obtain ⟨tl, th, rfl, a, b⟩ := ht.inv g1 g2
    obtain ⟨w, h1, h2⟩ := ih a
    exact ⟨w, Or.inr (Or.inl h1), h2⟩
  | hi g1 g2 _ ih =>
    intro t ht
    obtain ⟨tl, th, rfl, a, b⟩ := ht.inv g1 g2
    obtain ⟨w, h1, h2⟩ := ih b
    exact ⟨w, Or.inr (Or.inr h1), h2⟩

theorem CRepr.reach_sub {ins : List Instr} {i : Nat} {t : Tree} (h : CRepr ins i t) {w : Tree} (hs : t.Sub w) : ∃ k, CReach ins i k ∧ CRepr ins k w := by
  induction h with
  | bot => exact hs.elim
  | top => exact hs.elim
  | @node i e tl th g1 g2 g3 g4 ih1 ih2 =>
    rcases hs with rfl | hs | hs
    · exact ⟨i, .refl _, .node g1 g2 g3 g4⟩
    · obtain ⟨k, a, b⟩ := ih1 hs
      exact ⟨k, .lo g1 g2 a, b⟩
    · obtain ⟨k, a, b⟩ := ih2 hs
      exact ⟨k, .hi g1 g2 a, b⟩

/-- C80 for collections: the number of nodes of an entry that respects the variable order, is reduced and has no unreachable nodes is the number of inconstant
residuals of its function, plus two for the sinks. (`add_bdd` and the conjunctions make such entries: C39, C45.) -/
theorem C80_entry {c : Coll} (hC : CReachable cfg c) {nr n : Nat} (hn : nr < c.nrBdds) (ho : c.Ordered nr) (hr : c.Reduced nr) (hcon : c.Connected nr)
    (hv : ∀ v, c.Var nr v → v < n) (dF : CDenotes cfg c nr F) :
    ∀ Gs, ListsResiduals n F Gs → cNrNodes cfg nr c = .ok (Gs.length + 2) c := by
  intro Gs hG
  have hw := hC.inv.wf nr hn
  obtain ⟨d0, d1, he, hwr⟩ := hw
  have hw := hC.inv.wf nr hn
  have two := hwr.two
  obtain ⟨t, ht⟩ := hw.tree he
  have o := hw.tree_ordered he ho ht (Nat.le_refl _) (by omega)
  have r := tree_reduced hw hr he ht (Nat.le_refl _) (by omega)
  have hm : ∀ v, t.Mem v → v < n := by
    intro v hv'
    obtain ⟨j, e, h1, h2, h3, h4, h5⟩ := hwr.mem ht (Nat.le_refl _) (by omega) hv'
    exact hv v ⟨j, e, ⟨d0, d1, he, h1, h2, h3⟩, h4, h5⟩
  have hF : SameFn n F (fun x => t.eval (asg x)) := by
    intro x hx
    have hcov : CCovers c nr x := fun v h => Nat.lt_of_lt_of_le (hv v h) hx
    have h1 := dF x hcov
    rw [cEvaluate_ok he hwr ht (hcov.mem he hwr ht)] at h1
    injection h1 with h1
    exact h1.symm
  have inner_lt : ∀ {k : Nat} {w : Tree}, d0 ≤ k → k < d1 → CRepr c.ins k w → w ≠ .bot → w ≠ .top → k + 2 < d1 := by
    intro k w k0 k1 hk hb ht
    cases hk with
    | bot => exact absurd rfl hb
    | top => exact absurd rfl ht
    | node g1 g2 _ _ => exact (hwr.inner_iff k0 k1 g1).1.1 g2
  have key := residuals_count (Rp := fun i w => CRepr c.ins i w) (ks := List.range' d0 (d1 - d0 - 2)) o r hm hF List.nodup_range' ?_ ?_
    (fun _ _ _ h h' => h.unique h') ?_ hG
  · rw [cNrNodes_ok he]
    rw [List.length_range'] at key
    congr 1; omega
  · intro k hk
    rw [List.mem_range'_1] at hk
    obtain ⟨e, e1, e2, _⟩ := hwr.inner k hk.1 (by omega)
    have hin := Instr.inner_of_lt e2
    obtain ⟨w, h1, h2⟩ := (hcon d0 k e he.1 ⟨d0, d1, he, hk.1, by omega, e1⟩ hin).subL ht
    obtain ⟨tl, th, rfl, _⟩ := h2.inv e1 hin
    rcases h1.cases with h | h | h
    · cases h
    · cases h
    · exact ⟨_, h, h2⟩
  · intro w hw'
    obtain ⟨k, h1, h2⟩ := ht.reach_sub hw'
    obtain ⟨k0, k1⟩ := h1.in_range hwr (Nat.le_refl _) (by omega)
    have := inner_lt k0 k1 h2 hw'.inner.1 hw'.inner.2
    exact ⟨k, by rw [List.mem_range'_1]; omega, h2⟩
  · intro k hk k' hk' w h h'
    rw [List.mem_range'_1] at hk hk'
    exact tree_inj hw hr he hk.1 (by omega) hk'.1 (by omega) h h'
/-- C80: no diagram is smaller. An entry of any collection, made by any means, that respects the variable order and computes the function has a node for each of the
inconstant residuals and the two sinks; it may have more, being redundant. -/
theorem C80_minimal {c : Coll} {nr n : Nat} (hw : c.Wf nr) (ho : c.Ordered nr) (hv : ∀ v, c.Var nr v → v < n) (dF : CDenotes cfg c nr F)
    {Gs : List (List Bool → Bool)} (hG : ListsResiduals n F Gs) : ∃ k, cNrNodes cfg nr c = .ok k c ∧ Gs.length + 2 ≤ k := by
  obtain ⟨d0, d1, he, hwr⟩ := id hw
  have two := hwr.two
  obtain ⟨t, ht⟩ := hw.tree he
  have o := hw.tree_ordered he ho ht (Nat.le_refl _) (by omega)
  have hF : SameFn n F (fun x => t.eval (asg x)) := by
    intro x hx
    have hcov : CCovers c nr x := fun v h => Nat.lt_of_lt_of_le (hv v h) hx
    have h1 := dF x hcov
    rw [cEvaluate_ok he hwr ht (hcov.mem he hwr ht)] at h1
    injection h1 with h1
    exact h1.symm
  refine ⟨_, cNrNodes_ok he, ?_⟩
  have : Gs.length ≤ (List.range' d0 (d1 - d0 - 2)).length := by
    refine pigeon (fun G k => ∃ w, CRepr c.ins k w ∧ SameFn n (fun x => w.eval (asg x)) G) (distinct_nodup hG.distinct) ?_ ?_
    · intro G hg
      obtain ⟨x, _, e⟩ := hG.residual G hg
      obtain ⟨w, h3, h4⟩ := sub_of_residual o hF (fun h => hG.inconstant G hg (e.symm.const h))
      obtain ⟨k, h5, h6⟩ := ht.reach_sub h3
      obtain ⟨k0, k1⟩ := h5.in_range hwr (Nat.le_refl _) (by omega)
      have : k + 2 < d1 := by
        cases h6 with
        | bot => exact absurd rfl h3.inner.1
        | top => exact absurd rfl h3.inner.2
        | node g1 g2 _ _ => exact (hwr.inner_iff k0 k1 g1).1.1 g2
      exact ⟨k, by rw [List.mem_range'_1]; omega, w, h6, h4.trans e.symm⟩
    · rintro G G' q hg hg' ⟨w, r1, e1⟩ ⟨w', r2, e2⟩
      have := r1.unique r2
      subst this
      exact distinct_inj hG.distinct G hg G' hg' (e1.symm.trans e2)
  rw [List.length_range'] at this
  omega
end

/-! ### Concrete cases -/

/-- The functions of x0 ∧ x1 left after fixing first variables: itself and x1. -/
theorem residuals_and : ListsResiduals 3 (fun x => x.getD 0 false && x.getD 1 false) [fun x => x.getD 0 false && x.getD 1 false, fun x => x.getD 1 false] where
  residual G hG := by
    simp only [List.mem_cons, List.not_mem_nil, or_false] at hG
    rcases hG with rfl | rfl
    · exact ⟨[], by decide, fun x _ => rfl⟩
    · refine ⟨[true], by decide, fun x hx => ?_⟩
      match x, hx with
      | b0 :: b1 :: x, _ => rfl
  inconstant G hG := by
    simp only [List.mem_cons, List.not_mem_nil, or_false] at hG
    rcases hG with rfl | rfl <;> intro h <;> exact absurd (h [true, true, true] [false, false, false] (by decide) (by decide)) (by decide)
  distinct := by
    refine .cons ?_ (.cons (fun _ h => by cases h) .nil)
    intro G hG
    simp only [List.mem_cons, List.not_mem_nil, or_false] at hG
    subst hG
    intro h
    exact absurd (h [false, true, true] (by decide)) (by decide)
  all c hc hn := by
    match c, hc, hn with
    | [], _, _ => exact ⟨_, List.mem_cons_self, fun x _ => rfl⟩
    | [true], _, _ =>
      refine ⟨_, List.mem_cons_of_mem _ List.mem_cons_self, fun x hx => ?_⟩
      match x, hx with
      | b0 :: b1 :: x, _ => rfl
    | [false], _, hn => exact absurd (fun x y _ _ => rfl) hn
    | b0 :: b1 :: c, _, hn => exact absurd (fun x y _ _ => rfl) hn

theorem demo_and  : (demo .ordered).Holds 5 ∧ (demo .ordered).mgr.nvars = 3 ∧
    Denotes (envOf false) (demo .ordered).mgr 5 (fun x => x.getD 0 false && x.getD 1 false) := by
  have hh : (demo .ordered).Holds 5 := by unfold Api.Holds; rw [demo_hs]; decide
  have hn : (demo .ordered).mgr.nvars = 3 := by decide +kernel
  have hv : ∀ b0 b1 b2 : Bool, evalsB (envOf false) (demo .ordered).mgr 5 [b0, b1, b2] (b0 && b1) = true := by decide +kernel
  refine ⟨hh, hn, fun x hx => ?_⟩
  show evaluate _ _ _ _ = _
  rw [evaluate_take (demo_reachable _) hh hx]
  unfold Covers at hx
  rw [hn] at hx ⊢
  match x, hx with
  | b0 :: b1 :: b2 :: _, _ => exact evalsB_sound (hv b0 b1 b2)

/-- The hypotheses of C80 are met: x0 ∧ x1 has two nodes, the functions x0 ∧ x1 and x1. -/
theorem C80_concrete : nrNodes (envOf false) 5 (demo .ordered).mgr = .ok 2 (demo .ordered).mgr := by
  obtain ⟨hh, hn, dF⟩ := demo_and
  exact (C80_nr_nodes (demo_reachable _) hh dF (Or.inr (by decide))).2 _ (hn ▸ residuals_and)

/-- In ordered histories every BDD respects the order. -/
theorem respects_of {cfg : Cfg} {a : Api} {p : Nat} (hR : Reachable cfg .ordered a) (hp : a.Holds p) : RespectsOrder a.mgr p := by
  have hi := hR.good
  obtain ⟨t, ht⟩ := hi.any hp
  intro q c hq q2 c2 hc
  have hl : (a.mgr.cells q).live = true := by
    obtain ⟨w, hw⟩ := hi.repr (hq.live_or hi ht)
    exact (hw.inv q2).choose_spec.choose_spec.2.1
  exact hi.ord_child (Use.ordered_iff.2 rfl) q2 hl hc c2

/-- The hypotheses of `C80_same_size` are met. -/
example : ∃ k, nrNodes (envOf false) 5 (demo .ordered).mgr = .ok k (demo .ordered).mgr ∧ nrNodes (envOf false) 5 (demo .ordered).mgr = .ok k (demo .ordered).mgr := by
  obtain ⟨hh, hn, dF⟩ := demo_and
  exact C80_same_size (demo_reachable _) hh dF (Or.inr (by decide)) (demo_reachable _) hh dF (Or.inr (by decide)) (respects_of (demo_reachable _) hh) (fun _ _ _ => rfl)

/-- Entry 0 of the demo collection, x0 ∧ x1, has four nodes: the hypotheses of `C80_entry` and `C80_minimal` are met. -/
theorem C80_entry_concrete (nd : Bool) : cNrNodes (envOf nd) 0 (demoC nd) = .ok 4 (demoC nd) ∧
    ∃ k, cNrNodes (envOf nd) 0 (demoC nd) = .ok k (demoC nd) ∧ 4 ≤ k := by
  have h0 : 0 < (demoC nd).nrBdds := by rw [demoC_nrBdds]; decide
  have hw := (demoC_reachable nd).inv.wf 0 h0
  have hc : ∀ b0 b1 : Bool, cevB (cEvaluate (envOf nd) (demoC nd) 0 [b0, b1]) (b0 && b1) = true := by cases nd <;> decide +kernel
  have hd : (demoC nd).del[0]? = some 0 ∧ (demoC nd).del[1]? = some 4 := by cases nd <;> decide +kernel
  have h1 : (demoC nd).ins[1]? = some ⟨2, 3, 1⟩ := by cases nd <;> decide +kernel
  have h2 : (demoC nd).ins[0]? = some ⟨2, 1, 0⟩ := by cases nd <;> decide +kernel
  have hv2 : ∀ v, (demoC nd).Var 0 v → v < 2 := fun v h => Coll.varsB_sound (by cases nd <;> decide +kernel) h
  have hs : ∀ i, 2 ≤ i → i < 4 → ∃ e, (demoC nd).ins[i]? = some e ∧ e.innerB = false := by
    intro i h2 h4
    have : i = 2 ∨ i = 3 := by omega
    have k2 : ((demoC nd).ins[2]?.map Instr.innerB) = some false := by cases nd <;> decide +kernel
    have k3 : ((demoC nd).ins[3]?.map Instr.innerB) = some false := by cases nd <;> decide +kernel
    rcases this with rfl | rfl
    · exact Option.map_eq_some_iff.1 k2
    · exact Option.map_eq_some_iff.1 k3
  have dF : CDenotes (envOf nd) (demoC nd) 0 (fun x => x.getD 0 false && x.getD 1 false) := by
    intro x hx
    have hl : 1 < x.length := hx 1 ⟨1, _, ⟨0, 4, hd, by decide, by decide, h1⟩, ⟨by decide, by decide⟩, rfl⟩
    rw [cEvaluate_take (demoC_reachable nd) h0 hv2 (n := 2) (by omega)]
    match x, hl with
    | b0 :: b1 :: _, _ => exact cevB_sound (hc b0 b1)
  have hcon : (demoC nd).Connected 0 := by
    rintro d0 i e hd0 ⟨_, _, ⟨e1, e2⟩, _, hi, he⟩ hin
    rw [hd.1] at hd0; cases hd0
    rw [hd.2] at e2; cases e2
    by_cases h : 2 ≤ i
    · obtain ⟨e', g1, g2⟩ := hs i h hi
      rw [he] at g1; cases g1
      rw [(Instr.innerB_iff e).2 hin] at g2; cases g2
    · have : i = 0 ∨ i = 1 := by omega
      rcases this with rfl | rfl
      · exact .refl _
      · exact .hi h2 ⟨by decide, by decide⟩ (.refl _)
  exact ⟨C80_entry (demoC_reachable nd) h0 (demoC_ordered nd 0 (by decide)) (demoC_big_reduced nd 0 (by decide)).2 hcon (demoC_vars nd 0 (by decide)) dF _ residuals_and,
    C80_minimal hw (demoC_ordered nd 0 (by decide)) (demoC_vars nd 0 (by decide)) dF residuals_and⟩

/-- C80 fails with `xor_rec`: the constant (x0 ⊕ x1) ∧ x0 ∧ x1 has no inconstant residuals and three nodes. -/
theorem C80_refuted : ∀ nd : Bool, ∃ a p F Gs k, Reachable (envOf nd) .parity a ∧ a.Holds p ∧ Denotes (envOf nd) a.mgr p F ∧ ListsResiduals a.mgr.nvars F Gs ∧
    nrNodes (envOf nd) p a.mgr = .ok k a.mgr ∧ Gs.length < k := by
  intro nd
  have hR : Reachable (envOf nd) .parity (zeroXor nd) := stateAfter_reachable _ _ _
  have hh : (zeroXor nd).Holds 8 := by unfold Api.Holds; rw [zeroXor_hs]; decide
  obtain ⟨l, hl, el⟩ := C24_nr_nodes hR hh (Or.inr (by decide))
  have hv : (resOf (nrNodes (envOf nd) 8 (zeroXor nd).mgr) 0 (zeroXor nd).mgr).1 = 3 := by cases nd <;> decide +kernel
  rw [el] at hv
  have hv : l.length = 3 := hv
  refine ⟨zeroXor nd, 8, fun _ => false, [], l.length, hR, hh, ?_, ⟨(fun _ h => by cases h), (fun _ h => by cases h), .nil, ?_⟩, el, by rw [hv]; decide⟩
  · intro x hx
    show evaluate _ _ _ _ = _
    rw [evaluate_take hR hh hx]
    unfold Covers at hx
    rw [zeroXor_nvars] at hx ⊢
    match x, hx with
    | b0 :: b1 :: _, _ =>
      simp only [List.take_succ_cons, List.take_zero]
      exact evalsB_sound (zeroXor_eval nd b0 b1)
  · intro c _ hn
    exact absurd (fun x y _ _ => rfl) hn
end LBDD
