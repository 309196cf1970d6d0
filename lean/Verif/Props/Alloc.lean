import Verif.Props.GcBad
import Verif.Proof.Mixed
import Verif.Proof.TreeSize
/-!
# Memory use of the operations (C61–C64)
-/
namespace LBDD
section
variable {cfg : Cfg} {md : Md} {refs refs' : Nat → Nat} {s s' : Mgr}

theorem Inv.lists_of (hi : Inv cfg md refs s) {r : Nat} {t : Tree} (hr : Repr s.cells r t) : ∃ l, ListsOnce s r l := by
  obtain ⟨l, h, hm, _⟩ := hi.nr_nodes
  classical
  refine ⟨l.filter (fun q => decide (Reaches s.cells r q)), h.filter _, fun q => ?_⟩
  rw [List.mem_filter, decide_eq_true_eq]
  constructor
  · rintro ⟨h1, h2⟩; exact ⟨((hm q).1 h1).1, h2⟩
  · rintro ⟨h1, h2⟩; exact ⟨(hm q).2 ⟨h1, h2.live_or hi hr⟩, h2⟩

/-- A step that keeps all nodes and creates only nodes of its result. -/
theorem New.allocates (hi : Inv cfg md refs s) (hi' : Inv cfg md refs' s') (hx : CellsExt s.cells s'.cells) {r : Nat} {t : Tree}
    (hr : Repr s'.cells r t) (hn : New s s' r) : Allocates s s' r := by
  refine ⟨fun p => ⟨hn p, ?_⟩, ?_⟩
  · rintro (h | h)
    · exact (hx p h).1
    · exact h.live_or hi' hr
  obtain ⟨l, hl⟩ := hi'.lists_of hr
  refine ⟨l, hl, ?_⟩
  obtain ⟨m, m1, m2, m3⟩ := hi.nr_nodes
  obtain ⟨m', m1', m2', m3'⟩ := hi'.nr_nodes
  have key : m'.Perm (m ++ l.filter (fun p => !(s.cells p).live)) := by
    refine (List.perm_ext_iff_of_nodup m1' ?_).2 ?_
    · rw [List.nodup_append]
      refine ⟨m1, hl.1.filter _, ?_⟩
      intro x hx y hy e
      subst e
      have h1 := ((m2 x).1 hx).2
      have h2 := (List.mem_filter.1 hy).2
      rw [h1] at h2; cases h2
    · intro p
      rw [List.mem_append, List.mem_filter, m2, m2', hl.2]
      constructor
      · rintro ⟨h2, h⟩
        cases e : (s.cells p).live
        · rcases hn p h with h' | h'
          · rw [e] at h'; cases h'
          · exact Or.inr ⟨⟨h2, h'⟩, rfl⟩
        · exact Or.inl ⟨h2, rfl⟩
      · rintro (⟨h2, h⟩ | ⟨⟨h2, h⟩, _⟩)
        · exact ⟨h2, (hx p h).1⟩
        · exact ⟨h2, h.live_or hi' hr⟩
  have := key.length_eq
  rw [List.length_append] at this
  omega

/-- What is reachable from an old node was so before. -/
theorem Reaches.back {c c' : Nat → Cell} (hx : CellsExt c c') {r p : Nat} (h : Reaches c' r p) : ∀ {t : Tree}, Repr c r t → Reaches c r p := by
  induction h with
  | refl => intro t _; exact .refl _
  | lo h2 _ _ ih =>
    intro t ht
    obtain ⟨_, _, rfl, hl, _, h3, _⟩ := ht.inv h2
    have := (hx _ hl).2.1
    rw [this] at ih
    exact .lo h2 hl (ih h3)
  | hi h2 _ _ ih =>
    intro t ht
    obtain ⟨_, _, rfl, hl, _, _, h3⟩ := ht.inv h2
    have := (hx _ hl).2.2.1
    rw [this] at ih
    exact .hi h2 hl (ih h3)

theorem ListsOnce.ext {r : Nat} {l : List Nat} (h : ListsOnce s r l) (hx : CellsExt s.cells s'.cells) {t : Tree} (hr : Repr s.cells r t) : ListsOnce s' r l :=
  ⟨h.1, fun q => by rw [h.2]; exact ⟨fun ⟨a, b⟩ => ⟨a, b.ext hx⟩, fun ⟨a, b⟩ => ⟨a, b.back hx hr⟩⟩⟩

/-- When the result of a step is a BDD that existed before, nothing is created. -/
theorem Allocates.nothing {r : Nat} (h : Allocates s s' r) (hi : Inv cfg md refs s) (hx : CellsExt s.cells s'.cells) {t : Tree} (hr : Repr s.cells r t) :
    AllocatesNothing s s' := by
  have hl : ∀ p, Reaches s'.cells r p → (s.cells p).live = true := by
    intro p hp
    exact (hp.back hx hr).live_or hi hr
  obtain ⟨h1, l, h2, h3⟩ := h
  constructor
  · intro p
    rw [Bool.eq_iff_iff, h1 p]
    exact ⟨fun h => h.elim id (hl p), Or.inl⟩
  · rw [h3, List.filter_eq_nil_iff.2]
    · rfl
    · intro p hp
      rw [hl p ((h2.2 p).1 hp).2]; decide
end

section
variable {cfg : Cfg} {u : Use} {a a' : Api} {f g h q : Nat} {F G H : List Bool → Bool}

/-! ## C61 -/

/-- C61: `and_rec` creates only nodes of its result; likewise the other operations below, in every history. -/
theorem C61_and (hR : Reachable cfg u a) (hf : a.Holds f) (hg : a.Holds g) :
    Returns (andOp cfg f g a.mgr) (fun r s' => Allocates a.mgr s' r) := by
  obtain ⟨tf, rf⟩ := hR.good.any hf
  obtain ⟨tg, rg⟩ := hR.good.any hg
  refine (andOp_ok hR.good rf rg).returns ?_
  rintro r s' hx hi' ⟨tr, rr, _, _, hn⟩
  exact hn.allocates hR.good hi' hx.cells rr

theorem C61_or (hR : Reachable cfg u a) (hf : a.Holds f) (hg : a.Holds g) :
    Returns (orOp cfg f g a.mgr) (fun r s' => Allocates a.mgr s' r) := by
  have hR := hR.mixed
  obtain ⟨tf, rf⟩ := hR.good.any hf
  obtain ⟨tg, rg⟩ := hR.good.any hg
  refine (orOp_ok (md := Use.mixed.md) semIte_mixed.toSemOr hR.good rf rg).returns ?_
  rintro r s' hx hi' ⟨tr, rr, _, _, hn⟩
  exact hn.allocates hR.good hi' hx.cells rr

theorem C61_xor (hR : Reachable cfg u a) (hf : a.Holds f) (hg : a.Holds g) :
    Returns (xorOp cfg f g a.mgr) (fun r s' => Allocates a.mgr s' r) := by
  have hR := hR.mixed
  obtain ⟨tf, rf⟩ := hR.good.any hf
  obtain ⟨tg, rg⟩ := hR.good.any hg
  refine (xorOp_ok (md := Use.mixed.md) semXor_mixed id hR.good rf rg).returns ?_
  rintro r s' hx hi' ⟨tr, rr, _, _, hn⟩
  exact hn.allocates hR.good hi' hx.cells rr

theorem C61_negate (hR : Reachable cfg u a) (hf : a.Holds f) :
    Returns (negateOp cfg f a.mgr) (fun r s' => Allocates a.mgr s' r) := by
  obtain ⟨tf, rf⟩ := hR.good.any hf
  refine (negateOp_tree hR.good rf).returns ?_
  rintro r s' hx hi' ⟨rr, hn⟩
  exact hn.allocates hR.good hi' hx.cells rr

/-- For `ite_rec`: whenever it returns (see `C05_refuted`). -/
theorem C61_ite (hR : Reachable cfg u a) (hf : a.Holds f) (hg : a.Holds g) (hh : a.Holds h) {r : Nat} {s' : Mgr}
    (e : iteOp cfg f g h a.mgr = .ok r s') : Allocates a.mgr s' r := by
  have hR := hR.mixed
  obtain ⟨tf, rf⟩ := hR.good.any hf
  obtain ⟨tg, rg⟩ := hR.good.any hg
  obtain ⟨th, rh⟩ := hR.good.any hh
  have hspec := iteOp_okB (cfg := cfg) (md := Use.mixed.md) semIte_mixed True hR.good rf rg rh (Or.inl trivial)
  unfold SpecB at hspec
  rw [e] at hspec
  obtain ⟨hx, hi', tr, rr, _, _, hn⟩ := hspec
  exact hn.allocates hR.good hi' hx.cells rr

theorem C61_projection (hR : Reachable cfg u a) {v : Nat} (hv : v < topsinkIndex) :
    Returns (projection cfg v a.mgr) (fun r s' => Allocates a.mgr s' r) := by
  refine (projection_ok hR.good hv).returns ?_
  rintro r s' hx hi' ⟨rr, _, hn⟩
  exact hn.allocates hR.good hi' hx.cells rr

theorem C61_negProjection (hR : Reachable cfg u a) {v : Nat} (hv : v < a.mgr.nvars) :
    Returns (negProjection cfg v a.mgr) (fun r s' => Allocates a.mgr s' r) := by
  refine (negProjection_ok hR.good hv).returns ?_
  rintro r s' hx hi' ⟨rr, hn⟩
  exact hn.allocates hR.good hi' hx.cells rr

theorem C61_unique_find (hR : Reachable cfg u a) {v : Nat} (hv : v < a.mgr.nvars) (hf : a.Holds f) (hg : a.Holds g) :
    Returns (mgrUniqueFind cfg v f g a.mgr) (fun r s' => Allocates a.mgr s' r) := by
  have hR := hR.mixed
  obtain ⟨tf, rf⟩ := hR.good.any hf
  obtain ⟨tg, rg⟩ := hR.good.any hg
  refine (mgrUniqueFind_ok hR.good hv rf rg (fun h => h.elim)).returns ?_
  rintro r s' hx hi' ⟨rr, hn⟩
  exact hn.allocates hR.good hi' hx.cells rr

/-! ## C62 -/

theorem repeat_of {refs : Nat → Nat} {s s' : Mgr} {md : Md} (ho : md.ordered) (hi : Inv cfg md refs s) (hi' : Inv cfg md refs s') (hx : Ext s s')
    {r q : Nat} {tr tq : Tree} (hr : Repr s'.cells r tr) (hq : Repr s.cells q tq) (hn : New s s' r)
    (he : ∀ x, Covers s x → tr.eval (asg x) = tq.eval (asg x)) : r = q ∧ AllocatesNothing s s' := by
  have hq' := hq.ext hx.cells
  have e : ∀ x, tr.eval x = tq.eval x := by
    intro x
    have h1 := eval_toList hi' hr x
    have h2 := eval_toList hi' hq' x
    rw [← h1, ← h2]
    exact he _ ((covers_toList s' x).anti (by rw [hx.nvars]; exact Nat.le_refl _))
  have := Tree.eq_of_eval (hi'.ord ho _ _ hr) (hi'.ord ho _ _ hq') (hi'.reduced hr) (hi'.reduced hq') e
  subst this
  have e2 := hi'.repr_inj hr hq'
  subst e2
  exact ⟨rfl, (hn.allocates hi hi' hx.cells hr).nothing hi hx.cells hq⟩

/-- C62, for histories that respect the order and do not use `xor_rec`: when the user already holds a BDD of the conjunction, `and_rec` returns that
same handle and creates no node, however memo entries were overwritten; likewise for the operations below. -/
theorem C62_and_repeat_partial (hR : Reachable cfg .ordered a) (hf : a.Holds f) (hg : a.Holds g) (hq : a.Holds q)
    (dF : Denotes cfg a.mgr f F) (dG : Denotes cfg a.mgr g G) (dQ : Denotes cfg a.mgr q (fun x => F x && G x)) :
    Returns (andOp cfg f g a.mgr) (fun r s' => r = q ∧ AllocatesNothing a.mgr s') := by
  obtain ⟨tf, rf⟩ := hR.good.any hf
  obtain ⟨tg, rg⟩ := hR.good.any hg
  obtain ⟨tq, rq⟩ := hR.good.any hq
  refine (andOp_ok hR.good rf rg).returns ?_
  rintro r s' hx hi' ⟨tr, rr, he, _, hn⟩
  refine repeat_of (Use.ordered_iff.2 rfl) hR.good hi' hx rr rq hn ?_
  intro x hc
  rw [he, ← dF.eq (denotes_repr hR.good rf) hc, ← dG.eq (denotes_repr hR.good rg) hc]
  exact dQ.eq (denotes_repr hR.good rq) hc

theorem C62_or_repeat_partial (hR : Reachable cfg .ordered a) (hf : a.Holds f) (hg : a.Holds g) (hq : a.Holds q)
    (dF : Denotes cfg a.mgr f F) (dG : Denotes cfg a.mgr g G) (dQ : Denotes cfg a.mgr q (fun x => F x || G x)) :
    Returns (orOp cfg f g a.mgr) (fun r s' => r = q ∧ AllocatesNothing a.mgr s') := by
  obtain ⟨tf, rf⟩ := hR.good.any hf
  obtain ⟨tg, rg⟩ := hR.good.any hg
  obtain ⟨tq, rq⟩ := hR.good.any hq
  have hm : Use.ordered.md.sem = fun a b c => c = (a || b) := (Use.orMode (Or.inl rfl)).sem
  refine (orOp_ok (Use.orMode (Or.inl rfl)).semIte.toSemOr hR.good rf rg).returns ?_
  rintro r s' hx hi' ⟨tr, rr, he, _, hn⟩
  rw [hm] at he
  refine repeat_of (Use.ordered_iff.2 rfl) hR.good hi' hx rr rq hn ?_
  intro x hc
  rw [he, ← dF.eq (denotes_repr hR.good rf) hc, ← dG.eq (denotes_repr hR.good rg) hc]
  exact dQ.eq (denotes_repr hR.good rq) hc

theorem C62_negate_repeat_partial (hR : Reachable cfg .ordered a) (hf : a.Holds f) (hq : a.Holds q)
    (dF : Denotes cfg a.mgr f F) (dQ : Denotes cfg a.mgr q (fun x => !F x)) :
    Returns (negateOp cfg f a.mgr) (fun r s' => r = q ∧ AllocatesNothing a.mgr s') := by
  obtain ⟨tf, rf⟩ := hR.good.any hf
  obtain ⟨tq, rq⟩ := hR.good.any hq
  refine (negateOp_tree hR.good rf).returns ?_
  rintro r s' hx hi' ⟨rr, hn⟩
  refine repeat_of (Use.ordered_iff.2 rfl) hR.good hi' hx rr rq hn ?_
  intro x hc
  rw [negTree_eval, ← dF.eq (denotes_repr hR.good rf) hc]
  exact dQ.eq (denotes_repr hR.good rq) hc

theorem C62_ite_repeat_partial (hR : Reachable cfg .ordered a) (hf : a.Holds f) (hg : a.Holds g) (hh : a.Holds h) (hq : a.Holds q)
    (dF : Denotes cfg a.mgr f F) (dG : Denotes cfg a.mgr g G) (dH : Denotes cfg a.mgr h H)
    (dQ : Denotes cfg a.mgr q (fun x => if F x then G x else H x)) {r : Nat} {s' : Mgr}
    (e : iteOp cfg f g h a.mgr = .ok r s') : r = q ∧ AllocatesNothing a.mgr s' := by
  obtain ⟨tf, rf⟩ := hR.good.any hf
  obtain ⟨tg, rg⟩ := hR.good.any hg
  obtain ⟨th, rh⟩ := hR.good.any hh
  obtain ⟨tq, rq⟩ := hR.good.any hq
  have hm : Use.ordered.md.sem = fun a b c => c = (a || b) := (Use.orMode (Or.inl rfl)).sem
  have hspec := iteOp_okB (cfg := cfg) ((Use.orMode (Or.inl rfl)).semIte) True hR.good rf rg rh (Or.inl trivial)
  unfold SpecB at hspec
  rw [e] at hspec
  obtain ⟨hx, hi', tr, rr, he, _, hn⟩ := hspec
  rw [hm] at he
  refine repeat_of (Use.ordered_iff.2 rfl) hR.good hi' hx rr rq hn ?_
  intro x hc
  have h1 := dF.eq (denotes_repr hR.good rf) hc
  have h2 := dG.eq (denotes_repr hR.good rg) hc
  have h3 := dH.eq (denotes_repr hR.good rh) hc
  have h4 := dQ.eq (denotes_repr hR.good rq) hc
  rw [← h4]
  show _ = if F x then G x else H x
  rw [h1, h2, h3]
  rcases he (asg x) with e | ⟨e1, e2, e3, e4⟩
  · exact e
  · rw [e1, e2, e4]; simp

/-! ## C63 -/

/-- C63, where the collection triggers no defect (`GcSafe`) and the history respects the order and does not use `xor_rec`: a second `collect_garbage`
right after the first returns and changes nothing at all. -/
theorem C63_gc_twice_partial (hR : Reachable cfg .ordered a) (hs : GcSafe cfg a) (e : step cfg .gc a = .ok () a') :
    step cfg .gc a' = .ok () a' := by
  have hR' : Reachable cfg .ordered a' := .step (op := .gc) hR hs e
  exact C33_gc_no_garbage hR' (fun p hp => ((C32_gc_complete_partial hR hs e).1 p).1 hp)

/-! ## C64 -/

theorem subL_node {cells : Nat → Cell} {p : Nat} {t u : Tree} (hp : Repr cells p t) {l : List Nat} (hl : ∀ q, q ∈ l ↔ 2 ≤ q ∧ Reaches cells p q)
    (h : t.SubL u) : ∃ q ∈ 0 :: 1 :: l, Repr cells q u := by
  rcases h.cases with h | h | h
  · exact ⟨0, by simp, h ▸ .bot⟩
  · exact ⟨1, by simp, h ▸ .top⟩
  · obtain ⟨q, q2, h1, h2⟩ := (hp.sub_iff u).1 h
    exact ⟨q, by simp [(hl q).2 ⟨q2, h1⟩], h2⟩

/-- Two inner nodes with the same function are equal. -/
theorem Inv.same_fun {md : Md} {refs : Nat → Nat} {s : Mgr} (hi : Inv cfg md refs s) (ho : md.ordered) {p q : Nat} {t t' : Tree} (hp : Repr s.cells p t)
    (hq : Repr s.cells q t') (he : ∀ x, t.eval x = t'.eval x) : p = q := by
  have := Tree.eq_of_eval (hi.ord ho _ _ hp) (hi.ord ho _ _ hq) (hi.reduced hp) (hi.reduced hq) he
  subst this
  exact hi.repr_inj hp hq

theorem combSize_le {md : Md} {refs : Nat → Nat} {s : Mgr} (hi : Inv cfg md refs s) (ho : md.ordered) (V : List Bool → Bool) {r : Nat} {t : Tree}
    (hr : Repr s.cells r t) {ps : List Nat} {ts : List Tree} (hps : Pairs (Repr s.cells) ps ts)
    (he : ∀ x, t.eval x = V (ts.map (fun t => t.eval x))) {l : List Nat} (hl : ListsOnce s r l) {ls : List (List Nat)} (hls : ListsAll s ps ls) :
    l.length ≤ sizeBound ls := by
  have hos : ∀ t' ∈ ts, t'.Ordered := by
    clear he hls
    induction ps generalizing ts with
    | nil => cases ts with
      | nil => intro t' h; cases h
      | cons => exact hps.elim
    | cons p ps ih => cases ts with
      | nil => exact hps.elim
      | cons t ts =>
        intro t' h
        rcases List.mem_cons.1 h with h | h
        · exact h ▸ hi.ord ho _ _ hps.1
        · exact ih hps.2 t' h
  have hsub : ∀ (ps : List Nat) (ts us : List Tree) (ls : List (List Nat)), Pairs (Repr s.cells) ps ts → Pairs Tree.SubL ts us → ListsAll s ps ls →
      ∃ qs, Pairs (fun q l => q ∈ l) qs (ls.map (fun l => 0 :: 1 :: l)) ∧ Pairs (Repr s.cells) qs us := by
    intro ps
    induction ps with
    | nil =>
      intro ts us ls h1 h2 h3
      match ts, us, ls, h1, h2, h3 with
      | [], [], [], _, _, _ => exact ⟨[], trivial, trivial⟩
    | cons p ps ih =>
      intro ts us ls h1 h2 h3
      match ts, us, ls, h1, h2, h3 with
      | t :: ts, u :: us, l :: ls, h1, h2, h3 =>
        obtain ⟨qs, g1, g2⟩ := ih ts us ls h1.2 h2.2 h3.2
        obtain ⟨q, g3, g4⟩ := subL_node h1.1 h3.1.2 h2.1
        exact ⟨q :: qs, ⟨g3, g1⟩, ⟨g4, g2⟩⟩
  have hfn : ∀ (qs : List Nat) (us us' : List Tree), Pairs (Repr s.cells) qs us → Pairs (Repr s.cells) qs us' → us = us' := by
    intro qs
    induction qs with
    | nil =>
      intro us us' h1 h2
      match us, us', h1, h2 with
      | [], [], _, _ => rfl
    | cons q qs ih =>
      intro us us' h1 h2
      match us, us', h1, h2 with
      | u :: us, u' :: us', h1, h2 => rw [h1.1.fn h2.1, ih us us' h1.2 h2.2]
  have key := pigeon (fun q qs => ∃ u us, Repr s.cells q u ∧ Pairs (Repr s.cells) qs us ∧ ∀ x, u.eval x = V (us.map (fun t => t.eval x)))
    (l := l) (m := choices (ls.map (fun l => 0 :: 1 :: l))) hl.1 ?_ ?_
  · rw [choices_length] at key
    have : ∀ ls : List (List Nat), sizesProd (ls.map (fun l => 0 :: 1 :: l)) = sizeBound ls := by
      intro ls
      induction ls with
      | nil => rfl
      | cons l ls ih => simp only [List.map_cons, sizesProd, sizeBound, ih, List.length_cons]
    rw [this] at key
    exact key
  · intro q hq
    obtain ⟨q2, hq⟩ := (hl.2 q).1 hq
    obtain ⟨u, hu⟩ := hi.repr (hq.live_or hi hr)
    obtain ⟨us, h1, h2⟩ := sub_args V (hi.ord ho _ _ hr) hos he ((hr.sub_iff u).2 ⟨q, q2, hq, hu⟩)
    obtain ⟨qs, g1, g2⟩ := hsub ps ts us ls hps h1 hls
    exact ⟨qs, mem_choices g1, u, us, hu, g2, h2⟩
  · rintro q q' qs _ _ ⟨u, us, h1, h2, h3⟩ ⟨u', us', h1', h2', h3'⟩
    refine hi.same_fun ho h1 h1' fun x => ?_
    rw [h3, h3', hfn qs us us' h2 h2']

/-- C64, for histories that respect the order and do not use `xor_rec`: a BDD of any combination of the functions of other BDDs has at most as many
inner nodes as the product of their sizes, each plus two for the sinks. -/
theorem C64_combination_size_partial (hR : Reachable cfg .ordered a) {r : Nat} {ps : List Nat} {Fs : List (List Bool → Bool)} (hr : a.Holds r)
    (hps : ∀ p ∈ ps, a.Holds p) (hd : DenotesAll cfg a.mgr ps Fs) (V : List Bool → Bool) (dr : Denotes cfg a.mgr r (fun x => V (Fs.map (fun F => F x))))
    {l : List Nat} {ls : List (List Nat)} (hl : ListsOnce a.mgr r l) (hls : ListsAll a.mgr ps ls) : l.length ≤ sizeBound ls := by
  have hi := hR.good
  obtain ⟨t, ht⟩ := hi.any hr
  have : ∀ (ps : List Nat) (Fs : List (List Bool → Bool)), (∀ p ∈ ps, a.Holds p) → DenotesAll cfg a.mgr ps Fs → ∃ ts, Pairs (Repr a.mgr.cells) ps ts ∧
      ∀ x, Covers a.mgr x → ts.map (fun t => t.eval (asg x)) = Fs.map (fun F => F x) := by
    intro ps
    induction ps with
    | nil =>
      intro Fs _ h
      match Fs, h with
      | [], _ => exact ⟨[], trivial, fun _ _ => rfl⟩
    | cons p ps ih =>
      intro Fs hp h
      match Fs, h with
      | F :: Fs, h =>
        obtain ⟨ts, h1, h2⟩ := ih Fs (fun q hq => hp q (by simp [hq])) h.2
        obtain ⟨t, ht⟩ := hi.any (hp p (by simp))
        refine ⟨t :: ts, ⟨ht, h1⟩, fun x hx => ?_⟩
        simp only [List.map_cons, h2 x hx, h.1.eq (denotes_repr hi ht) hx]
  obtain ⟨ts, h1, h2⟩ := this ps Fs hps hd
  refine combSize_le hi (Use.ordered_iff.2 rfl) V ht h1 ?_ hl hls
  intro x
  have e := dr.eq (denotes_repr hi ht) (covers_toList a.mgr x)
  rw [eval_toList hi ht x] at e
  rw [← e]
  show V _ = _
  rw [← h2 _ (covers_toList a.mgr x)]
  congr 1
  clear e h2 hls hd dr hps
  induction ps generalizing ts with
  | nil => cases ts with
    | nil => rfl
    | cons => exact h1.elim
  | cons p ps ih => cases ts with
    | nil => exact h1.elim
    | cons t ts => simp only [List.map_cons, eval_toList hi h1.1 x, ih ts h1.2]

/-- If every subtree of the result comes from a pair of subtrees of the operands, the result has at most as many nodes as there are useful pairs. -/
theorem pairSize_le {md : Md} {refs : Nat → Nat} {s : Mgr} (hi : Inv cfg md refs s) {T : Tree → Tree → Tree} {r f g : Nat} {t tf tg : Tree}
    (hT : ∀ u, t.Sub u → ∃ f' g', tf.SubL f' ∧ tg.SubL g' ∧ u = T f' g')
    (hr : Repr s.cells r t) (hf : Repr s.cells f tf) (hg : Repr s.cells g tg)
    {l lf lg : List Nat} (hl : ListsOnce s r l) (hlf : ListsOnce s f lf) (hlg : ListsOnce s g lg) {m : List (Nat × Nat)}
    (hm : ∀ qf qg uf ug, qf ∈ 0 :: 1 :: lf → qg ∈ 0 :: 1 :: lg → Repr s.cells qf uf → Repr s.cells qg ug → T uf ug ≠ .bot → T uf ug ≠ .top →
      (qf, qg) ∈ m) : l.length ≤ m.length := by
  refine pigeon (fun q (qs : Nat × Nat) => ∃ uf ug, Repr s.cells q (T uf ug) ∧ Repr s.cells qs.1 uf ∧ Repr s.cells qs.2 ug) hl.1 ?_ ?_
  · intro q hq
    obtain ⟨q2, hq⟩ := (hl.2 q).1 hq
    obtain ⟨u, hu⟩ := hi.repr (hq.live_or hi hr)
    have hsub := (hr.sub_iff u).2 ⟨q, q2, hq, hu⟩
    obtain ⟨f', g', h1, h2, h3⟩ := hT u hsub
    subst h3
    obtain ⟨qf, g1, g2⟩ := subL_node hf hlf.2 h1
    obtain ⟨qg, g3, g4⟩ := subL_node hg hlg.2 h2
    exact ⟨(qf, qg), hm qf qg f' g' g1 g3 g2 g4 hsub.inner.1 hsub.inner.2, f', g', hu, g2, g4⟩
  · rintro q q' ⟨qf, qg⟩ _ _ ⟨uf, ug, h1, h2, h3⟩ ⟨uf', ug', h1', h2', h3'⟩
    have e1 := h2.fn h2'
    have e2 := h3.fn h3'
    subst e1 e2
    exact hi.repr_inj h1 h1'

/-- The pairs of nodes when one sink absorbs: `c` is the other sink. -/
theorem absorbPairs {z c : Nat} (hz : (z = 0 ∧ c = 1) ∨ (z = 1 ∧ c = 0)) {lf lg : List Nat} {qf qg : Nat} (h1 : qf ∈ 0 :: 1 :: lf)
    (h2 : qg ∈ 0 :: 1 :: lg) (n1 : qf ≠ z) (n2 : qg ≠ z) (n3 : ¬ (qf = c ∧ qg = c)) :
    (qf, qg) ∈ lf.flatMap (fun x => (c :: lg).map (fun y => (x, y))) ++ lg.map (fun y => (c, y)) := by
  simp only [List.mem_cons] at h1 h2
  have k1 : qf ∈ lf ∨ qf = c := by
    rcases h1 with h1 | h1 | h1
    · exact Or.inr (by omega)
    · exact Or.inr (by omega)
    · exact Or.inl h1
  have k2 : qg ∈ lg ∨ qg = c := by
    rcases h2 with h2 | h2 | h2
    · exact Or.inr (by omega)
    · exact Or.inr (by omega)
    · exact Or.inl h2
  rw [List.mem_append, List.mem_flatMap, List.mem_map]
  rcases k1 with k1 | k1
  · refine Or.inl ⟨qf, k1, List.mem_map.2 ⟨qg, ?_, rfl⟩⟩
    rcases k2 with k2 | k2
    · exact List.mem_cons_of_mem _ k2
    · rw [k2]; exact List.mem_cons_self
  · rcases k2 with k2 | k2
    · exact Or.inr ⟨qg, k2, by rw [k1]⟩
    · exact absurd ⟨k1, k2⟩ n3

theorem absorbPairs_length (c : Nat) (lf lg : List Nat) :
    (lf.flatMap (fun x => (c :: lg).map (fun y => (x, y))) ++ lg.map (fun y => (c, y))).length = lf.length * lg.length + lf.length + lg.length := by
  rw [List.length_append, List.length_map, length_flatMap_const (n := lg.length + 1) _ (fun x => by simp), Nat.mul_add]
  omega

/-- C64 for `and_rec`, in every history: the conjunction has at most |f||g| + |f| + |g| inner nodes. -/
theorem C64_and_size (hR : Reachable cfg u a) (hf : a.Holds f) (hg : a.Holds g) {lf lg : List Nat} (hlf : ListsOnce a.mgr f lf)
    (hlg : ListsOnce a.mgr g lg) :
    Returns (andOp cfg f g a.mgr) (fun r s' => ∀ l, ListsOnce s' r l → l.length ≤ lf.length * lg.length + lf.length + lg.length) := by
  obtain ⟨tf, rf⟩ := hR.good.any hf
  obtain ⟨tg, rg⟩ := hR.good.any hg
  refine (andOp_tree hR.good rf rg).returns ?_
  rintro r s' hx hi' ⟨rr, _⟩ l hl
  rw [← absorbPairs_length 1]
  refine pairSize_le hi' (T := tAnd) (fun u h => tAnd_sub h) rr (rf.ext hx.cells) (rg.ext hx.cells) hl (hlf.ext hx.cells rf) (hlg.ext hx.cells rg) ?_
  intro qf qg uf ug h1 h2 r1 r2 n1 n2
  refine absorbPairs (z := 0) (Or.inl ⟨rfl, rfl⟩) h1 h2 ?_ ?_ ?_
  · rintro rfl; rw [r1.fn .bot, tAnd_bot] at n1; exact n1 rfl
  · rintro rfl; rw [r2.fn .bot, tAnd_comm, tAnd_bot] at n1; exact n1 rfl
  · rintro ⟨rfl, rfl⟩; rw [r1.fn .top, r2.fn .top, tAnd_same] at n2; exact n2 rfl

/-- C64 for `or_rec`, in every history without `xor_rec`. -/
theorem C64_or_size_partial (hu : u = .ordered ∨ u = .unordered) (hR : Reachable cfg u a) (hf : a.Holds f) (hg : a.Holds g) {lf lg : List Nat}
    (hlf : ListsOnce a.mgr f lf) (hlg : ListsOnce a.mgr g lg) :
    Returns (orOp cfg f g a.mgr) (fun r s' => ∀ l, ListsOnce s' r l → l.length ≤ lf.length * lg.length + lf.length + lg.length) := by
  obtain ⟨tf, rf⟩ := hR.good.any hf
  obtain ⟨tg, rg⟩ := hR.good.any hg
  refine (orOp_okT (Use.orMode hu).semIte.toSemOr hR.good rf rg).returns ?_
  rintro r s' hx hi' ⟨tr, rr, _, _, hT, _⟩ l hl
  rw [(Use.orMode hu).rel] at hT
  subst hT
  rw [← absorbPairs_length 0]
  refine pairSize_le hi' (T := tOr) (fun u h => tOr_sub h) rr (rf.ext hx.cells) (rg.ext hx.cells) hl (hlf.ext hx.cells rf) (hlg.ext hx.cells rg) ?_
  intro qf qg uf ug h1 h2 r1 r2 n1 n2
  refine absorbPairs (z := 1) (Or.inr ⟨rfl, rfl⟩) h1 h2 ?_ ?_ ?_
  · rintro rfl; rw [r1.fn .top, tOr_top] at n2; exact n2 rfl
  · rintro rfl; rw [r2.fn .top, tOr_comm, tOr_top] at n2; exact n2 rfl
  · rintro ⟨rfl, rfl⟩; rw [r1.fn .bot, r2.fn .bot, tOr_same] at n1; exact n1 rfl

/-- C64 for `xor_rec`, in every history without `or_rec`. -/
theorem C64_xor_size_partial (hR : Reachable cfg .parity a) (hf : a.Holds f) (hg : a.Holds g) {lf lg : List Nat}
    (hlf : ListsOnce a.mgr f lf) (hlg : ListsOnce a.mgr g lg) :
    Returns (xorOp cfg f g a.mgr) (fun r s' => ∀ l, ListsOnce s' r l → l.length ≤ lf.length * lg.length + 2 * lf.length + 2 * lg.length) := by
  obtain ⟨tf, rf⟩ := hR.good.any hf
  obtain ⟨tg, rg⟩ := hR.good.any hg
  refine (xorOp_okT Use.xorMode.semXor Use.xorMode.unord hR.good rf rg).returns ?_
  rintro r s' hx hi' ⟨tr, rr, _, _, hT, _⟩ l hl
  rw [Use.xorMode.rel] at hT
  subst hT
  have hlen : (lf.flatMap (fun x => (0 :: 1 :: lg).map (fun y => (x, y))) ++ (lg.map (fun y => (0, y)) ++ lg.map (fun y => (1, y)))).length =
      lf.length * lg.length + 2 * lf.length + 2 * lg.length := by
    rw [List.length_append, List.length_append, List.length_map, List.length_map, length_flatMap_const (n := lg.length + 2) _ (fun x => by simp), Nat.mul_add]
    omega
  rw [← hlen]
  refine pairSize_le hi' (T := tXor) (fun u h => tXor_sub h) rr (rf.ext hx.cells) (rg.ext hx.cells) hl (hlf.ext hx.cells rf) (hlg.ext hx.cells rg) ?_
  intro qf qg uf ug h1 h2 r1 r2 n1 n2
  have hs : ¬ (qf < 2 ∧ qg < 2) := by
    rintro ⟨k1, k2⟩
    have leaf : ∀ {q : Nat} {w : Tree}, q < 2 → Repr s'.cells q w → w = .bot ∨ w = .top := by
      intro q w k hw
      rcases (by omega : q = 0 ∨ q = 1) with rfl | rfl
      · exact Or.inl (hw.fn .bot)
      · exact Or.inr (hw.fn .top)
    rcases leaf k1 r1 with rfl | rfl
    · rw [tXor_bot] at n1 n2
      exact (leaf k2 r2).elim n1 n2
    · rw [tXor_top] at n1 n2
      rcases leaf k2 r2 with rfl | rfl
      · exact n2 rfl
      · exact n1 rfl
  simp only [List.mem_cons] at h1 h2
  rw [List.mem_append, List.mem_append, List.mem_flatMap, List.mem_map, List.mem_map]
  rcases h1 with rfl | rfl | h1
  · refine Or.inr (Or.inl ⟨qg, ?_, rfl⟩)
    rcases h2 with h2 | h2 | h2
    · exact absurd ⟨by omega, by omega⟩ hs
    · exact absurd ⟨by omega, by omega⟩ hs
    · exact h2
  · refine Or.inr (Or.inr ⟨qg, ?_, rfl⟩)
    rcases h2 with h2 | h2 | h2
    · exact absurd ⟨by omega, by omega⟩ hs
    · exact absurd ⟨by omega, by omega⟩ hs
    · exact h2
  · exact Or.inl ⟨qf, h1, List.mem_map.2 ⟨qg, by simpa using h2, rfl⟩⟩

/-- C64 for `ite_rec`, in every history without `xor_rec`, whenever the call returns. -/
theorem C64_ite_size_partial (hu : u = .ordered ∨ u = .unordered) (hR : Reachable cfg u a) (hf : a.Holds f) (hg : a.Holds g) (hh : a.Holds h)
    {lf lg lh : List Nat} (hlf : ListsOnce a.mgr f lf) (hlg : ListsOnce a.mgr g lg) (hlh : ListsOnce a.mgr h lh) {r : Nat} {s' : Mgr}
    (e : iteOp cfg f g h a.mgr = .ok r s') {l : List Nat} (hl : ListsOnce s' r l) :
    l.length ≤ (lf.length + 2) * ((lg.length + 2) * (lh.length + 2)) := by
  obtain ⟨tf, rf⟩ := hR.good.any hf
  obtain ⟨tg, rg⟩ := hR.good.any hg
  obtain ⟨th, rh⟩ := hR.good.any hh
  have hspec := iteOp_okBT (cfg := cfg) ((Use.orMode hu).semIte) True hR.good rf rg rh (Or.inl trivial)
  unfold SpecB at hspec
  rw [e] at hspec
  obtain ⟨hx, hi', tr, rr, _, _, hT, _⟩ := hspec
  rw [(Use.orMode hu).irel] at hT
  subst hT
  have hlf := hlf.ext hx.cells rf
  have hlg := hlg.ext hx.cells rg
  have hlh := hlh.ext hx.cells rh
  have key := pigeon (fun q (qs : Nat × Nat × Nat) => ∃ uf ug uh, Repr s'.cells q (tIte uf ug uh) ∧ Repr s'.cells qs.1 uf ∧ Repr s'.cells qs.2.1 ug ∧
      Repr s'.cells qs.2.2 uh) (l := l)
    (m := (0 :: 1 :: lf).flatMap (fun x => (0 :: 1 :: lg).flatMap (fun y => (0 :: 1 :: lh).map (fun z => (x, y, z))))) hl.1 ?_ ?_
  · rw [length_flatMap_const (n := (lg.length + 2) * (lh.length + 2)) _ (fun x => by
      rw [length_flatMap_const (n := lh.length + 2) _ (fun y => by simp)]; rfl)] at key
    exact key
  · intro q hq
    obtain ⟨q2, hq⟩ := (hl.2 q).1 hq
    obtain ⟨u, hu⟩ := hi'.repr (hq.live_or hi' rr)
    obtain ⟨f', g', h', h1, h2, h3, h4⟩ := tIte_sub _ _ _ _ u (Nat.lt_succ_self _) ((rr.sub_iff u).2 ⟨q, q2, hq, hu⟩)
    subst h4
    obtain ⟨qf, g1, g2⟩ := subL_node (rf.ext hx.cells) hlf.2 h1
    obtain ⟨qg, g3, g4⟩ := subL_node (rg.ext hx.cells) hlg.2 h2
    obtain ⟨qh, g5, g6⟩ := subL_node (rh.ext hx.cells) hlh.2 h3
    exact ⟨(qf, qg, qh), List.mem_flatMap.2 ⟨qf, g1, List.mem_flatMap.2 ⟨qg, g3, List.mem_map.2 ⟨qh, g5, rfl⟩⟩⟩, f', g', h', hu, g2, g4, g6⟩
  · rintro q q' ⟨qf, qg, qh⟩ _ _ ⟨uf, ug, uh, h1, h2, h3, h4⟩ ⟨uf', ug', uh', h1', h2', h3', h4'⟩
    have e1 := h2.fn h2'
    have e2 := h3.fn h3'
    have e3 := h4.fn h4'
    subst e1 e2 e3
    exact hi'.repr_inj h1 h1'

theorem negTree_sub {t u : Tree} (h : t.Sub u) : (negTree t).Sub (negTree u) := by
  induction t with
  | bot => exact h.elim
  | top => exact h.elim
  | node v l r ihl ihh =>
    rcases h with h | h | h
    · exact Or.inl (by rw [h]; rfl)
    · exact Or.inr (Or.inl (ihl h))
    · exact Or.inr (Or.inr (ihh h))

/-- C64 for `negate`, in every history: the complement has exactly as many inner nodes. -/
theorem C64_negate_size (hR : Reachable cfg u a) (hf : a.Holds f) {lf : List Nat} (hlf : ListsOnce a.mgr f lf) :
    Returns (negateOp cfg f a.mgr) (fun r s' => ∀ l, ListsOnce s' r l → l.length = lf.length) := by
  obtain ⟨tf, rf⟩ := hR.good.any hf
  refine (negateOp_tree hR.good rf).returns ?_
  rintro r s' hx hi' ⟨rr, _⟩ l hl
  have hlf' := hlf.ext hx.cells rf
  have rf' := rf.ext hx.cells
  have key : ∀ {p q : Nat} {t : Tree} {l m : List Nat}, Repr s'.cells p t → Repr s'.cells q (negTree t) → ListsOnce s' p l → ListsOnce s' q m →
      l.length ≤ m.length := by
    intro p q t l m hp hq hl hm
    refine pigeon (fun x y => ∃ u, Repr s'.cells x u ∧ Repr s'.cells y (negTree u)) hl.1 ?_ ?_
    · intro x hx
      obtain ⟨x2, hx⟩ := (hl.2 x).1 hx
      obtain ⟨u, hu⟩ := hi'.repr (hx.live_or hi' hp)
      obtain ⟨y, y2, h1, h2⟩ := (hq.sub_iff _).1 (negTree_sub ((hp.sub_iff u).2 ⟨x, x2, hx, hu⟩))
      exact ⟨y, (hm.2 y).2 ⟨y2, h1⟩, u, hu, h2⟩
    · rintro x x' y _ _ ⟨u, h1, h2⟩ ⟨u', h1', h2'⟩
      rw [negTree_inj (h2.fn h2')] at h1
      exact hi'.repr_inj h1 h1'
  exact Nat.le_antisymm (key rr (by rw [negTree_negTree]; exact rf') hl hlf') (key rf' rr hlf' hl)
end

/-! ## Refutation of C63 -/

/-- Handles: x0, x1, and the dropped x0 xor x1, whose root has variable 1 and whose children have variable 0. -/
def xorDropped (nd : Bool) : Api :=
  stateAfter (envOf nd) .parity [.call (.projection 0) [], .call (.projection 1) [], .call .xor [0, 1], .drop 2]

/-- The full C63 is false: `xor_rec` builds a BDD that is not ordered; the first collection frees only its root, the second one frees ¬x0. -/
theorem C63_refuted : ∀ nd : Bool, ∃ a a1 a2, Reachable (envOf nd) .parity a ∧ a.hs = [some 2, some 3, none] ∧
    step (envOf nd) .gc a = .ok () a1 ∧ step (envOf nd) .gc a1 = .ok () a2 ∧
    a.mgr.pool.total = 6 ∧ a1.mgr.pool.total = 5 ∧ a2.mgr.pool.total = 4 := by
  intro nd
  refine ⟨xorDropped nd, stA (step (envOf nd) .gc (xorDropped nd)) (xorDropped nd),
    stA (step (envOf nd) .gc (stA (step (envOf nd) .gc (xorDropped nd)) (xorDropped nd))) (xorDropped nd), stateAfter_reachable _ _ _,
    ?_, okA_sound ?_, okA_sound ?_, ?_, ?_, ?_⟩ <;> (cases nd <;> decide +kernel)

/-! ## Concrete instances -/

/-- C61: conjoining x0∧x1 with ¬x0-like operands creates nodes: (x0∧x1)∨x2 conjoined with ¬(x0∧x1) has a node that did not exist. -/
example : Reachable (envOf false) .ordered (demo .ordered) ∧ (demo .ordered).Holds 9 ∧ (demo .ordered).Holds 7 ∧
    okB (andOp (envOf false) 9 7 (demo .ordered).mgr) = true ∧
    (resOf (andOp (envOf false) 9 7 (demo .ordered).mgr) 0 (demo .ordered).mgr).2.pool.total = (demo .ordered).mgr.pool.total + 2 := by
  refine ⟨demo_reachable _, ?_, ?_, by decide +kernel, by decide +kernel⟩ <;> (unfold Api.Holds; rw [demo_hs]; decide)

/-- C62: the user holds x0, x1 and their conjunction. -/
example : Reachable (envOf false) .ordered (demo .ordered) ∧ (demo .ordered).Holds 2 ∧ (demo .ordered).Holds 3 ∧ (demo .ordered).Holds 5 ∧
    (resOf (andOp (envOf false) 2 3 (demo .ordered).mgr) 0 (demo .ordered).mgr).1 = 5 := by
  refine ⟨demo_reachable _, ?_, ?_, ?_, by decide +kernel⟩ <;> (unfold Api.Holds; rw [demo_hs]; decide)

/-- C64: the inner nodes of x0∧x1. -/
example : ListsOnce (demo .ordered).mgr 5 [5, 3] := by
  refine ⟨by decide, fun q => ⟨fun h => ?_, ?_⟩⟩
  · simp only [List.mem_cons, List.not_mem_nil, or_false] at h
    rcases h with rfl | rfl
    · exact ⟨by decide, .refl _⟩
    · exact ⟨by decide, reachB_sound 1 _ _ (by decide +kernel)⟩
  · rintro ⟨q2, h⟩
    have sink : ∀ {p q : Nat}, p < 2 → 2 ≤ q → ¬ Reaches (demo .ordered).mgr.cells p q := by
      intro p q hp hq h
      cases h <;> omega
    have lit : ∀ {q : Nat}, 2 ≤ q → Reaches (demo .ordered).mgr.cells 3 q → q = 3 := by
      intro q hq h
      cases h with
      | refl => rfl
      | lo _ _ h => rw [show ((demo .ordered).mgr.cells 3).lo = 0 by decide +kernel] at h; exact absurd h (sink (by decide) hq)
      | hi _ _ h => rw [show ((demo .ordered).mgr.cells 3).hi = 1 by decide +kernel] at h; exact absurd h (sink (by decide) hq)
    cases h with
    | refl => simp
    | lo _ _ h => rw [show ((demo .ordered).mgr.cells 5).lo = 0 by decide +kernel] at h; exact absurd h (sink (by decide) q2)
    | hi _ _ h => rw [show ((demo .ordered).mgr.cells 5).hi = 3 by decide +kernel] at h; rw [lit q2 h]; simp
end LBDD
