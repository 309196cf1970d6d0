import Verif.Proof.GcFound
import Verif.Props.GcShrink
import Verif.Props.GcBad
/-!
# Collections that return (C32, C35, C63)

What holds after every collection that returns, whatever the layout of the unique tables, in histories followed by handle operations and
further collections.
-/
namespace LBDD
section
variable {cfg : Cfg} {u : Use} {a a' : Api}

/-- What handle operations leave alone. Reference counts only become positive where a handle is. -/
structure SameNodes (H : Nat → Prop) (s s' : Mgr) : Prop where
  tabs : s'.tabs = s.tabs
  nvars : s'.nvars = s.nvars
  cell : ∀ q, (s'.cells q).lo = (s.cells q).lo ∧ (s'.cells q).hi = (s.cells q).hi ∧ (s'.cells q).index = (s.cells q).index ∧
    (s'.cells q).hashKey = (s.cells q).hashKey ∧ (s'.cells q).live = (s.cells q).live
  pos : ∀ q, 0 < (s'.cells q).xref → 0 < (s.cells q).xref ∨ H q

theorem SameNodes.refl {H : Nat → Prop} (s : Mgr) : SameNodes H s s :=
  ⟨rfl, rfl, fun _ => ⟨rfl, rfl, rfl, rfl, rfl⟩, fun _ h => Or.inl h⟩

theorem SameNodes.trans {H : Nat → Prop} {x y z : Mgr} (h1 : SameNodes H x y) (h2 : SameNodes H y z) : SameNodes H x z where
  tabs := h2.tabs.trans h1.tabs
  nvars := h2.nvars.trans h1.nvars
  cell q := by
    obtain ⟨a1, a2, a3, a4, a5⟩ := h1.cell q
    obtain ⟨b1, b2, b3, b4, b5⟩ := h2.cell q
    exact ⟨b1.trans a1, b2.trans a2, b3.trans a3, b4.trans a4, b5.trans a5⟩
  pos q hq := by
    rcases h2.pos q hq with h | h
    · exact h1.pos q h
    · exact Or.inr h

theorem SameNodes.setXref {H : Nat → Prop} {s : Mgr} {p : Nat} {x : Int} (hx : 0 < x → 0 < (s.cells p).xref ∨ H p) :
    SameNodes H s { s with cells := upd s.cells p { s.cells p with xref := x } } := by
  refine ⟨rfl, rfl, fun q => ?_, fun q hq => ?_⟩
  · show (upd s.cells p _ q).lo = _ ∧ (upd s.cells p _ q).hi = _ ∧ (upd s.cells p _ q).index = _ ∧ (upd s.cells p _ q).hashKey = _ ∧
      (upd s.cells p _ q).live = _
    by_cases e : q = p
    · subst e; rw [upd_same]; exact ⟨rfl, rfl, rfl, rfl, rfl⟩
    · rw [upd_ne _ _ e]; exact ⟨rfl, rfl, rfl, rfl, rfl⟩
  · have hq' : 0 < (upd s.cells p { s.cells p with xref := x } q).xref := hq
    by_cases e : q = p
    · subst e; rw [upd_same] at hq'; exact hx hq'
    · rw [upd_ne _ _ e] at hq'; exact Or.inl hq'

theorem acquire_nodes {H : Nat → Prop} {o : Option Nat} {s s' : Mgr} (h : ∀ p, o = some p → H p) (e : optM o acquire s = .ok () s') :
    SameNodes H s s' := by
  cases o with
  | none => cases e; exact .refl _
  | some p => cases e; exact .setXref (fun _ => Or.inr (h p rfl))

theorem release_nodes {H : Nat → Prop} {o : Option Nat} {s s' : Mgr} (e : optM o releaseNoAssert s = .ok () s') : SameNodes H s s' := by
  cases o with
  | none => cases e; exact .refl _
  | some p => cases e; exact .setXref (fun h => Or.inl (by omega))

theorem handle_same {op : Op} (hc : ∀ f is, op ≠ .call f is) (hg : op ≠ .gc) (e : step cfg op a = .ok () a') :
    SameNodes a.Holds a.mgr a'.mgr := by
  have held : ∀ {i : Nat} {o : Option Nat}, a.hs[i]? = some o → ∀ p, o = some p → a.Holds p := by
    intro i o h p hp
    subst hp
    exact List.mem_of_getElem? h
  cases op with
  | call f is => exact absurd rfl (hc f is)
  | gc => exact absurd rfl hg
  | copy i =>
    simp only [LBDD.step] at e
    rw [M.get_bind_apply] at e
    cases e1 : a.hs[i]? with
    | none => rw [e1] at e; cases e
    | some o =>
      rw [e1] at e
      dsimp only at e
      obtain ⟨_, a1, e2, e3⟩ := bind_ok_inv e
      obtain ⟨e4, e5⟩ := onMgr_ok e2
      cases e3
      exact acquire_nodes (held e1) e4
  | move i =>
    simp only [LBDD.step] at e
    rw [M.get_bind_apply] at e
    cases e1 : a.hs[i]? with
    | none => rw [e1] at e; cases e
    | some o =>
      rw [e1] at e
      cases e
      exact .refl _
  | assign i j =>
    simp only [LBDD.step] at e
    rw [M.get_bind_apply] at e
    cases e1 : a.hs[i]? with
    | none => rw [e1] at e; cases e
    | some oi =>
      cases e2 : a.hs[j]? with
      | none => rw [e1, e2] at e; cases e
      | some oj =>
        rw [e1, e2] at e
        dsimp only at e
        obtain ⟨_, a1, f1, e⟩ := bind_ok_inv e
        obtain ⟨_, a2, f2, e⟩ := bind_ok_inv e
        obtain ⟨g1, g2⟩ := onMgr_ok f1
        obtain ⟨k1, k2⟩ := onMgr_ok f2
        cases e
        exact (release_nodes g1).trans (acquire_nodes (held e2) k1)
  | drop i =>
    simp only [LBDD.step] at e
    rw [M.get_bind_apply] at e
    cases e1 : a.hs[i]? with
    | none => rw [e1] at e; cases e
    | some o =>
      rw [e1] at e
      dsimp only at e
      obtain ⟨_, a1, f1, e⟩ := bind_ok_inv e
      obtain ⟨g1, g2⟩ := onMgr_ok f1
      cases e
      refine release_nodes (o := o) ?_
      cases o with
      | none => exact g1
      | some p => exact release_noAssert g1

/-! ## The tables in collected states -/

theorem Collected.sized (h : Collected cfg u a) : Sized a.mgr := by
  induction h with
  | base h =>
    intro v hv
    have ht := h.good.tab v hv
    exact ⟨ht.pow, ht.cap⟩
  | @step a a' op hR hop e ih =>
    by_cases hg : op = .gc
    · subst hg
      obtain ⟨e1, _⟩ := onMgr_ok e
      obtain ⟨_, h2, h3⟩ := collectGarbage_retains ih e1
      intro v hv
      rw [(h2 v).1, (h2 v).2]
      exact ih v (by rw [← h3]; exact hv)
    · have hs := handle_same hop hg e
      unfold Sized
      rw [hs.tabs, hs.nvars]
      exact ih

/-- C35: in every history — followed by any further handle operations and collections — a collection that returns has not changed the size of
any unique table. (If one of them is sparse enough to be shrunk the collection crashes: `C35_gc_crashes`.) -/
theorem C35_never_shrunk_partial (hR : Collected cfg u a) (e : step cfg .gc a = .ok () a') :
    a'.mgr.nvars = a.mgr.nvars ∧ ∀ v, (a'.mgr.tabs v).mask = (a.mgr.tabs v).mask ∧ (a'.mgr.tabs v).cap = (a.mgr.tabs v).cap := by
  obtain ⟨e1, _⟩ := onMgr_ok e
  obtain ⟨_, h2, h3⟩ := collectGarbage_retains hR.sized e1
  exact ⟨h3, h2⟩

/-- Facts about the unique tables and the nodes, in collected states of histories that respect the order. -/
structure Tidy (s : Mgr) : Prop where
  layered : Layered s
  live : ∀ v, v < s.nvars → ∀ i p, i ≤ (s.tabs v).mask → (s.tabs v).slots i = some p → (s.cells p).live = true ∧ 2 ≤ p
  found : ∀ p, 2 ≤ p → (s.cells p).live = true → 0 < (s.cells p).xref → (s.cells p).index < s.nvars ∧
    (s.cells p).lo ≠ (s.cells p).hi ∧ FndIn s (s.cells p).index p
  uniq : ∀ p q, 2 ≤ p → 2 ≤ q → (s.cells p).live = true → (s.cells q).live = true → (s.cells p).index = (s.cells q).index →
    (s.cells p).lo = (s.cells q).lo → (s.cells p).hi = (s.cells q).hi → p = q

theorem Inv.tidy {md : Md} {refs : Nat → Nat} {s : Mgr} (hi : Inv cfg md refs s) (ho : md.ordered) : Tidy s := by
  have big : ∀ v, v < s.nvars → ∀ p c, 2 ≤ p → (s.cells p).live = true → (s.cells p).index = v → c = (s.cells p).lo ∨ c = (s.cells p).hi →
      v < (s.cells c).index := by
    intro v hv p c p2 pl pv hc
    by_cases c2 : 2 ≤ c
    · rw [← pv]; exact hi.ord_child ho p2 pl hc c2
    · have h1 := hi.nv
      have h2 := hi.heapOk.sink
      have : c = 0 ∨ c = 1 := by omega
      rcases this with rfl | rfl
      · rw [h2.1]
        have : topsinkIndex ≤ botsinkIndex := by decide
        omega
      · rw [h2.2]; omega
  refine ⟨fun v hv i p hi' hp => ?_, fun v hv i p hi' hp => ?_, fun p p2 pl _ => ?_, hi.uniq⟩
  · obtain ⟨h1, h2, h3⟩ := (hi.tab v hv).slots.sound i p (by omega) hp
    exact ⟨h3, big v hv p _ h1 h2 h3 (Or.inl rfl), big v hv p _ h1 h2 h3 (Or.inr rfl)⟩
  · obtain ⟨h1, h2, _⟩ := (hi.tab v hv).slots.sound i p (by omega) hp
    exact ⟨h2, h1⟩
  · obtain ⟨h1, h2, _⟩ := hi.node p p2 pl
    obtain ⟨i, h3, h4⟩ := (hi.tab _ h1).slots.complete p ⟨p2, pl, rfl⟩
    exact ⟨h1, h2, i, h3, h4, (hi.tab _ h1).slots.reach i p h3 h4⟩

/-- After a collection that returned: every stored node has a positive reference count. -/
theorem Collected.tidy (h : Collected cfg .ordered a) : Tidy a.mgr := by
  induction h with
  | base h => exact h.good.tidy (Use.ordered_iff.2 rfl)
  | @step a a' op hR hop e ih =>
    by_cases hg : op = .gc
    · subst hg
      obtain ⟨e1, _⟩ := onMgr_ok e
      obtain ⟨h1, _, h3, h4, _⟩ := collectGarbage_settles ih.layered hR.sized e1
      obtain ⟨g1, g2, g3⟩ := collectGarbage_retains hR.sized e1
      have hf := (collectGarbage_run hR.heap e1).frees
      refine ⟨h1, fun v hv i p hi hp => ?_, fun p p2 pl px => ?_, fun p q p2 q2 pl ql => ?_⟩
      · obtain ⟨j, hj, hs⟩ := (h4 v).stored i p (by rw [← (h4 v).mask]; exact hi) hp
        obtain ⟨k1, k2⟩ := ih.live v (by omega) j p hj hs
        exact ⟨g1.live p k1 ((h3 v hv).1 i hi p hp), k2⟩
      · obtain ⟨k1, k2, k3⟩ := ih.found p p2 (hf.live p pl) (by have := g1.drop p; omega)
        rw [(hf.same p).1, (hf.same p).2.1, (hf.same p).2.2.1, g3]
        exact ⟨k1, k2, g1.found _ p px k3⟩
      · rw [(hf.same p).1, (hf.same p).2.1, (hf.same p).2.2.1, (hf.same q).1, (hf.same q).2.1, (hf.same q).2.2.1]
        exact ih.uniq p q p2 q2 (hf.live p pl) (hf.live q ql)
    · have hs := handle_same hop hg e
      have hpos : ∀ q, 0 < (a'.mgr.cells q).xref → 0 < (a.mgr.cells q).xref := by
        intro q hq
        rcases hs.pos q hq with h | h
        · exact h
        · have hc : 0 < a.count q := List.count_pos_iff.2 h
          have hl := hR.heap.held q hc
          have := hR.heap.count q hl
          split at this <;> omega
      refine ⟨fun v hv i p hi hp => ?_, fun v hv i p hi hp => ?_, fun p p2 pl px => ?_, fun p q p2 q2 pl ql => ?_⟩
      · rw [hs.tabs] at hi hp
        rw [(hs.cell p).1, (hs.cell p).2.1, (hs.cell p).2.2.1, (hs.cell _).2.2.1, (hs.cell _).2.2.1]
        exact ih.layered v (by rw [← hs.nvars]; exact hv) i p hi hp
      · rw [hs.tabs] at hi hp
        rw [(hs.cell p).2.2.2.2]
        exact ih.live v (by rw [← hs.nvars]; exact hv) i p hi hp
      · rw [(hs.cell p).2.2.2.2] at pl
        obtain ⟨k1, k2, k3⟩ := ih.found p p2 pl (hpos p px)
        rw [(hs.cell p).1, (hs.cell p).2.1, (hs.cell p).2.2.1, hs.nvars]
        refine ⟨k1, k2, ?_⟩
        unfold FndIn hashCode at k3 ⊢
        rw [hs.tabs, (hs.cell p).1, (hs.cell p).2.1, (hs.cell _).2.2.2.1, (hs.cell _).2.2.2.1]
        exact k3
      · rw [(hs.cell p).2.2.2.2] at pl
        rw [(hs.cell q).2.2.2.2] at ql
        rw [(hs.cell p).1, (hs.cell p).2.1, (hs.cell p).2.2.1, (hs.cell q).1, (hs.cell q).2.1, (hs.cell q).2.2.1]
        exact ih.uniq p q p2 q2 pl ql

/-- `unique_find` in a tidy state. -/
theorem Tidy.find {s : Mgr} (h : Tidy s) (hz : Sized s) {p : Nat} (p2 : 2 ≤ p) (pl : (s.cells p).live = true) (px : 0 < (s.cells p).xref) :
    uniqueFind cfg (s.cells p).index (s.cells p).lo (s.cells p).hi s = .ok p s := by
  obtain ⟨hv, hne, i, hi, hs, d, hd, hdi, hr⟩ := h.found p p2 pl px
  obtain ⟨⟨kk, k6, k19, hk⟩, hc⟩ := hz _ hv
  unfold uniqueFind
  rw [M.get_bind_apply, if_neg (by omega)]
  unfold uniqueFindAux
  rw [if_neg hne, M.get_bind_apply]
  have h64 : 2 ^ 6 ≤ 2 ^ kk := Nat.pow_le_pow_right (by omega) k6
  rw [M.assert_bind_apply (by simp; omega)]
  have hp : tableLookup s.cells (s.tabs (s.cells p).index) (s.cells p).lo (s.cells p).hi = .ok (some p) := by
    unfold tableLookup
    refine probeKey_found hk hc (fun i q hi hq => (h.live _ hv i q hi hq).1) (fun i q hi hq h1 h2 => ?_) rfl rfl d _ _ hd (by rw [hdi]; exact hs) hr
    obtain ⟨ql, q2⟩ := h.live _ hv i q hi hq
    exact h.uniq q p q2 p2 ql pl (h.layered _ hv i q hi hq).1 h1 h2
  rw [hp]
  rfl

/-! ## C32 -/

/-- C32, in histories that respect the order and do not use `xor_rec`, followed by any handle operations and collections: after a collection that
returns, whatever the layout of the tables, every node still in a unique table is in use, and held by a handle or a child of a node in use.
(Nodes that were unlinked without being freed are not found any more; they are what `C32_refuted` is about.) -/
theorem C32_stored_partial (hR : Collected cfg .ordered a) (e : step cfg .gc a = .ok () a') {v i p : Nat} (hv : v < a'.mgr.nvars)
    (hi : i ≤ (a'.mgr.tabs v).mask) (hp : (a'.mgr.tabs v).slots i = some p) :
    (a'.mgr.cells p).live = true ∧ (a'.mgr.cells p).index = v ∧
      (a'.Holds p ∨ ∃ q, 2 ≤ q ∧ (a'.mgr.cells q).live = true ∧ ((a'.mgr.cells q).lo = p ∨ (a'.mgr.cells q).hi = p)) := by
  have hR' : Collected cfg .ordered a' := .step hR (by simp) e
  obtain ⟨e1, _⟩ := onMgr_ok e
  obtain ⟨_, _, h3, _⟩ := collectGarbage_settles hR.tidy.layered hR.sized e1
  obtain ⟨pl, p2⟩ := hR'.tidy.live v hv i p hi hp
  refine ⟨pl, (hR'.tidy.layered v hv i p hi hp).1, ?_⟩
  have hx := (h3 v hv).1 i hi p hp
  have hc := hR'.heap.count p pl
  rw [if_neg (by omega)] at hc
  by_cases h : 0 < a'.count p
  · exact Or.inl (List.count_pos_iff.1 h)
  · obtain ⟨q, h1, _, h2, h4⟩ := arcsTo_pos_inv (c := a'.mgr.cells) (p := p) (n := a'.mgr.pool.hw) (by omega)
    exact Or.inr ⟨q, h1, h2, h4⟩

/-! ## C35 -/

/-- C35, in histories that respect the order and do not use `xor_rec`: after any number of collections that returned and handle operations,
`unique_find` on the variable and the children of a node the user still needs returns that node and changes nothing. -/
theorem C35_found_partial (hR : Collected cfg .ordered a) {p : Nat} (p2 : 2 ≤ p) (hk : a.Kept p) :
    (a.mgr.cells p).index < a.mgr.nvars ∧
      uniqueFind cfg (a.mgr.cells p).index (a.mgr.cells p).lo (a.mgr.cells p).hi a.mgr = .ok p a.mgr := by
  have hl : (a.mgr.cells p).live = true := by
    rcases hk with h | ⟨q, hq, hr⟩
    · omega
    · exact hR.heap.reach_live (hR.heap.held q (List.count_pos_iff.2 hq)) hr
  have hx := ((kept_iff a p).2 hk).pos hR.heap hl
  exact ⟨(hR.tidy.found p p2 hl hx).1, hR.tidy.find hR.sized p2 hl hx⟩

/-! ## C63 -/

/-- C63, in histories that respect the order and do not use `xor_rec`, followed by any handle operations and collections: if a collection
returns then — whatever the layout of the tables — a second one right after it returns and changes nothing. -/
theorem C63_gc_twice_returns_partial (hR : Collected cfg .ordered a) (e : step cfg .gc a = .ok () a') : step cfg .gc a' = .ok () a' := by
  obtain ⟨e1, _⟩ := onMgr_ok e
  obtain ⟨_, _, _, _, h⟩ := collectGarbage_settles hR.tidy.layered hR.sized e1
  show onMgr (collectGarbage cfg) a' = _
  unfold onMgr
  rw [h]

/-- The hypotheses of the theorems above where the layout is bad (`leakState`: the collection loses a node, see `C32_refuted`; `dupState`: it
stores a node twice, see `C31_refuted_double_free`): the first collection returns and changes the state, the second one returns the same state. -/
theorem C63_returns_concrete : ∀ nd : Bool,
    (∃ a', Collected (gcEnv nd 0 1) .ordered (leakState nd) ∧ step (gcEnv nd 0 1) .gc (leakState nd) = .ok () a' ∧
      step (gcEnv nd 0 1) .gc a' = .ok () a' ∧ a'.mgr.pool.total ≠ (leakState nd).mgr.pool.total) ∧
    (∃ a', Collected (gcEnv nd 63 0) .ordered (dupState nd) ∧ step (gcEnv nd 63 0) .gc (dupState nd) = .ok () a' ∧
      step (gcEnv nd 63 0) .gc a' = .ok () a' ∧ a'.Kept 4 ∧ (a'.mgr.tabs 0).slots 0 = some 4 ∧ (a'.mgr.tabs 0).slots 63 = some 4) := by
  intro nd
  have h1 : step (gcEnv nd 0 1) .gc (leakState nd) = .ok () (stA (step (gcEnv nd 0 1) .gc (leakState nd)) (leakState nd)) :=
    okA_sound (by cases nd <;> decide +kernel)
  have h2 : step (gcEnv nd 63 0) .gc (dupState nd) = .ok () (stA (step (gcEnv nd 63 0) .gc (dupState nd)) (dupState nd)) :=
    okA_sound (by cases nd <;> decide +kernel)
  have c1 : Collected (gcEnv nd 0 1) .ordered (leakState nd) := .base (stateAfter_reachable _ _ _)
  have c2 : Collected (gcEnv nd 63 0) .ordered (dupState nd) := .base (stateAfter_reachable _ _ _)
  refine ⟨⟨_, c1, h1, C63_gc_twice_returns_partial c1 h1, ?_⟩, ⟨_, c2, h2, C63_gc_twice_returns_partial c2 h2, ?_, ?_, ?_⟩⟩
  · cases nd <;> decide +kernel
  · refine Or.inr ⟨4, ?_, .refl _⟩
    cases nd <;> decide +kernel
  · cases nd <;> decide +kernel
  · cases nd <;> decide +kernel
end
end LBDD
