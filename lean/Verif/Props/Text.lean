import Verif.Proof.TextGv
import Verif.Props.CollQuery
import Verif.Props.Query
/-!
# The text of `print` and `export_graphviz` (C70, C71)
-/
namespace LBDD
section
variable {cfg : Cfg} {u : Use} {a : Api} {p : Nat}

/-! ## C70: the text of `print` -/

/-- Two different nodes of a manager have different names. -/
theorem dotId_inj {s : Mgr} {p q : Nat} (h : dotId cfg s p = dotId cfg s q) : p = q := by
  unfold dotId at h
  by_cases hp : p = botId
  · by_cases hq : q = botId
    · rw [hp, hq]
    · rw [if_pos hp, if_neg hq] at h
      split at h <;> cases h
  · rw [if_neg hp] at h
    by_cases hq : q = botId
    · rw [if_pos hq] at h
      split at h <;> cases h
    · rw [if_neg hq] at h
      by_cases hp1 : p = topId
      · by_cases hq1 : q = topId
        · rw [hp1, hq1]
        · rw [if_pos hp1, if_neg hq1] at h; cases h
      · rw [if_neg hp1] at h
        by_cases hq1 : q = topId
        · rw [if_pos hq1] at h; cases h
        · rw [if_neg hq1] at h
          injection h with _ h2
          exact cfg.addr_inj _ _ h2

theorem dotId_inner {s : Mgr} {p : Nat} (h : 2 ≤ p) : dotId cfg s p = .node (s.cells p).index (cfg.addr p) := by
  unfold dotId
  rw [if_neg (by unfold botId; omega), if_neg (by unfold topId; omega)]

theorem dotReads_iff {s : Mgr} {arcs : List (DotId × Bool × DotId)} {x : List Bool} {p : Nat}
    (ha : ∀ i b j, (i, b, j) ∈ arcs ↔ ∃ q, 2 ≤ q ∧ Reaches s.cells p q ∧ i = dotId cfg s q ∧
      j = dotId cfg s (if b then (s.cells q).hi else (s.cells q).lo)) :
    ∀ (t : Tree) (q : Nat), Repr s.cells q t → Reaches s.cells p q → (∀ v, t.Mem v → v < x.length) → ∀ r,
      (DotReads arcs x (dotId cfg s q) r ↔ r = t.eval (asg x)) := by
  intro t
  induction t with
  | bot =>
    intro q hq _ _ r
    cases hq
    have : dotId cfg s 0 = .bot := if_pos rfl
    rw [this]
    constructor
    · intro h; cases h; rfl
    · rintro rfl; exact .bot
  | top =>
    intro q hq _ _ r
    cases hq
    have : dotId cfg s 1 = .top := by unfold dotId; rw [if_neg (by decide)]; exact if_pos rfl
    rw [this]
    constructor
    · intro h; cases h; rfl
    · rintro rfl; exact .top
  | node v tl th il ih =>
    intro q hq hr hx r
    obtain ⟨h2, hv, hl, _, h3, h4⟩ := hq.of_node
    have hlt : v < x.length := hx v (Or.inl rfl)
    have hb : x[v]? = some (asg x v) := by
      unfold asg; rw [List.getD_eq_getElem?_getD, List.getElem?_eq_getElem hlt]; rfl
    rw [dotId_inner h2]
    have hlo := il _ h3 (hr.trans (.lo h2 hl (.refl _))) (fun w hw => hx w (Or.inr (Or.inl hw)))
    have hhi := ih _ h4 (hr.trans (.hi h2 hl (.refl _))) (fun w hw => hx w (Or.inr (Or.inr hw)))
    constructor
    · intro h
      cases h with
      | @node _ _ b _ j k1 k2 k3 =>
        rw [← hv, hb] at k1
        injection k1 with k1
        obtain ⟨q', g1, g2, g3, g4⟩ := (ha _ _ _).1 k2
        rw [← dotId_inner h2] at g3
        have := dotId_inj g3
        subst this
        rw [g4] at k3
        simp only [Tree.eval]
        rw [k1]
        cases b
        · simp at k3 ⊢; exact (hlo r).1 k3
        · simp at k3 ⊢; exact (hhi r).1 k3
    · intro h
      simp only [Tree.eval] at h
      refine .node (b := asg x v) (by rw [← hv]; exact hb) ((ha _ _ _).2 ⟨q, h2, hr, (dotId_inner h2).symm, rfl⟩) ?_
      cases e : asg x v
      · rw [e] at h; simp at h ⊢; exact (hlo r).2 h
      · rw [e] at h; simp at h ⊢; exact (hhi r).2 h

/-- C70: the text written by `print()` on a held BDD. It is well formed, and the reader of the text gets exactly the two arcs of every node of the BDD,
no arc twice, the arcs of the root first; following the arcs from the name of the root gives, on every assignment to the variables, the value
`evaluate()` returns. The state is unchanged. -/
theorem C70_print_text (hR : Reachable cfg u a) (hp : a.Holds p) :
    ∃ text arcs, printText cfg p a.mgr = .ok text a.mgr ∧ readDrawing text = some arcs ∧ arcs.Nodup ∧
      (2 ≤ p → ∃ j rest, arcs = (dotId cfg a.mgr p, false, j) :: rest) ∧
      (∀ i b j, (i, b, j) ∈ arcs ↔ ∃ q, 2 ≤ q ∧ Reaches a.mgr.cells p q ∧ i = dotId cfg a.mgr q ∧
        j = dotId cfg a.mgr (if b then (a.mgr.cells q).hi else (a.mgr.cells q).lo)) ∧
      ∀ x, Covers a.mgr x → ∀ r, DotReads arcs x (dotId cfg a.mgr p) r ↔ EvalsTo cfg a.mgr p x r := by
  obtain ⟨t, ht⟩ := hR.good.any hp
  obtain ⟨l, h1, h2, h3⟩ := printText_ok hR.good ht
  have ha : ∀ i b j, (i, b, j) ∈ l.flatMap (dotArcs cfg a.mgr) ↔ ∃ q, 2 ≤ q ∧ Reaches a.mgr.cells p q ∧ i = dotId cfg a.mgr q ∧
        j = dotId cfg a.mgr (if b then (a.mgr.cells q).hi else (a.mgr.cells q).lo) := by
    intro i b j
    rw [List.mem_flatMap]
    constructor
    · rintro ⟨q, hq, hm⟩
      have := (h1.mem q).1 hq
      refine ⟨q, this.1, this.2, ?_⟩
      simp only [dotArcs, List.mem_cons, List.not_mem_nil, or_false, Prod.mk.injEq] at hm
      rcases hm with ⟨g1, g2, g3⟩ | ⟨g1, g2, g3⟩
      · subst g2; exact ⟨g1, g3⟩
      · subst g2; exact ⟨g1, g3⟩
    · rintro ⟨q, q2, qr, g1, g2⟩
      refine ⟨q, (h1.mem q).2 ⟨q2, qr⟩, ?_⟩
      simp only [dotArcs, List.mem_cons, List.not_mem_nil, or_false, Prod.mk.injEq]
      cases b
      · exact Or.inl ⟨g1, rfl, g2⟩
      · exact Or.inr ⟨g1, rfl, g2⟩
  refine ⟨_, _, h3, readDrawing_text _, ?_, ?_, ha, ?_⟩
  · unfold List.Nodup
    rw [List.pairwise_flatMap]
    refine ⟨fun q _ => by simp [dotArcs], ?_⟩
    refine List.Pairwise.imp ?_ h1.nodup
    intro q q' hne x hx y hy e
    subst e
    have e1 : x.1 = dotId cfg a.mgr q := by
      simp only [dotArcs, List.mem_cons, List.not_mem_nil, or_false] at hx
      rcases hx with rfl | rfl <;> rfl
    have e2 : x.1 = dotId cfg a.mgr q' := by
      simp only [dotArcs, List.mem_cons, List.not_mem_nil, or_false] at hy
      rcases hy with rfl | rfl <;> rfl
    exact hne (dotId_inj (e1.symm.trans e2))
  · intro p2
    obtain ⟨l', rfl⟩ := h2 p2
    exact ⟨_, _, rfl⟩
  · intro x hx r
    have hx' : ∀ v, t.Mem v → v < x.length := fun v hv => Nat.lt_of_lt_of_le (hR.good.mem_lt ht hv) hx
    rw [dotReads_iff ha t p ht (.refl _) hx']
    have := evals_repr hR.good ht hx
    unfold EvalsTo at this ⊢
    rw [this]
    constructor
    · rintro rfl; rfl
    · intro h; injection h with h; exact h.symm

/-- Two nodes never share a name in the drawings of one manager. -/
theorem C70_names (s : Mgr) (p q : Nat) : dotId cfg s p = dotId cfg s q ↔ p = q := ⟨dotId_inj, fun h => by rw [h]⟩

/-- C70: two held BDDs with an inner root have the same text only if they are the same BDD. -/
theorem C70_same_text {q : Nat} (hR : Reachable cfg u a) (hp : a.Holds p) (hq : a.Holds q) (p2 : 2 ≤ p) (q2 : 2 ≤ q) {t : List Char} {s s' : Mgr}
    (h : printText cfg p a.mgr = .ok t s) (h' : printText cfg q a.mgr = .ok t s') : p = q := by
  obtain ⟨t1, l1, e1, r1, _, f1, _⟩ := C70_print_text hR hp
  obtain ⟨t2, l2, e2, r2, _, f2, _⟩ := C70_print_text hR hq
  rw [h] at e1; injection e1 with e1
  rw [h'] at e2; injection e2 with e2
  rw [← e1] at r1; rw [← e2, r1] at r2
  injection r2 with r2
  obtain ⟨j, k, g1⟩ := f1 p2
  obtain ⟨j', k', g2⟩ := f2 q2
  rw [g1, g2] at r2
  injection r2 with r2
  injection r2 with r2
  exact dotId_inj r2

/-- The text does not tell the two sinks apart: both are drawn without any arc. -/
theorem C70_sinks (hR : Reachable cfg u a) (hp : a.Holds p) (p2 : p < 2) :
    printText cfg p a.mgr = .ok ("digraph BDD {\n".toList ++ "}\n".toList) a.mgr := by
  obtain ⟨t, ht⟩ := hR.good.any hp
  obtain ⟨l, h1, _, h3⟩ := printText_ok hR.good ht
  have : l = [] := by
    cases l with
    | nil => rfl
    | cons q l =>
      have hq := (h1.mem q).1 (by simp)
      exfalso
      cases hq.2 with
      | refl => omega
      | lo h => omega
      | hi h => omega
  subst this
  exact h3

/-- `r` returned the text `t`. -/
def okText {σ : Type} (r : Res σ (List Char)) (t : List Char) : Bool := match r with | .ok t' _ => t' == t | _ => false

theorem okText_sound {σ : Type} {r : Res σ (List Char)} {t : List Char} (h : okText r t = true) : ∃ s, r = .ok t s := by
  unfold okText at h
  split at h
  · exact ⟨_, by rw [eq_of_beq h]⟩
  · cases h

/-- The text `print` writes for the BDD (x0 ∧ x1) ∨ x2 of the demo state. -/
def demoText : List Char :=
  "digraph BDD {\n\"0,384\" -> \"2,224\" [label=\"0\"]\n\"0,384\" -> \"1,352\" [label=\"1\"]\n".toList ++
  "\"2,224\" -> bot [label=\"0\"]\n\"2,224\" -> top [label=\"1\"]\n\"1,352\" -> \"2,224\" [label=\"0\"]\n\"1,352\" -> top [label=\"1\"]\n}\n".toList

/-- The hypotheses of C70 are met by the BDD (x0 ∧ x1) ∨ x2 of the demo state: three nodes, six arcs. -/
theorem C70_example : (demo .ordered).Holds 9 ∧ ∃ s, printText (envOf false) 9 (demo .ordered).mgr = .ok demoText s := by
  refine ⟨?_, okText_sound (by decide +kernel)⟩
  unfold Api.Holds
  rw [demo_hs]; simp

/-! ## C71: the text of `export_graphviz` -/

variable {c : Coll}

/-- The text, and what its lines hold. -/
theorem graphvizText_ok (hC : CReachable cfg c) {nr d0 d1 : Nat} (he : c.Entry nr d0 d1) (hb : c.Big nr) {order : List Nat → List Nat}
    (ho : ∀ K, (order K).Perm K) :
    ∃ text, graphvizText cfg nr order c = .ok text c ∧
      (gvNodes text).Perm (((seg c d0 d1).zipIdx 0).map fun e => (e.2, e.1.label)) ∧
      gvLinks text = ((seg c d0 d1).zipIdx 0).flatMap fun e =>
        if e.1.isTerm then [] else [(e.2, true, e.1.hi - d0), (e.2, false, e.1.lo - d0)] := by
  obtain ⟨hw, hl⟩ := entry_seg hC.inv he
  have two := hw.two
  have hsk : ∀ e ∈ seg c d0 d1, e.isTerm = true ∧ (e.index = cBot ∨ e.index = cTop) ∨ e.isTerm = false ∧ e.Inner := by
    intro e hm
    obtain ⟨i, hi⟩ := List.mem_iff_getElem?.1 hm
    obtain ⟨x, y, q1, q2, q3, q4⟩ := (seg_at he hl i e).1 hi
    obtain ⟨rfl, rfl⟩ := he.unique q1
    have hii := hw.inner_iff q2 q3 q4
    cases ht : e.isTerm with
    | false =>
      refine Or.inr ⟨rfl, hii.1.2 ?_⟩
      rcases Nat.lt_or_ge (d0 + i + 2) d1 with g | g
      · exact g
      · rw [hii.2.2 g] at ht; cases ht
    | true =>
      have hni : ¬ e.Inner := fun h => by have := hii.1.1 h; have := hii.2.1 ht; omega
      unfold Instr.Inner at hni
      refine Or.inl ⟨rfl, ?_⟩
      by_cases h1 : e.index = cBot
      · exact Or.inl h1
      · by_cases h2 : e.index = cTop
        · exact Or.inr h2
        · exact absurd ⟨h1, h2⟩ hni
  have hsk' : ∀ e ∈ (seg c d0 d1).zipIdx 0, e.1.isTerm = true ∧ (e.1.index = cBot ∨ e.1.index = cTop) ∨ e.1.isTerm = false ∧ e.1.Inner := by
    rintro ⟨e, i⟩ hm
    exact hsk e (List.fst_mem_of_mem_zipIdx hm)
  refine ⟨"digraph BDD\n".toList ++ "{\n".toList ++
    (order (((seg c d0 d1).zipIdx 0).map fun e => gvKey e.1).eraseDups).flatMap (gvSubgraph ((seg c d0 d1).zipIdx 0)) ++
    gvInvis ((seg c d0 d1).zipIdx 0) (gvVars ((seg c d0 d1).zipIdx 0)) ++ ((seg c d0 d1).zipIdx 0).flatMap (fun e => gvArcs d0 e.1 e.2) ++
    "}\n".toList, ?_, ?_⟩
  · unfold graphvizText
    rw [M.get_bind_apply, M.assert_bind_apply (by simpa using he.lt), M.bind_ok (dlm_ok0 he), M.bind_ok (dlm_ok1 he),
      M.bind_ok (insRange_ok _ _ (by omega))]
    rw [M.assert_bind_apply (by
      rw [List.all_eq_true]
      intro e hm
      rcases hsk e hm with ⟨_, h | h⟩ | ⟨h, _⟩
      · simp [Instr.isBot, h]
      · simp [Instr.isTop, h]
      · simp [h])]
    rw [if_neg ?_]
    · rfl
    · rw [List.all_eq_true]
      intro h
      have hbig := hb _ _ he
      obtain ⟨e, k1, k2, k3, _⟩ := hw.inner d0 (Nat.le_refl _) hbig
      have : e ∈ seg c d0 d1 := List.mem_iff_getElem?.2 ⟨0, by rw [seg_get (by omega)]; exact k1⟩
      have := h e this
      unfold Instr.isTerm at this
      simp at this; exact k3 this
  · have h1 : GvSays "digraph BDD\n".toList [] [] := .other 'd' "igraph BDD".toList (by decide) (by decide) (by decide) (by decide)
    have h2 : GvSays "{\n".toList [] [] := .other '{' [] (by decide) (by decide) (by decide) (by decide)
    have h3 : GvSays "}\n".toList [] [] := .other '}' [] (by decide) (by decide) (by decide) (by decide)
    generalize hK : order (((seg c d0 d1).zipIdx 0).map fun e => gvKey e.1).eraseDups = K
    have hP : K.Perm (((seg c d0 d1).zipIdx 0).map fun e => gvKey e.1).eraseDups := hK ▸ ho _
    generalize (seg c d0 d1).zipIdx 0 = l at hsk' hP ⊢
    have h4 := GvSays.flatMap K fun k _ => holds_gvSubgraph l hsk' k
    have h5 : (K.flatMap fun _ => ([] : List (Nat × Bool × Nat))) = [] := by rw [List.flatMap_eq_nil_iff]; exact fun _ _ => rfl
    rw [h5] at h4
    have h6 := GvSays.flatMap l fun e _ => holds_gvArcs (e := e.1) d0 e.2
    have h7 : (l.flatMap fun _ => ([] : List (Nat × GvLabel))) = [] := by rw [List.flatMap_eq_nil_iff]; exact fun _ _ => rfl
    rw [h7] at h6
    obtain ⟨ls, g1, g2, g3⟩ := ((((h1.append h2).append h4).append (holds_gvInvis l (gvVars l))).append h6).append h3
    have gl := g1.lines
    unfold gvNodes gvLinks
    rw [gl, g2, g3]
    simp only [List.nil_append, List.append_nil]
    refine ⟨?_, trivial⟩
    rw [← List.map_flatMap]
    refine List.Perm.map _ ?_
    refine (perm_clusters K (hP.nodup_iff.2 (nodup_dedup _ _ (Nat.le_refl _)))).trans ?_
    have : (l.filter fun e => K.contains (gvKey e.1)) = l := by
      rw [List.filter_eq_self]
      intro e hm
      rw [List.contains_iff_mem, hP.mem_iff, List.mem_eraseDups, List.mem_map]
      exact ⟨e, hm, rfl⟩
    rw [this]

/-- C71: the text written by `export_graphviz` on an entry with inner nodes, whatever the order in which the library enumerates its groups. The reader
of the text gets every instruction of the entry once, numbered from 0 (the root), with the variable or sink it stands for, and exactly the two arcs of
every inner node, each once; the invisible arrows add none. Following the arcs from node 0 gives the value of `evaluate`. The collection is unchanged. -/
theorem C71_graphviz_text (hC : CReachable cfg c) {nr d0 d1 : Nat} (he : c.Entry nr d0 d1) (hb : c.Big nr) {order : List Nat → List Nat}
    (ho : ∀ K, (order K).Perm K) :
    ∃ text, graphvizText cfg nr order c = .ok text c ∧
      (gvNodes text).Nodup ∧ (∀ i lab, (i, lab) ∈ gvNodes text ↔ ∃ e, c.At nr (d0 + i) e ∧ lab = e.label) ∧
      (gvLinks text).Nodup ∧ (∀ i b j, (i, b, j) ∈ gvLinks text ↔ ∃ e, c.At nr (d0 + i) e ∧ e.Inner ∧ d0 + j = if b then e.hi else e.lo) ∧
      ∀ x, CCovers c nr x → ∀ r, GvReads text x 0 r ↔ cEvaluate cfg c nr x = .ok r () := by
  obtain ⟨hw, hl⟩ := entry_seg hC.inv he
  obtain ⟨text, h1, h2, h3⟩ := graphvizText_ok (cfg := cfg) hC he hb ho
  have hnd : (((seg c d0 d1).zipIdx 0).map (·.2)).Nodup := by
    rw [List.zipIdx_map_snd]; exact List.nodup_range'
  have hN : ∀ i lab, (i, lab) ∈ gvNodes text ↔ ∃ e, c.At nr (d0 + i) e ∧ lab = e.label := by
    intro i lab
    rw [h2.mem_iff, List.mem_map]
    constructor
    · rintro ⟨⟨e, j⟩, hm, hx⟩
      rw [List.mem_zipIdx_iff_getElem?] at hm
      injection hx with hx1 hx2
      subst hx1
      exact ⟨e, (seg_at he hl j e).1 hm, hx2.symm⟩
    · rintro ⟨e, hat, rfl⟩
      exact ⟨(e, i), by rw [List.mem_zipIdx_iff_getElem?]; exact (seg_at he hl i e).2 hat, rfl⟩
  have hinn : ∀ {i : Nat} {e : Instr}, c.At nr (d0 + i) e → (e.isTerm = false ↔ e.Inner) ∧ (e.Inner → d0 + i + 2 < d1 ∧ d0 + i < e.lo ∧ e.lo < d1 ∧ d0 + i < e.hi ∧ e.hi < d1) := by
    rintro i e ⟨x, y, q1, q2, q3, q4⟩
    obtain ⟨rfl, rfl⟩ := he.unique q1
    have hii := hw.inner_iff q2 q3 q4
    refine ⟨⟨fun h => hii.1.2 ?_, fun h => ?_⟩, fun h => ?_⟩
    · rcases Nat.lt_or_ge (d0 + i + 2) d1 with g | g
      · exact g
      · rw [hii.2.2 g] at h; cases h
    · cases ht : e.isTerm with
      | false => rfl
      | true => have := hii.1.1 h; have := hii.2.1 ht; omega
    · have := hw.node q2 q3 q4 h; omega
  have hL : ∀ i b j, (i, b, j) ∈ gvLinks text ↔ ∃ e, c.At nr (d0 + i) e ∧ e.Inner ∧ d0 + j = if b then e.hi else e.lo := by
    intro i b k
    rw [h3, List.mem_flatMap]
    constructor
    · rintro ⟨⟨e, j⟩, hm, hx⟩
      dsimp only at hx
      rw [List.mem_zipIdx_iff_getElem?] at hm
      have hat := (seg_at he hl j e).1 hm
      obtain ⟨h1, h2⟩ := hinn hat
      split at hx
      · simp at hx
      · rename_i ht
        have hin := h1.1 (by simpa using ht)
        have := h2 hin
        simp at hx
        rcases hx with ⟨rfl, rfl, rfl⟩ | ⟨rfl, rfl, rfl⟩
        · exact ⟨e, hat, hin, by simp; omega⟩
        · exact ⟨e, hat, hin, by simp; omega⟩
    · rintro ⟨e, hat, hin, hk⟩
      obtain ⟨h1, h2⟩ := hinn hat
      refine ⟨(e, i), ?_, ?_⟩
      · rw [List.mem_zipIdx_iff_getElem?]; exact (seg_at he hl i e).2 hat
      · dsimp only
        rw [h1.2 hin]
        have := h2 hin
        cases b
        · simp at hk ⊢; omega
        · simp at hk ⊢; omega
  refine ⟨text, h1, ?_, hN, ?_, hL, ?_⟩
  · rw [h2.nodup_iff]
    have : ((((seg c d0 d1).zipIdx 0).map fun e => (e.2, e.1.label)).map (·.1)).Nodup := by
      rw [List.map_map]; exact hnd
    exact List.Pairwise.imp (fun h e => h (by rw [e])) (List.pairwise_map.1 this)
  · rw [h3]
    unfold List.Nodup
    rw [List.pairwise_flatMap]
    refine ⟨?_, ?_⟩
    · rintro ⟨e, i⟩ _
      dsimp only
      split <;> simp
    · refine (List.pairwise_map.1 hnd).imp ?_
      rintro ⟨e, i⟩ ⟨e', i'⟩ hne x hx y hx' rfl
      dsimp only at hx hx' hne
      have e1 : x.1 = i := by
        split at hx
        · simp at hx
        · simp at hx; rcases hx with rfl | rfl <;> rfl
      have e2 : x.1 = i' := by
        split at hx'
        · simp at hx'
        · simp at hx'; rcases hx' with rfl | rfl <;> rfl
      exact hne (e1 ▸ e2)
  · intro x hx r
    have key : ∀ (t : Tree) (i : Nat), CRepr c.ins (d0 + i) t → d0 + i < d1 → (∀ v, t.Mem v → v < x.length) → ∀ r,
        (GvReads text x i r ↔ r = t.eval (fun v => x.getD v false)) := by
      intro t
      have one : ∀ {i : Nat} {e : Instr} {lab : GvLabel}, c.ins[d0 + i]? = some e → d0 + i < d1 → ((i, lab) ∈ gvNodes text ↔ lab = e.label) := by
        intro i e lab h hlt
        rw [hN]
        constructor
        · rintro ⟨e', ⟨_, _, _, _, _, k⟩, hl⟩
          rw [h] at k; injection k with k; rw [hl, k]
        · intro hl; exact ⟨e, ⟨d0, d1, he, by omega, hlt, h⟩, hl⟩
      have hbt : cTop ≠ cBot := by decide
      induction t with
      | bot =>
        intro i hi hlt _ r
        cases hi with
        | @bot _ e h hx' =>
          have hlab : e.label = .bot := by unfold Instr.label; rw [if_pos hx']
          constructor
          · intro g
            cases g with
            | bot g => rfl
            | top g => rw [one h hlt, hlab] at g; cases g
            | node g => rw [one h hlt, hlab] at g; cases g
          · rintro rfl; exact .bot ((one h hlt).2 hlab.symm)
      | top =>
        intro i hi hlt _ r
        cases hi with
        | @top _ e h hx' =>
          have hlab : e.label = .top := by unfold Instr.label; rw [hx', if_neg hbt, if_pos rfl]
          constructor
          · intro g
            cases g with
            | bot g => rw [one h hlt, hlab] at g; cases g
            | top g => rfl
            | node g => rw [one h hlt, hlab] at g; cases g
          · rintro rfl; exact .top ((one h hlt).2 hlab.symm)
      | node v tl th il ih =>
        intro i hi hlt hx r
        cases hi with
        | @node _ e _ _ h hin h3 h4 =>
          have hlab : e.label = .var e.index := by unfold Instr.label; rw [if_neg hin.1, if_neg hin.2]
          have hat : c.At nr (d0 + i) e := ⟨d0, d1, he, by omega, hlt, h⟩
          obtain ⟨_, n1, n2, n3, n4⟩ := (hinn hat).2 hin
          have elo : d0 + (e.lo - d0) = e.lo := by omega
          have ehi : d0 + (e.hi - d0) = e.hi := by omega
          have hlo := il (e.lo - d0) (by rw [elo]; exact h3) (by omega) (fun w hw => hx w (Or.inr (Or.inl hw)))
          have hhi := ih (e.hi - d0) (by rw [ehi]; exact h4) (by omega) (fun w hw => hx w (Or.inr (Or.inr hw)))
          have hv : e.index < x.length := hx _ (Or.inl rfl)
          have hbx : x[e.index]? = some (x.getD e.index false) := by
            rw [List.getD_eq_getElem?_getD, List.getElem?_eq_getElem hv]; rfl
          constructor
          · intro g
            cases g with
            | bot g => rw [one h hlt, hlab] at g; cases g
            | top g => rw [one h hlt, hlab] at g; cases g
            | @node _ v' j b _ g k1 k2 k3 =>
              rw [one h hlt, hlab] at g
              injection g with g
              rw [g, hbx] at k1
              injection k1 with k1
              obtain ⟨e', ⟨_, _, _, _, _, k4⟩, _, k5⟩ := (hL _ _ _).1 k2
              rw [h] at k4; injection k4 with k4
              rw [← k4] at k5
              simp only [Tree.eval, k1]
              cases b
              · have : j = e.lo - d0 := by simp at k5; omega
                rw [this] at k3
                simpa using (hlo r).1 k3
              · have : j = e.hi - d0 := by simp at k5; omega
                rw [this] at k3
                simpa using (hhi r).1 k3
          · intro g
            simp only [Tree.eval] at g
            cases eb : x.getD e.index false
            · simp only [eb] at g hbx
              exact .node ((one h hlt).2 hlab.symm) hbx ((hL _ _ _).2 ⟨e, hat, hin, by simpa using elo⟩) ((hlo r).2 (by simpa using g))
            · simp only [eb] at g hbx
              exact .node ((one h hlt).2 hlab.symm) hbx ((hL _ _ _).2 ⟨e, hat, hin, by simpa using ehi⟩) ((hhi r).2 (by simpa using g))
    have two := hw.two
    obtain ⟨t, ht, _⟩ := hw.exists _ d0 rfl (Nat.le_refl _) (by omega)
    have hm := hx.mem he hw ht
    rw [key t 0 ht (by omega) hm, cEvaluate_ok he hw ht hm]
    constructor
    · rintro rfl; rfl
    · intro h; injection h with h; exact h.symm

/-- C71: two entries (of two collections) whose texts agree have the same value on every assignment, whatever the enumeration orders. -/
theorem C71_same_text {cfg' : Cfg} {c' : Coll} (hC : CReachable cfg c) (hC' : CReachable cfg' c') {nr nr' : Nat} (hn : nr < c.nrBdds) (hn' : nr' < c'.nrBdds)
    (hb : c.Big nr) (hb' : c'.Big nr') {order order' : List Nat → List Nat} (ho : ∀ K, (order K).Perm K) (ho' : ∀ K, (order' K).Perm K) {t : List Char}
    {s s' : Coll} (h : graphvizText cfg nr order c = .ok t s) (h' : graphvizText cfg' nr' order' c' = .ok t s') {x : List Bool}
    (hx : CCovers c nr x) (hx' : CCovers c' nr' x) (r : Bool) : cEvaluate cfg c nr x = .ok r () ↔ cEvaluate cfg' c' nr' x = .ok r () := by
  obtain ⟨d0, d1, he, _⟩ := hC.inv.wf nr hn
  obtain ⟨e0, e1, he', _⟩ := hC'.inv.wf nr' hn'
  obtain ⟨t1, q1, _, _, _, _, g1⟩ := C71_graphviz_text hC he hb ho
  obtain ⟨t2, q2, _, _, _, _, g2⟩ := C71_graphviz_text hC' he' hb' ho'
  rw [h] at q1; injection q1 with q1
  rw [h'] at q2; injection q2 with q2
  rw [← g1 x hx r, ← g2 x hx' r, ← q1, ← q2]

/-- The hypotheses of C71 are met by entry 2 of the demo collection, (x0 ∧ x1) ∨ x2, with the groups enumerated backwards: the drawing has the root with its
variable and its arc to the next node. -/
theorem C71_example (nd : Bool) : ∃ text, graphvizText (envOf nd) 2 List.reverse (demoC nd) = .ok text (demoC nd) ∧ (0, GvLabel.var 0) ∈ gvNodes text ∧
    (0, true, 1) ∈ gvLinks text := by
  have hd : (demoC nd).del = [0, 4, 8, 13, 16] := by cases nd <;> decide +kernel
  have hi : (demoC nd).ins[8]? = some ⟨10, 9, 0⟩ := by cases nd <;> decide +kernel
  have he : (demoC nd).Entry 2 8 13 := ⟨by rw [hd]; rfl, by rw [hd]; rfl⟩
  have hat : (demoC nd).At 2 (8 + 0) ⟨10, 9, 0⟩ := ⟨8, 13, he, by omega, by omega, hi⟩
  obtain ⟨text, h, _, h2, _, h3, _⟩ := C71_graphviz_text (demoC_reachable nd) he (demoC_big_reduced nd 2 (by omega)).1 (order := List.reverse)
    (fun K => List.reverse_perm K)
  exact ⟨text, h, (h2 _ _).2 ⟨_, hat, by decide⟩, (h3 _ _ _).2 ⟨_, hat, ⟨by decide, by decide⟩, by decide⟩⟩
end
end LBDD
