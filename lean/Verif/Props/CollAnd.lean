import Verif.Props.Coll
/-!
# Conjunction of collection entries (C42–C46)
-/
namespace LBDD
section
variable {cfg : Cfg} {c c' : Coll} {l : List Nat}

/-- The outcome of a conjunction in all configurations and for all limits, in terms of the number `K` of instructions of the reduced conjunction. -/
def AndSpec (c : Coll) (K : Nat) (c' : Coll) (run : Cfg → Nat → Res Coll (Option Nat)) : Prop :=
  ∀ cfg limit, run cfg limit =
    if cfg.ndebug = false ∧ limit ≤ 2 then .assertFail
    else if K ≤ limit ∨ K = 2 then (if cfg.ndebug = false ∧ K = 2 then .assertFail else .ok (some c.nrBdds) c')
    else .ok none c

theorem and2 (hC : CReachable cfg c) {i j : Nat} (hi : i < c.nrBdds) (hj : j < c.nrBdds) :
    ∃ K c' t, Anded c c' K [i, j] t ∧ AndSpec c K c' (fun cfg limit => bddAnd cfg i j limit c) := by
  have hl : ∀ k ∈ [i, j], k < c.nrBdds := by intro k hk; simp at hk; rcases hk with rfl | rfl <;> assumption
  obtain ⟨ds, ts, ho⟩ := hC.inv.operands hl
  obtain ⟨st, root, h1, h2⟩ := bddAnd_run hC.inv hi hj ho
  obtain ⟨t, ht⟩ := anded hC.inv hl ho h1
  exact ⟨st.length, finish c st, t, ht, h2⟩

theorem andN (hC : CReachable cfg c) (hl : ∀ k ∈ l, k < c.nrBdds) (h2 : 2 ≤ l.length) (h49 : l.length ≤ 49) :
    ∃ K c' t, Anded c c' K l t ∧ AndSpec c K c' (fun cfg limit => bddAndRange cfg l limit c) := by
  obtain ⟨ds, ts, ho⟩ := hC.inv.operands hl
  obtain ⟨st, root, h1, h2⟩ := bddAndRange_run hC.inv hl h2 h49 ho
  obtain ⟨t, ht⟩ := anded hC.inv hl ho h1
  exact ⟨st.length, finish c st, t, ht, h2⟩

theorem Anded.covers {K : Nat} {t : Tree} (h : Anded c c' K l t) {x : List Bool} (hx : ∀ i ∈ l, CCovers c i x) : ∀ v, t.Mem v → v < x.length := by
  intro v hv
  obtain ⟨i, hi, h1⟩ := h.mem v hv
  exact hx i hi v h1

/-- What `evaluate` of the new entry returns. -/
theorem Anded.eval {K : Nat} {t : Tree} (h : Anded c c' K l t) (hk : K ≠ 2 ∨ t = .top) {x : List Bool} (hx : ∀ i ∈ l, CCovers c i x) :
    cEvaluate cfg c' c.nrBdds x = .ok (t.eval (asg x)) () := by
  have hr : CRepr c'.ins c.ins.length t := by
    by_cases h2 : K = 2
    · rcases hk with hk | hk
      · exact absurd h2 hk
      · rw [hk]; exact (h.small h2).2
    · exact (h.big h2).1
  exact cEvaluate_ok h.entry (h.wf.entry h.entry) hr (h.covers hx)

theorem eval_true_or_false (hC : CReachable cfg c) {i : Nat} (hi : i < c.nrBdds) {x : List Bool} (hx : CCovers c i x) :
    cEvaluate cfg c i x = .ok true () ∨ cEvaluate cfg c i x = .ok false () := by
  obtain ⟨d0, d1, he, hw⟩ := hC.inv.wf i hi
  obtain ⟨t, ht⟩ := (hC.inv.wf i hi).tree he
  rw [cEvaluate_ok he hw ht (hx.mem he hw ht)]
  cases t.eval (fun v => x.getD v false)
  · exact Or.inr rfl
  · exact Or.inl rfl

/-- The variables of the conjunction are variables of the operands. -/
theorem Anded.var {K : Nat} {t : Tree} (ha : Anded c c' K l t) {v : Nat} (hv : c'.Var c.nrBdds v) : ∃ i ∈ l, c.Var i v := by
  obtain ⟨i, e, hat, hin, rfl⟩ := hv
  have hat' := hat
  obtain ⟨d0, d1, he, h0, h1, hi⟩ := hat
  obtain ⟨rfl, rfl⟩ := he.unique ha.entry
  have hn := ((ha.wf.entry ha.entry).node h0 h1 hi hin).1
  have h2 : K ≠ 2 := by omega
  obtain ⟨hr, hcon, _⟩ := ha.big h2
  have hre := hcon _ i e ha.entry.1 hat' hin
  refine ha.mem _ ?_
  have key : ∀ {i j : Nat}, CReach c'.ins i j → ∀ {t : Tree}, CRepr c'.ins i t → ∀ e, c'.ins[j]? = some e → e.Inner → t.Mem e.index := by
    intro i j h
    induction h with
    | refl => intro t h1 e g1 g2; obtain ⟨_, _, rfl, _⟩ := h1.inv g1 g2; exact Or.inl rfl
    | lo g1 g2 _ ih => intro t h1 e f1 f2; obtain ⟨_, _, rfl, q, _⟩ := h1.inv g1 g2; exact Or.inr (Or.inl (ih q e f1 f2))
    | hi g1 g2 _ ih => intro t h1 e f1 f2; obtain ⟨_, _, rfl, _, q⟩ := h1.inv g1 g2; exact Or.inr (Or.inr (ih q e f1 f2))
  exact key hre hr e hi hin

/-- The core of C42 and C44. -/
theorem and_core {run : Cfg → Nat → Res Coll (Option Nat)} (h : ∃ K c' t, Anded c c' K l t ∧ AndSpec c K c' run)
    (hsat : Satisfiable cfg c l) (href : cfg.ndebug = true ∨ Refutable cfg c l) :
    ∃ K c', (∀ limit, 2 < limit → run cfg limit = if K ≤ limit then .ok (some c.nrBdds) c' else .ok none c) ∧ c'.nrBdds = c.nrBdds + 1 ∧
      IsConj cfg c l c' c.nrBdds ∧ c'.Size c.nrBdds K ∧ (∀ v, c'.Var c.nrBdds v → ∃ i ∈ l, c.Var i v) := by
  obtain ⟨K, c', t, ha, hs⟩ := h
  obtain ⟨x, hx, hxt⟩ := hsat
  have hne : t ≠ .bot := by
    rintro rfl
    have := (ha.conj cfg x hx).2 hxt
    cases this
  have hk : K = 2 → t = .top := fun h => by
    rcases (ha.small h).1 with h | h
    · exact absurd h hne
    · exact h
  have hnd : K = 2 → cfg.ndebug = true := by
    intro h
    rcases href with h' | ⟨y, hy, i, hi, hf⟩
    · exact h'
    · have := (ha.conj cfg y hy).1 (by rw [hk h]; rfl) i hi
      rw [hf] at this; cases this
  refine ⟨K, c', ?_, ha.nr, ?_, ⟨_, _, ha.entry, rfl⟩, ?_⟩
  · intro limit hl
    rw [hs cfg limit, if_neg (by omega)]
    by_cases h2 : K = 2
    · rw [if_pos (Or.inr h2), if_neg (by rw [hnd h2]; simp), if_pos (by omega)]
    · by_cases h3 : K ≤ limit
      · rw [if_pos (Or.inl h3), if_neg (by simp [h2]), if_pos h3]
      · rw [if_neg (by omega), if_neg h3]
  · intro y hy
    refine ⟨t.eval (asg y), ha.eval ?_ hy, ha.conj cfg y hy⟩
    by_cases h2 : K = 2
    · exact Or.inr (hk h2)
    · exact Or.inl h2
  · exact fun v hv => ha.var hv

/-! ## C42 -/

/-- C42, for satisfiable conjunctions (in debug builds not constantly true): with a sufficient limit `bdd_and(i, j)` appends one entry, which is the
conjunction. Operands need not be ordered. For unsatisfiable conjunctions see `C42_contradiction`. -/
theorem C42_and_partial (hC : CReachable cfg c) {i j : Nat} (hi : i < c.nrBdds) (hj : j < c.nrBdds) (hsat : Satisfiable cfg c [i, j])
    (href : cfg.ndebug = true ∨ Refutable cfg c [i, j]) :
    ∃ K c', (∀ limit, 2 < limit → bddAnd cfg i j limit c = if K ≤ limit then .ok (some c.nrBdds) c' else .ok none c) ∧ c'.nrBdds = c.nrBdds + 1 ∧
      IsConj cfg c [i, j] c' c.nrBdds ∧ c'.Size c.nrBdds K ∧ (∀ v, c'.Var c.nrBdds v → ∃ k ∈ [i, j], c.Var k v) :=
  and_core (and2 hC hi hj) hsat href

/-- A list long enough for every variable of a collection. -/
theorem cover_all (c : Coll) : ∃ N, ∀ (x : List Bool) (nr : Nat), N ≤ x.length → CCovers c nr x := by
  have key : ∀ ins : List Instr, ∃ N, ∀ (i : Nat) (e : Instr), ins[i]? = some e → e.index < N := by
    intro ins
    induction ins with
    | nil => exact ⟨0, fun i e h => by simp at h⟩
    | cons a ins ih =>
      obtain ⟨N, hN⟩ := ih
      refine ⟨N + a.index + 1, ?_⟩
      intro i e h
      cases i with
      | zero => simp at h; subst h; omega
      | succ i => have := hN i e (by simpa using h); omega
  obtain ⟨N, hN⟩ := key c.ins
  refine ⟨N, ?_⟩
  rintro x nr hx v ⟨i, e, ⟨_, _, _, _, _, h⟩, _, rfl⟩
  exact Nat.lt_of_lt_of_le (hN i e h) hx

theorem contradiction_core {run : Cfg → Nat → Res Coll (Option Nat)} (h : ∃ K c' t, Anded c c' K l t ∧ AndSpec c K c' run)
    (ho : ∀ i ∈ l, c.Ordered i) (hun : ¬ Satisfiable cfg c l) :
    ∃ c', (∀ limit, 2 < limit → run cfg limit = if cfg.ndebug then .ok (some c.nrBdds) c' else .assertFail) ∧
      ∀ x, cEvaluate cfg c' c.nrBdds x = .ok true () := by
  obtain ⟨K, c', t, ha, hs⟩ := h
  obtain ⟨N, hN⟩ := cover_all c
  have hbot : t = .bot := by
    refine Tree.eq_of_eval (ha.ordered ho) trivial ha.treeRed trivial ?_
    intro y
    have hcov : ∀ i ∈ l, CCovers c i (toList N y) := fun i _ => hN _ i (by rw [toList_length]; exact Nat.le_refl _)
    have : t.eval (asg (toList N y)) = t.eval y := Tree.eval_congr (fun v hv => asg_toList (by
      have := ha.covers hcov v hv
      rwa [toList_length] at this))
    rw [← this]
    show _ = false
    rw [Bool.eq_false_iff]
    intro ht
    exact hun ⟨_, hcov, (ha.conj cfg _ hcov).1 ht⟩
  have hK : K = 2 := by
    refine Classical.byContradiction fun h => ?_
    exact (ha.big h).2.2.1 hbot
  refine ⟨c', ?_, ?_⟩
  · intro limit hl
    rw [hs cfg limit, if_neg (by omega), if_pos (Or.inr hK)]
    cases cfg.ndebug <;> simp [hK]
  · intro x
    exact cEvaluate_ok ha.entry (ha.wf.entry ha.entry) (ha.small hK).2 (fun v h => h.elim)

/-- C42 fails for every unsatisfiable conjunction of ordered entries: debug builds fail an assert, release builds append an entry that is constantly true. -/
theorem C42_contradiction (hC : CReachable cfg c) {i j : Nat} (hi : i < c.nrBdds) (hj : j < c.nrBdds) (oi : c.Ordered i) (oj : c.Ordered j)
    (hun : ¬ Satisfiable cfg c [i, j]) :
    ∃ c', (∀ limit, 2 < limit → bddAnd cfg i j limit c = if cfg.ndebug then .ok (some c.nrBdds) c' else .assertFail) ∧
      ∀ x, cEvaluate cfg c' c.nrBdds x = .ok true () :=
  contradiction_core (and2 hC hi hj) (by intro k hk; simp at hk; rcases hk with rfl | rfl <;> assumption) hun

/-- Entries 0 and 2 of the demo collection, (x0∧x1) and (x0∧x1)∨x2, meet the hypotheses of `C42_and_partial`. -/
theorem C42_example (nd : Bool) : ∃ K c', (∀ limit, 2 < limit → bddAnd (envOf nd) 0 2 limit (demoC nd) = if K ≤ limit then .ok (some 4) c' else .ok none (demoC nd)) ∧
    IsConj (envOf nd) (demoC nd) [0, 2] c' 4 := by
  have hn := demoC_nrBdds nd
  have hcov : ∀ x : List Bool, 3 ≤ x.length → ∀ i ∈ [0, 2], CCovers (demoC nd) i x := by
    intro x hx i hi v hv
    have : i < 4 := by simp at hi; omega
    have := demoC_vars nd i this v hv
    omega
  obtain ⟨K, c', h1, _, h2, _⟩ := C42_and_partial (demoC_reachable nd) (i := 0) (j := 2) (by omega) (by omega)
    ⟨[true, true, false], hcov _ (by simp), by
      intro i hi; simp at hi
      rcases hi with rfl | rfl <;> exact cevB_sound (by cases nd <;> decide +kernel)⟩
    (Or.inr ⟨[false, true, false], hcov _ (by simp), 0, by simp, cevB_sound (by cases nd <;> decide +kernel)⟩)
  rw [hn] at h1 h2
  exact ⟨K, c', h1, h2⟩

/-- Entries 0 and 1 of the demo collection contradict each other: C42 is false for them in debug and in release builds. -/
theorem C42_refuted (nd : Bool) : ∃ c', (∀ limit, 2 < limit → bddAnd (envOf nd) 0 1 limit (demoC nd) = if nd then .ok (some 4) c' else .assertFail) ∧
    ∀ x, cEvaluate (envOf nd) c' 4 x = .ok true () := by
  have hn := demoC_nrBdds nd
  have key : ¬ Satisfiable (envOf nd) (demoC nd) [0, 1] := by
    rintro ⟨x, hx, hs⟩
    have a0 := hs 0 (by simp)
    have a1 := hs 1 (by simp)
    have hd : (demoC nd).del[0]? = some 0 ∧ (demoC nd).del[1]? = some 4 ∧ (demoC nd).ins.length = 16 := by cases nd <;> decide +kernel
    have i0 : (demoC nd).ins[0]? = some ⟨2, 1, 0⟩ ∧ (demoC nd).ins[1]? = some ⟨2, 3, 1⟩ ∧ (demoC nd).ins[2]? = some botInstr ∧
        (demoC nd).ins[4]? = some ⟨7, 5, 0⟩ ∧ (demoC nd).ins[5]? = some ⟨7, 6, 1⟩ ∧ (demoC nd).ins[6]? = some botInstr := by
      cases nd <;> decide +kernel
    obtain ⟨i0, i1, i2, i4, i5, i6⟩ := i0
    have v0 : 0 < x.length := hx 0 (by simp) 0 ⟨0, ⟨2, 1, 0⟩, ⟨0, 4, ⟨hd.1, hd.2.1⟩, by omega, by omega, i0⟩, (Instr.innerB_iff _).1 (by decide +kernel), rfl⟩
    have v1 : 1 < x.length := hx 0 (by simp) 1 ⟨1, ⟨2, 3, 1⟩, ⟨0, 4, ⟨hd.1, hd.2.1⟩, by omega, by omega, i1⟩, (Instr.innerB_iff _).1 (by decide +kernel), rfl⟩
    have n0 : ∀ lo hi : Nat, (⟨lo, hi, 0⟩ : Instr).isTop = false ∧ (⟨lo, hi, 0⟩ : Instr).isBot = false := by
      intro lo hi; constructor <;> simp [Instr.isTop, Instr.isBot, cTop, cBot]
    have n1 : ∀ lo hi : Nat, (⟨lo, hi, 1⟩ : Instr).isTop = false ∧ (⟨lo, hi, 1⟩ : Instr).isBot = false := by
      intro lo hi; constructor <;> simp [Instr.isTop, Instr.isBot, cTop, cBot]
    have nb : botInstr.isTop = false ∧ botInstr.isBot = true := by decide +kernel
    unfold cEvaluate at a0 a1
    simp only [hn, hd, show ¬ (4 ≤ 0) by omega, show ¬ (4 ≤ 1) by omega, decide_false, Bool.and_false, Bool.false_eq_true, if_false] at a0 a1
    simp only [cEvalLoop, i0, i1, i2, i4, i5, i6, n0, n1, nb, List.getElem?_eq_getElem v0, List.getElem?_eq_getElem v1, Bool.false_eq_true, if_false, if_true] at a0 a1
    cases h0 : x[0] <;> cases h1 : x[1] <;> simp [h0, h1] at a0 a1
  obtain ⟨c', h1, h2⟩ := C42_contradiction (demoC_reachable nd) (i := 0) (j := 1) (by omega) (by omega) (demoC_ordered nd 0 (by omega)) (demoC_ordered nd 1 (by omega)) key
  rw [hn] at h1 h2
  exact ⟨c', h1, h2⟩

/-! ## C43 -/

/-- C43: there is a number `K` such that a limit below `K` makes `bdd_and` return the "too large" value and leave the collection unchanged, while every
limit from `K` on gives the outcome of the unlimited call. For ordered operands `K` is the size of every reduced ordered connected entry
(in any collection) that is their conjunction. -/
theorem C43_limit_exact (hC : CReachable cfg c) {i j : Nat} (hi : i < c.nrBdds) (hj : j < c.nrBdds) :
    ∃ K out, (∀ limit, 2 < limit → bddAnd cfg i j limit c = if K ≤ limit then out else .ok none c) ∧
      (∀ nr c', out = .ok (some nr) c' → nr = c.nrBdds ∧ c'.Size nr K) ∧ (∀ c', out ≠ .ok none c') ∧
      (c.Ordered i → c.Ordered j → ∀ c'' nr'', c''.Wf nr'' → c''.Ordered nr'' → c''.Reduced nr'' → c''.Connected nr'' → IsConj cfg c [i, j] c'' nr'' → c''.Size nr'' K) := by
  obtain ⟨K, c', t, ha, hs⟩ := and2 hC hi hj
  refine ⟨K, if cfg.ndebug = false ∧ K = 2 then .assertFail else .ok (some c.nrBdds) c', ?_, ?_, ?_, ?_⟩
  · intro limit hl
    have := hs cfg limit
    simp only at this
    rw [this, if_neg (by omega)]
    by_cases h2 : K ≤ limit
    · rw [if_pos (Or.inl h2), if_pos h2]
    · rw [if_neg (by omega), if_neg h2]
  · intro nr c1 e
    split at e
    · cases e
    · cases e; exact ⟨rfl, _, _, ha.entry, rfl⟩
  · intro c1 e
    split at e <;> cases e
  · intro oi oj c'' nr'' hw ho hr hcon hconj
    obtain ⟨N, hN⟩ := cover_all c
    obtain ⟨N', hN'⟩ := cover_all c''
    obtain ⟨e0, e1, he, hwr⟩ := hw
    have hw : c''.Wf nr'' := ⟨e0, e1, he, hwr⟩
    obtain ⟨t', ht'⟩ := hw.tree he
    have two := hwr.two
    have hot := ha.ordered (by intro k hk; simp at hk; rcases hk with rfl | rfl <;> assumption)
    have htt : t = t' := by
      refine Tree.eq_of_eval hot (hw.tree_ordered he ho ht' (Nat.le_refl _) (by omega)) ha.treeRed
        (tree_reduced hw hr he ht' (Nat.le_refl _) (by omega)) ?_
      intro y
      have hcov : ∀ k ∈ [i, j], CCovers c k (toList (N + N') y) := fun i _ => hN _ i (by rw [toList_length]; omega)
      have hcov' : CCovers c'' nr'' (toList (N + N') y) := hN' _ _ (by rw [toList_length]; omega)
      have a1 : t.eval (asg (toList (N + N') y)) = t.eval y := Tree.eval_congr (fun v hv => asg_toList (by
        have := ha.covers hcov v hv
        rwa [toList_length] at this))
      have hm' := hcov'.mem he hwr ht'
      have a2 : t'.eval (asg (toList (N + N') y)) = t'.eval y := Tree.eval_congr (fun v hv => asg_toList (by
        have := hm' v hv
        rwa [toList_length] at this))
      obtain ⟨b, b1, b2⟩ := hconj _ hcov
      rw [cEvaluate_ok he hwr ht' hm'] at b1
      injection b1 with b1
      have b3 := ha.conj cfg _ hcov
      rw [← a1, ← a2, Bool.eq_iff_iff, b3, ← b2, ← b1]
      rfl
    subst htt
    by_cases h2 : K = 2
    · obtain ⟨h3, _⟩ := ha.small h2
      have : e1 = e0 + 2 := by
        obtain ⟨e, f1, f2⟩ := hwr.cases (i := e0) (Nat.le_refl _) (by omega)
        rcases f2 with f2 | f2
        · obtain ⟨tl, th, rfl, _⟩ := ht'.inv f1 (Instr.inner_of_lt f2.2.1)
          rcases h3 with h3 | h3 <;> cases h3
        · omega
      exact ⟨e0, e1, he, by omega⟩
    · obtain ⟨h3, h4, _⟩ := ha.big h2
      have q1 := size_le ha.wf ha.reduced h4 ha.entry hw he h3 ht'
      have q2 := size_le hw hr hcon he ha.wf ha.entry ht' h3
      exact ⟨e0, e1, he, by omega⟩

/-- With limit 3 the conjunction of (x0∧x1) and (x0∧x1)∨x2 is refused, with limit 4 it is built. -/
theorem C43_example : (∃ c', bddAnd (envOf false) 0 2 4 (demoC false) = .ok (some 4) c') ∧ bddAnd (envOf false) 0 2 3 (demoC false) = .ok none (demoC false) := by
  obtain ⟨K, out, h1, h2, _⟩ := C43_limit_exact (demoC_reachable false) (i := 0) (j := 2) (by rw [demoC_nrBdds]; omega) (by rw [demoC_nrBdds]; omega)
  have e4 : (match bddAnd (envOf false) 0 2 4 (demoC false) with | .ok (some r) _ => r == 4 | _ => false) = true := by decide +kernel
  have e3 : (match bddAnd (envOf false) 0 2 3 (demoC false) with | .ok none _ => true | _ => false) = true := by decide +kernel
  constructor
  · split at e4
    · rename_i r c' e
      rw [e]
      simp at e4; subst e4
      exact ⟨c', rfl⟩
    · cases e4
  · split at e3
    · rename_i c' e
      have := h1 3 (by omega)
      rw [e] at this
      by_cases hk : K ≤ 3
      · rw [if_pos hk] at this
        have hn := C43_limit_exact (demoC_reachable false) (i := 0) (j := 2) (by rw [demoC_nrBdds]; omega) (by rw [demoC_nrBdds]; omega)
        obtain ⟨K', out', g1, _, g3, _⟩ := hn
        have g := g1 3 (by omega)
        rw [e] at g
        by_cases hk' : K' ≤ 3
        · rw [if_pos hk'] at g; exact absurd g.symm (g3 _)
        · rw [if_neg hk'] at g; rw [e]; exact g
      · rw [if_neg hk] at this; rw [e]; exact this
    · cases e3

/-! ## C44 -/

/-- C44, for satisfiable conjunctions (in debug builds not constantly true): `bdd_and` of 2 to 49 entries (repetitions allowed) is their conjunction. -/
theorem C44_and_range_partial (hC : CReachable cfg c) (hl : ∀ i ∈ l, i < c.nrBdds) (h2 : 2 ≤ l.length) (h49 : l.length ≤ 49)
    (hsat : Satisfiable cfg c l) (href : cfg.ndebug = true ∨ Refutable cfg c l) :
    ∃ K c', (∀ limit, 2 < limit → bddAndRange cfg l limit c = if K ≤ limit then .ok (some c.nrBdds) c' else .ok none c) ∧ c'.nrBdds = c.nrBdds + 1 ∧
      IsConj cfg c l c' c.nrBdds ∧ c'.Size c.nrBdds K ∧ (∀ v, c'.Var c.nrBdds v → ∃ k ∈ l, c.Var k v) :=
  and_core (andN hC hl h2 h49) hsat href

/-- For unsatisfiable conjunctions of ordered entries the N-ary version fails in the same way as the binary one. -/
theorem C44_contradiction (hC : CReachable cfg c) (hl : ∀ i ∈ l, i < c.nrBdds) (h2 : 2 ≤ l.length) (h49 : l.length ≤ 49) (ho : ∀ i ∈ l, c.Ordered i)
    (hun : ¬ Satisfiable cfg c l) :
    ∃ c', (∀ limit, 2 < limit → bddAndRange cfg l limit c = if cfg.ndebug then .ok (some c.nrBdds) c' else .assertFail) ∧
      ∀ x, cEvaluate cfg c' c.nrBdds x = .ok true () :=
  contradiction_core (andN hC hl h2 h49) ho hun

/-- C44: a range of one entry returns that entry and changes nothing; empty ranges and ranges of 50 or more throw and change nothing. -/
theorem C44_other_lengths (limit : Nat) : (∀ i, bddAndRange cfg [i] limit c = .ok (some i) c) ∧ bddAndRange cfg [] limit c = .throw c ∧
    (50 ≤ l.length → bddAndRange cfg l limit c = .throw c) :=
  ⟨fun _ => rfl, rfl, fun h => bddAndRange_many (by omega)⟩

/-- Three entries of the demo collection meet the hypotheses. -/
theorem C44_example (nd : Bool) : ∃ K c', (∀ limit, 2 < limit → bddAndRange (envOf nd) [0, 2, 3] limit (demoC nd) = if K ≤ limit then .ok (some 4) c' else .ok none (demoC nd)) ∧
    IsConj (envOf nd) (demoC nd) [0, 2, 3] c' 4 := by
  have hn := demoC_nrBdds nd
  have hcov : ∀ x : List Bool, 3 ≤ x.length → ∀ i ∈ [0, 2, 3], CCovers (demoC nd) i x := by
    intro x hx i hi v hv
    have : i < 4 := by simp at hi; omega
    have := demoC_vars nd i this v hv
    omega
  obtain ⟨K, c', h1, _, h2, _⟩ := C44_and_range_partial (l := [0, 2, 3]) (demoC_reachable nd) (by rw [hn]; simp) (by simp) (by simp)
    ⟨[true, true, false], hcov _ (by simp), by
      intro i hi; simp at hi
      rcases hi with rfl | rfl | rfl <;> exact cevB_sound (by cases nd <;> decide +kernel)⟩
    (Or.inr ⟨[false, true, false], hcov _ (by simp), 0, by simp, cevB_sound (by cases nd <;> decide +kernel)⟩)
  rw [hn] at h1 h2
  exact ⟨K, c', h1, h2⟩

/-! ## C45 -/

theorem structure_core {run : Cfg → Nat → Res Coll (Option Nat)} (h : ∃ K c' t, Anded c c' K l t ∧ AndSpec c K c' run) {limit nr : Nat} {c1 : Coll}
    (e : run cfg limit = .ok (some nr) c1) (ho : ∀ i ∈ l, c.Ordered i) :
    nr = c.nrBdds ∧ c1.Wf nr ∧ c1.Reduced nr ∧ c1.Ordered nr ∧ c1.Connected nr := by
  obtain ⟨K, c', t, ha, hs⟩ := h
  rw [hs cfg limit] at e
  have : nr = c.nrBdds ∧ c1 = c' := by
    split at e
    · cases e
    · split at e
      · split at e
        · cases e
        · cases e; exact ⟨rfl, rfl⟩
      · cases e
  obtain ⟨rfl, rfl⟩ := this
  by_cases h2 : K = 2
  · have hno : ∀ i e, c1.At c.nrBdds i e → ¬ e.Inner := by
      rintro i e ⟨d0, d1, he, h0, h1, hi⟩ hin
      obtain ⟨rfl, rfl⟩ := he.unique ha.entry
      have hn := ((ha.wf.entry ha.entry).node h0 h1 hi hin).1
      omega
    exact ⟨rfl, ha.wf, ha.reduced, fun i e j e' h1 h2 => absurd h2 (hno i e h1), fun d0 i e _ h1 h2 => absurd h2 (hno i e h1)⟩
  · obtain ⟨h3, h4, _⟩ := ha.big h2
    exact ⟨rfl, ha.wf, ha.reduced, ordered_of_tree ha.wf ha.entry h4 h3 (ha.ordered ho), h4⟩

/-- C45: whenever `bdd_and` of ordered entries returns an entry, it is a DAG in topological order with the root first and the sinks last, has no redundant and
no duplicate node, is ordered, and all its nodes are reachable from the root. -/
theorem C45_and_structure (hC : CReachable cfg c) {i j : Nat} (hi : i < c.nrBdds) (hj : j < c.nrBdds) (oi : c.Ordered i) (oj : c.Ordered j) {limit nr : Nat}
    (e : bddAnd cfg i j limit c = .ok (some nr) c') : nr = c.nrBdds ∧ c'.Wf nr ∧ c'.Reduced nr ∧ c'.Ordered nr ∧ c'.Connected nr :=
  structure_core (run := fun cfg limit => bddAnd cfg i j limit c) (and2 hC hi hj) e (by intro k hk; simp at hk; rcases hk with rfl | rfl <;> assumption)

/-- C45 for ranges. -/
theorem C45_and_range_structure (hC : CReachable cfg c) (hl : ∀ i ∈ l, i < c.nrBdds) (h2 : 2 ≤ l.length) (ho : ∀ i ∈ l, c.Ordered i) {limit nr : Nat}
    (e : bddAndRange cfg l limit c = .ok (some nr) c') : nr = c.nrBdds ∧ c'.Wf nr ∧ c'.Reduced nr ∧ c'.Ordered nr ∧ c'.Connected nr := by
  have h49 : l.length ≤ 49 := by
    refine Classical.byContradiction fun h => ?_
    rw [bddAndRange_many (by omega)] at e; cases e
  exact structure_core (run := fun cfg limit => bddAndRange cfg l limit c) (andN hC hl h2 h49) e ho

/-- The conjunction of two demo entries. -/
theorem C45_example (nd : Bool) : ∃ c', bddAnd (envOf nd) 0 2 100 (demoC nd) = .ok (some 4) c' ∧ c'.Reduced 4 ∧ c'.Ordered 4 ∧ c'.Connected 4 ∧ c'.Big 4 := by
  have e4 : (match bddAnd (envOf nd) 0 2 100 (demoC nd) with | .ok (some r) c' => r == 4 && c'.del == [0, 4, 8, 13, 16, 20] | _ => false) = true := by
    cases nd <;> decide +kernel
  split at e4
  · rename_i r c' e
    simp at e4
    obtain ⟨rfl, hd⟩ := e4
    obtain ⟨_, h1, h2, h3, h4⟩ := C45_and_structure (demoC_reachable nd) (by rw [demoC_nrBdds]; omega) (by rw [demoC_nrBdds]; omega)
      (demoC_ordered nd 0 (by omega)) (demoC_ordered nd 2 (by omega)) e
    refine ⟨c', e, h2, h3, h4, ?_⟩
    rintro d0 d1 ⟨g1, g2⟩
    rw [hd] at g1 g2
    simp at g1 g2
    omega
  · cases e4

/-! ## C46 -/

/-- C46: a conjunction keeps all entries and their numbers. -/
theorem C46_and_keeps (hC : CReachable cfg c) (hl : ∀ i ∈ l, i < c.nrBdds) {limit : Nat} {o : Option Nat}
    (e : bddAndRange cfg l limit c = .ok o c') {k : Nat} (hk : k < c.nrBdds) :
    SameEntry c k c' k ∧ ∀ x, CCovers c k x → cEvaluate cfg c' k x = cEvaluate cfg c k x := by
  suffices h : SameEntry c k c' k from ⟨h, fun x hx => h.eval (hC.inv.wf k hk) hx⟩
  by_cases h49 : l.length ≤ 49
  · by_cases h2 : 2 ≤ l.length
    · obtain ⟨K, c1, t, ha, hs⟩ := andN hC hl h2 h49
      have := hs cfg limit
      simp only at this
      rw [this] at e
      split at e
      · cases e
      · split at e
        · split at e
          · cases e
          · cases e; exact ha.same k hk
        · cases e; exact .refl (hC.inv.wf k hk)
    · match l, e with
      | [], e => cases e
      | [a], e => cases e; exact .refl (hC.inv.wf k hk)
      | _ :: _ :: _, _ => simp at h2
  · rw [bddAndRange_many (by omega)] at e; cases e

/-- C46: adding a BDD keeps all entries and their numbers. -/
theorem C46_add_keeps {u : Use} {a : Api} {p nr : Nat} {s' : Mgr} (hR : Reachable cfg u a) (hC : CReachable cfg c) (hp : a.Holds p) (h2 : 2 ≤ p)
    (e : addBdd cfg p (a.mgr, c) = .ok nr (s', c')) {k : Nat} (hk : k < c.nrBdds) :
    SameEntry c k c' k ∧ ∀ x, CCovers c k x → cEvaluate cfg c' k x = cEvaluate cfg c k x := by
  obtain ⟨t, ht⟩ := hR.good.any hp
  obtain ⟨c1, d0, d1, L, e1, h⟩ := added (cfg := cfg) hR.good hC.inv ht h2
  rw [e1] at e; cases e
  exact ⟨h.same k hk, fun x hx => (h.same k hk).eval (hC.inv.wf k hk) hx⟩

/-- C46: renaming the variables of one entry keeps all others and all numbers. (The hash-map overload: `rebaseMap`.) -/
theorem C46_rebase_keeps (hC : CReachable cfg c) {nr : Nat} {op : COp} (hop : (∃ m, op = .rebaseVec nr m) ∨ ∃ m, op = .rebaseMap nr m)
    (hl : op.Legal cfg c) (e : op.run cfg c = .ok () c') {k : Nat} (hk : k < c.nrBdds) (hne : k ≠ nr) :
    c'.nrBdds = c.nrBdds ∧ SameEntry c k c' k ∧ ∀ x, CCovers c k x → cEvaluate cfg c' k x = cEvaluate cfg c k x := by
  suffices h : c'.nrBdds = c.nrBdds ∧ SameEntry c k c' k from ⟨h.1, h.2, fun x hx => h.2.eval (hC.inv.wf k hk) hx⟩
  rcases hop with ⟨m, rfl⟩ | ⟨m, rfl⟩
  · obtain ⟨c1, e1, h⟩ := cRebase_ok (cfg := cfg) hC.inv hl.1 hl.2
    rw [show COp.run cfg (.rebaseVec nr m) c = cRebase cfg nr (fun v => m[v]?) c from rfl, e1] at e
    cases e
    exact ⟨by unfold Coll.nrBdds; rw [h.del], h.others k hk hne⟩
  · obtain ⟨c1, e1, h⟩ := cRebase_ok (cfg := cfg) hC.inv hl.1 hl.2
    rw [show COp.run cfg (.rebaseMap nr m) c = cRebase cfg nr (fun v => m.lookup v) c from rfl, e1] at e
    cases e
    exact ⟨by unfold Coll.nrBdds; rw [h.del], h.others k hk hne⟩
end
end LBDD
