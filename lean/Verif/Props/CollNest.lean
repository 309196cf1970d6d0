import Verif.Proof.Coll.Nest
import Verif.Proof.Coll.Anded
import Verif.Props.CollDemo
/-!
# Nesting depth of the conjunctions of a collection (C79)

`bdd_and_impl` is recursive, and the machine's stack is limited. `bddAndWithin n` is `bdd_and` with room for `n` nested calls.
-/
namespace LBDD
section
variable {cfg : Cfg} {c : Coll} {i j limit n : Nat}

theorem filter_zero (vs : List Nat) : vs.filter (fun w => decide (0 ≤ w)) = vs := List.filter_eq_self.2 fun _ _ => by simp

theorem Operands.hsum_le {l ds : List Nat} {ts : List Tree} (ho : Operands c l ds ts) {D : Nat → Nat} (hD : ∀ i ∈ l, c.DepthAtMost i (D i)) :
    hsum ts ≤ (l.map D).sum := by
  obtain ⟨h1, h2, h3⟩ := ho
  induction l generalizing ds ts with
  | nil =>
    cases h1
    cases ts with
    | nil => simp [hsum]
    | cons t ts => exact h3.elim
  | cons i l ih =>
    unfold LBDD.dlms at h1
    obtain ⟨d, c1, e1, h1⟩ := bind_ok_inv h1
    obtain ⟨ds', c2, e2, h1⟩ := bind_ok_inv h1
    cases h1
    have hd : c.del[i]? = some d ∧ c1 = c := by
      unfold dlm at e1
      cases h : c.del[i]? with
      | none => rw [h] at e1; cases e1
      | some d' => rw [h] at e1; cases e1; exact ⟨rfl, rfl⟩
    obtain ⟨hd, rfl⟩ := hd
    cases ts with
    | nil => exact h3.elim
    | cons t ts =>
      have := ih (fun k hk => hD k (by simp [hk])) e2 (fun k hk => h2 k (by simp [hk])) h3.2
      obtain ⟨q, hq⟩ := cpath_of_height h3.1
      have := hD i (by simp) d hd q _ hq
      simp only [hsum, List.map_cons, List.sum_cons] at *
      omega

theorem Operands.vars {l ds : List Nat} {ts : List Tree} (hC : CReachable cfg c) (hl : ∀ i ∈ l, i < c.nrBdds) (ho : Operands c l ds ts)
    (hord : ∀ i ∈ l, c.Ordered i) {vs : List Nat} (hvs : ∀ i ∈ l, ∀ v, c.Var i v → v ∈ vs) :
    (∀ t ∈ ts, t.Ordered) ∧ ∀ t ∈ ts, ∀ w, t.Mem w → w ∈ vs ∧ 0 ≤ w := by
  obtain ⟨_, h2, h3⟩ := ho.conj hC.inv hl
  refine ⟨h2 hord, fun t ht w hw => ⟨?_, Nat.zero_le _⟩⟩
  obtain ⟨i, hi, hv⟩ := h3 t ht w hw
  exact hvs i hi w hv

theorem AndRun.no_hang {st : List Instr} {run : Cfg → Nat → Res Coll (Option Nat)} (h : AndRun c st run) : run cfg limit ≠ .hang := by
  rw [h cfg limit]
  split
  · intro h; cases h
  · split
    · split <;> intro h <;> cases h
    · intro h; cases h

theorem within2 (hC : CReachable cfg c) (hi : i < c.nrBdds) (hj : j < c.nrBdds)
    (hf : ∀ {ds ts}, Operands c [i, j] ds ts → FitC c.ins n ds) :
    bddAndWithin cfg n i j limit c = bddAnd cfg i j limit c ∧ bddAnd cfg i j limit c ≠ .hang := by
  have hl : ∀ k ∈ [i, j], k < c.nrBdds := by intro k hk; simp at hk; rcases hk with rfl | rfl <;> assumption
  obtain ⟨ds, ts, ho⟩ := hC.inv.operands hl
  have hlen : ∃ f g, ds = [f, g] := by
    have := ho.dlms
    unfold dlms at this
    obtain ⟨f, c1, _, h⟩ := bind_ok_inv this
    obtain ⟨l1, c2, h2, h⟩ := bind_ok_inv h
    unfold dlms at h2
    obtain ⟨g, c3, _, h2⟩ := bind_ok_inv h2
    obtain ⟨l2, c4, h3, h2⟩ := bind_ok_inv h2
    cases h3; cases h2; cases h
    exact ⟨f, g, rfl⟩
  obtain ⟨f, g, rfl⟩ := hlen
  have e1 := andStart_run (cfg := cfg) (limit := limit) hC.inv hl
  have nh : bddAnd cfg i j limit c ≠ .hang := by
    obtain ⟨st, root, _, hr⟩ := bddAnd_run hC.inv hi hj ho
    exact hr.no_hang (cfg := cfg) (limit := limit)
  refine ⟨?_, nh⟩
  by_cases hb : cfg.ndebug = false ∧ limit ≤ 2
  · rw [if_pos hb] at e1
    unfold bddAndWithin bddAnd
    rw [M.bind_assertFail e1, M.bind_assertFail e1]
  · rw [if_neg hb] at e1
    unfold bddAndWithin bddAnd
    rw [M.bind_ok e1, M.bind_ok e1, M.bind_ok (dlms_startC ho.dlms), M.bind_ok (dlms_startC ho.dlms), M.get_bind_apply]
    have h1 := (andImpl2_fit (limit := limit) n f g (startC c) ts (startC_inv hC.inv) ho.wf ho.reprs (hf ho)).no_hang
    have h2 := (andImpl2_ok (limit := limit) (andFuel (startC c) [f, g]) f g (startC c) ts (startC_inv hC.inv) ho.wf ho.reprs
      (by have := msr_le c.ins [f, g]; unfold andFuel; exact Nat.lt_succ_of_le this)).no_hang
    have := Cut.stable (F := fun n => andImpl2 limit n [f, g]) (fun n => andImpl2_cut n [f, g]) h1 h2
    show M.bind _ _ _ = M.bind _ _ _
    unfold M.bind
    rw [this]

theorem withinN (hC : CReachable cfg c) {l : List Nat} (hl : ∀ i ∈ l, i < c.nrBdds) (hf : ∀ {ds ts}, Operands c l ds ts → FitC c.ins n ds) :
    bddAndNWithin cfg n l limit c = bddAndN cfg l limit c ∧ bddAndN cfg l limit c ≠ .hang := by
  obtain ⟨ds, ts, ho⟩ := hC.inv.operands hl
  have e1 := andStart_run (cfg := cfg) (limit := limit) hC.inv hl
  have nh : bddAndN cfg l limit c ≠ .hang := by
    obtain ⟨st, root, _, hr⟩ := bddAndN_run hC.inv hl ho
    exact hr.no_hang (cfg := cfg) (limit := limit)
  refine ⟨?_, nh⟩
  by_cases hb : cfg.ndebug = false ∧ limit ≤ 2
  · rw [if_pos hb] at e1
    unfold bddAndNWithin bddAndN
    rw [M.bind_assertFail e1, M.bind_assertFail e1]
  · rw [if_neg hb] at e1
    unfold bddAndNWithin bddAndN
    rw [M.bind_ok e1, M.bind_ok e1, M.bind_ok (dlms_startC ho.dlms), M.bind_ok (dlms_startC ho.dlms), M.get_bind_apply]
    have h1 := (andImplN_fit (limit := limit) n ds (startC c) ts (startC_inv hC.inv) ho.wf ho.reprs (hf ho)).no_hang
    have h2 := (andImplN_ok (limit := limit) (andFuel (startC c) ds) ds (startC c) ts (startC_inv hC.inv) ho.wf ho.reprs
      (by have := msr_le c.ins ds; unfold andFuel; exact Nat.lt_succ_of_le this)).no_hang
    have := Cut.stable (F := fun n => andImplN limit n ds) (fun n => andImplN_cut n ds) h1 h2
    show M.bind _ _ _ = M.bind _ _ _
    unfold M.bind
    rw [this]

/-- C79, `bdd_and(i, j)`, all entries: the sum of the depths, plus 1. -/
theorem C79_and (hC : CReachable cfg c) (hi : i < c.nrBdds) (hj : j < c.nrBdds) {di dj : Nat} (Di : c.DepthAtMost i di) (Dj : c.DepthAtMost j dj)
    (hn : di + dj + 1 ≤ n) : bddAndWithin cfg n i j limit c = bddAnd cfg i j limit c ∧ bddAnd cfg i j limit c ≠ .hang := by
  refine within2 hC hi hj fun {ds ts} ho => .of_height n ds ts ho.reprs ?_
  by_cases hij : i = j
  · subst hij
    have := ho.hsum_le (D := fun _ => min di dj) (by
      intro k hk d0 h q k' hp
      simp at hk; subst hk
      have := Di d0 h q k' hp
      have := Dj d0 h q k' hp
      omega)
    simp at this; omega
  · have := ho.hsum_le (D := fun k => if k = i then di else dj) (by
      intro k hk
      simp at hk
      rcases hk with rfl | rfl
      · simpa using Di
      · rw [if_neg (fun h => hij h.symm)]; exact Dj)
    simp [show ¬ j = i from fun h => hij h.symm] at this; omega

/-- C79, `bdd_and(i, j)`, ordered entries: the number of variables of both, plus 1. -/
theorem C79_and_ordered (hC : CReachable cfg c) (hi : i < c.nrBdds) (hj : j < c.nrBdds) (oi : c.Ordered i) (oj : c.Ordered j) {vs : List Nat}
    (hvs : ∀ v, c.Var i v ∨ c.Var j v → v ∈ vs) (hn : vs.length + 1 ≤ n) :
    bddAndWithin cfg n i j limit c = bddAnd cfg i j limit c ∧ bddAnd cfg i j limit c ≠ .hang := by
  refine within2 hC hi hj fun {ds ts} ho => ?_
  have hl : ∀ k ∈ [i, j], k < c.nrBdds := by intro k hk; simp at hk; rcases hk with rfl | rfl <;> assumption
  have h := ho.vars hC hl (by intro k hk; simp at hk; rcases hk with rfl | rfl <;> assumption) (vs := vs) (by
    intro k hk v hv
    simp at hk
    rcases hk with rfl | rfl
    · exact hvs v (Or.inl hv)
    · exact hvs v (Or.inr hv))
  exact .of_ordered n 0 ds ts ho.reprs h.1 h.2 (by rw [filter_zero]; omega)

/-- C79, `bdd_and` of a sequence, all entries: the sum of the depths, plus 1. -/
theorem C79_range (hC : CReachable cfg c) {l : List Nat} (hl : ∀ i ∈ l, i < c.nrBdds) {D : Nat → Nat} (hD : ∀ i ∈ l, c.DepthAtMost i (D i))
    (hn : (l.map D).sum + 1 ≤ n) : bddAndNWithin cfg n l limit c = bddAndN cfg l limit c ∧ bddAndN cfg l limit c ≠ .hang :=
  withinN hC hl fun {ds ts} ho => .of_height n ds ts ho.reprs (by have := ho.hsum_le hD; omega)

/-- C79, `bdd_and` of a sequence, ordered entries: the number of variables of all of them, plus 1, however long the sequence is. -/
theorem C79_range_ordered (hC : CReachable cfg c) {l : List Nat} (hl : ∀ i ∈ l, i < c.nrBdds) (ho : ∀ i ∈ l, c.Ordered i) {vs : List Nat}
    (hvs : ∀ i ∈ l, ∀ v, c.Var i v → v ∈ vs) (hn : vs.length + 1 ≤ n) :
    bddAndNWithin cfg n l limit c = bddAndN cfg l limit c ∧ bddAndN cfg l limit c ≠ .hang :=
  withinN hC hl fun {ds ts} h => by
    have h' := h.vars hC hl ho hvs
    exact .of_ordered n 0 ds ts h.reprs h'.1 h'.2 (by rw [filter_zero]; omega)

/-- C79: an ordered entry is not deeper than the number of its variables. -/
theorem C79_depth (hC : CReachable cfg c) (hi : i < c.nrBdds) (oi : c.Ordered i) {vs : List Nat} (hvs : ∀ v, c.Var i v → v ∈ vs) :
    c.DepthAtMost i vs.length := by
  intro d0 hd q k hp
  obtain ⟨d0', d1, he, hwr⟩ := hC.inv.wf i hi
  obtain rfl : d0' = d0 := by have := he.1; rw [hd] at this; exact (Option.some.inj this).symm
  have two := hwr.two
  have hin : InWf c.ins d0' := ⟨d0', d1, hwr, Nat.le_refl _, by omega⟩
  obtain ⟨t, ht⟩ := hin.repr
  have h1 := hp.le_height ht
  have ho : Operands c [i] [d0'] [t] := by
    refine ⟨?_, by simpa using hin, ht, trivial⟩
    unfold LBDD.dlms
    rw [M.bind_ok (a := d0') (s' := c) (by unfold dlm; rw [hd])]
    rfl
  have hv := ho.vars hC (by simpa using hi) (by simpa using oi) (vs := vs) (by simpa using hvs)
  have h2 := height_le_vars (vs := vs) (k := 0) (hv.1 t (by simp)) (hv.2 t (by simp))
  rw [filter_zero] at h2
  omega

end

/-! ## Concrete case -/

def isHang {σ α : Type} (o : Res σ α) : Bool := match o with | .hang => true | _ => false
theorem isHang_sound {σ α : Type} {o : Res σ α} (h : isHang o = true) : o = .hang := by
  cases o <;> first | rfl | cases h

/-- The hypotheses are met, and the bound is sharp: the conjunction of entries 2 and 3 of the demo collection (three variables) needs four nested calls. -/
theorem C79_concrete : (∀ limit, bddAndWithin (envOf true) 4 2 3 limit (demoC true) = bddAnd (envOf true) 2 3 limit (demoC true)) ∧
    bddAndWithin (envOf true) 3 2 3 100 (demoC true) = .hang := by
  refine ⟨fun limit => ?_, ?_⟩
  · refine (C79_and_ordered (demoC_reachable true) (by rw [demoC_nrBdds]; omega) (by rw [demoC_nrBdds]; omega) (demoC_ordered true 2 (by omega))
      (demoC_ordered true 3 (by omega)) (vs := [0, 1, 2]) ?_ (by decide)).1
    intro v hv
    have : v < 3 := by rcases hv with h | h <;> exact demoC_vars true _ (by omega) v h
    have : v = 0 ∨ v = 1 ∨ v = 2 := by omega
    simpa using this
  · exact isHang_sound (by decide +kernel)
end LBDD
