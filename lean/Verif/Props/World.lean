import Verif.Spec.World
import Verif.Props.System
import Verif.Props.Safe
import Verif.Props.Twin
/-!
# Several managers and several collections (C89)
-/
namespace LBDD

section
variable {env : Nat → Cfg} {us : Nat → Use} {W W' : World} {T T' : WStore}

/-- The managers are in the same build. -/
def SameBuild (env : Nat → Cfg) : Prop := ∀ i, (env i).ndebug = (env 0).ndebug

theorem cEvalLoop_congr {e1 e2 : Cfg} (h : e1.ndebug = e2.ndebug) (c : Coll) (x : List Bool) : ∀ n i, cEvalLoop e1 c x n i = cEvalLoop e2 c x n i
  | 0, _ => rfl
  | n + 1, i => by
    unfold cEvalLoop
    rw [h]
    simp only [cEvalLoop_congr h c x n]

theorem cEvaluate_congr {e1 e2 : Cfg} (h : e1.ndebug = e2.ndebug) (c : Coll) (nr : Nat) (x : List Bool) : cEvaluate e1 c nr x = cEvaluate e2 c nr x := by
  unfold cEvaluate
  simp only [h, cEvalLoop_congr h]

theorem CLooks.congr {e1 e2 : Cfg} (h : e1.ndebug = e2.ndebug) {c : Coll} {es : Entries} (hl : CLooks e1 c es) : CLooks e2 c es :=
  ⟨hl.len, fun nr e he => ⟨(hl.entry nr e he).1, fun x hx => by rw [← cEvaluate_congr h]; exact (hl.entry nr e he).2 x hx⟩⟩

/-- Everything is reachable. -/
structure World.Reach (env : Nat → Cfg) (us : Nat → Use) (W : World) : Prop where
  mgr : ∀ (i : Nat) (a : Api), W.mgrs[i]? = some a → Reachable (env i) (us i) a
  coll : ∀ (k : Nat) (c : Coll), W.colls[k]? = some c → CReachable (env 0) c

theorem set_cases {α : Type} {l : List α} {i j : Nat} {a b : α} (h : (l.set i a)[j]? = some b) : (i = j ∧ b = a) ∨ (i ≠ j ∧ l[j]? = some b) := by
  rw [List.getElem?_set] at h
  split at h
  · rename_i e
    split at h
    · left; exact ⟨e, by injection h with h; exact h.symm⟩
    · cases h
  · rename_i e
    exact Or.inr ⟨e, h⟩

theorem append_cases {α : Type} {l : List α} {j : Nat} {a b : α} (h : (l ++ [a])[j]? = some b) : (j = l.length ∧ b = a) ∨ l[j]? = some b := by
  rw [List.getElem?_append] at h
  split at h
  · exact Or.inr h
  · rename_i e
    left
    have : j - l.length = 0 := by
      refine Classical.byContradiction fun hn => ?_
      rw [List.getElem?_eq_none (by simp; omega)] at h
      cases h
    rw [this] at h
    simp at h
    exact ⟨by omega, h.symm⟩

theorem World.Reach.step (hb : SameBuild env) (h : W.Reach env us) {op : WOp} {r : Option Nat} (hl : op.Legal env us W) (d : World.Does env W W' op r) :
    W'.Reach env us := by
  cases op with
  | newMgr =>
    obtain ⟨_, rfl⟩ := d
    refine ⟨fun i a e => ?_, h.coll⟩
    rcases append_cases e with ⟨rfl, rfl⟩ | e
    · exact .init
    · exact h.mgr i a e
  | newColl =>
    obtain ⟨_, rfl⟩ := d
    refine ⟨h.mgr, fun k c e => ?_⟩
    rcases append_cases e with ⟨rfl, rfl⟩ | e
    · exact .init
    · exact h.coll k c e
  | copyColl k0 =>
    obtain ⟨_, c0, e0, rfl⟩ := d
    refine ⟨h.mgr, fun k c e => ?_⟩
    rcases append_cases e with ⟨rfl, rfl⟩ | e
    · exact h.coll k0 _ e0
    · exact h.coll k c e
  | mgr i0 op =>
    obtain ⟨_, a, a', e0, e1, rfl⟩ := d
    refine ⟨fun i b e => ?_, h.coll⟩
    rcases set_cases e with ⟨rfl, rfl⟩ | ⟨_, e⟩
    · exact .step (h.mgr _ _ e0) (hl a e0) e1
    · exact h.mgr i b e
  | coll k0 op =>
    obtain ⟨c, c', e0, e1, rfl⟩ := d
    refine ⟨h.mgr, fun k b e => ?_⟩
    rcases set_cases e with ⟨rfl, rfl⟩ | ⟨_, e⟩
    · exact .step (h.coll _ _ e0) rfl (hl c e0) (COp.run_of_call e1)
    · exact h.coll k b e
  | move i0 k0 op =>
    obtain ⟨_, S, S', e0, e1, e2, rfl⟩ := d
    obtain ⟨h1, h2⟩ := e2.reachable (h.mgr _ _ e0) ((h.coll _ _ e1).congr (hb i0).symm) (hl S e0 e1)
    refine ⟨fun i b e => ?_, fun k b e => ?_⟩
    · rcases set_cases e with ⟨rfl, rfl⟩ | ⟨_, e⟩
      · exact h1
      · exact h.mgr i b e
    · rcases set_cases e with ⟨rfl, rfl⟩ | ⟨_, e⟩
      · exact h2.congr (hb i0)
      · exact h.coll k b e

theorem WHistory.reach (hb : SameBuild env) {h : List (WOp × Option Nat)} (hh : WHistory env us h W) : W.Reach env us := by
  induction hh with
  | init => exact ⟨fun i a h => by simp at h, fun i a h => by simp at h⟩
  | step _ hl d ih => exact ih.step hb hl d

theorem other {α β : Type} {l : List α} {m : List β} (h : l.length = m.length) {i : Nat} {a : α} (e : l[i]? = some a) : ∃ b, m[i]? = some b := by
  obtain ⟨h1, _⟩ := List.getElem?_eq_some_iff.1 e
  exact ⟨m[i]'(by omega), List.getElem?_eq_getElem (by omega)⟩

/-- If every step of a manager, alone and with a collection, is a step of its specification, then every step of the program is a step of the specification. -/
theorem world_step {M : Nat → Nat → Fn → List BoolFn → Nat → List BoolFn → Prop} {I : Nat → Nat → BoolFn → BoolFn → Prop} (hb : SameBuild env)
    (hM : ∀ (i : Nat) {a a' : Api} {R : Store} {op : Op}, Reachable (env i) (us i) a → Looks (env i) a R → Legal (env i) (us i) a op → LBDD.step (env i) op a = .ok () a' →
      ∃ R', Store.StepBy (M i) R R' op ∧ Looks (env i) a' R')
    (hS : ∀ (i : Nat) {S S' : Sys} {T : SStore} {op : SOp} {r : Option Nat}, Reachable (env i) (us i) S.api → CReachable (env i) S.coll → SLooks (env i) S T →
      op.Legal (env i) (us i) S → Sys.Does (env i) S S' op r → ∃ T', SStore.StepBy (M i) (I i) T T' op r ∧ SLooks (env i) S' T')
    (hW : W.Reach env us) (h : WLooks env W T) {op : WOp} {r : Option Nat} (hl : op.Legal env us W)
    (d : World.Does env W W' op r) : ∃ T', WStore.StepBy M I T T' op r ∧ WLooks env W' T' := by
  cases op with
  | newMgr =>
    obtain ⟨rfl, rfl⟩ := d
    refine ⟨_, ⟨rfl, rfl⟩, by simp [h.nrMgrs], h.nrColls, fun i a R e1 e2 => ?_, h.coll⟩
    rcases append_cases e1 with ⟨rfl, rfl⟩ | e1'
    · rcases append_cases e2 with ⟨_, rfl⟩ | e2
      · exact looks_init
      · rw [h.nrMgrs, List.getElem?_eq_none (Nat.le_refl _)] at e2; cases e2
    · rcases append_cases e2 with ⟨rfl, _⟩ | e2
      · rw [← h.nrMgrs, List.getElem?_eq_none (Nat.le_refl _)] at e1'; cases e1'
      · exact h.mgr i a R e1' e2
  | newColl =>
    obtain ⟨rfl, rfl⟩ := d
    refine ⟨_, ⟨rfl, rfl⟩, h.nrMgrs, by simp [h.nrColls], h.mgr, fun i a R e1 e2 => ?_⟩
    rcases append_cases e1 with ⟨rfl, rfl⟩ | e1'
    · rcases append_cases e2 with ⟨_, rfl⟩ | e2
      · exact ⟨rfl, fun nr e h => by simp at h⟩
      · rw [h.nrColls, List.getElem?_eq_none (Nat.le_refl _)] at e2; cases e2
    · rcases append_cases e2 with ⟨rfl, _⟩ | e2
      · rw [← h.nrColls, List.getElem?_eq_none (Nat.le_refl _)] at e1'; cases e1'
      · exact h.coll i a R e1' e2
  | copyColl k0 =>
    obtain ⟨rfl, c0, e0, rfl⟩ := d
    obtain ⟨es0, f0⟩ := other h.nrColls e0
    refine ⟨_, ⟨rfl, es0, f0, rfl⟩, h.nrMgrs, by simp [h.nrColls], h.mgr, fun i a R e1 e2 => ?_⟩
    rcases append_cases e1 with ⟨rfl, rfl⟩ | e1'
    · rcases append_cases e2 with ⟨_, rfl⟩ | e2
      · exact h.coll k0 _ _ e0 f0
      · rw [h.nrColls, List.getElem?_eq_none (Nat.le_refl _)] at e2; cases e2
    · rcases append_cases e2 with ⟨rfl, _⟩ | e2
      · rw [← h.nrColls, List.getElem?_eq_none (Nat.le_refl _)] at e1'; cases e1'
      · exact h.coll i a R e1' e2
  | mgr i0 op =>
    obtain ⟨rfl, a, a', e0, e1, rfl⟩ := d
    obtain ⟨R, f0⟩ := other h.nrMgrs e0
    obtain ⟨R', h1, h2⟩ := hM i0 (hW.mgr i0 a e0) (h.mgr _ _ _ e0 f0) (hl a e0) e1
    refine ⟨_, ⟨rfl, R, R', f0, h1, rfl⟩, by simp [h.nrMgrs], h.nrColls, fun i b Q e2 e3 => ?_, h.coll⟩
    rcases set_cases e2 with ⟨rfl, rfl⟩ | ⟨hne, e2⟩
    · rcases set_cases e3 with ⟨_, rfl⟩ | ⟨hne, _⟩
      · exact h2
      · exact absurd rfl hne
    · rcases set_cases e3 with ⟨rfl, _⟩ | ⟨_, e3⟩
      · exact absurd rfl hne
      · exact h.mgr i b Q e2 e3
  | coll k0 op =>
    obtain ⟨c, c', e0, e1, rfl⟩ := d
    obtain ⟨es, f0⟩ := other h.nrColls e0
    obtain ⟨es', h1, h2⟩ := coll_step (hW.coll k0 c e0) (h.coll _ _ _ e0 f0) (hl c e0) e1
    refine ⟨_, ⟨es, es', f0, h1, rfl⟩, h.nrMgrs, by simp [h.nrColls], h.mgr, fun i b Q e2 e3 => ?_⟩
    rcases set_cases e2 with ⟨rfl, rfl⟩ | ⟨hne, e2⟩
    · rcases set_cases e3 with ⟨_, rfl⟩ | ⟨hne, _⟩
      · exact h2
      · exact absurd rfl hne
    · rcases set_cases e3 with ⟨rfl, _⟩ | ⟨_, e3⟩
      · exact absurd rfl hne
      · exact h.coll i b Q e2 e3
  | move i0 k0 op =>
    obtain ⟨_, S, S', e0, e1, e2, rfl⟩ := d
    obtain ⟨R, f0⟩ := other h.nrMgrs e0
    obtain ⟨es, f1⟩ := other h.nrColls e1
    obtain ⟨Q, h1, h2⟩ := hS i0 (T := ⟨R, es⟩) (hW.mgr i0 _ e0) ((hW.coll k0 _ e1).congr (hb i0).symm)
      ⟨h.mgr _ _ _ e0 f0, (h.coll _ _ _ e1 f1).congr (hb i0).symm⟩ (hl S e0 e1) e2
    refine ⟨_, ⟨⟨R, es⟩, Q, f0, f1, h1, rfl⟩, by simp [h.nrMgrs], by simp [h.nrColls], fun i b Q e2 e3 => ?_, fun i b Q e2 e3 => ?_⟩
    · rcases set_cases e2 with ⟨rfl, rfl⟩ | ⟨hne, e2⟩
      · rcases set_cases e3 with ⟨_, rfl⟩ | ⟨hne, _⟩
        · exact h2.api
        · exact absurd rfl hne
      · rcases set_cases e3 with ⟨rfl, _⟩ | ⟨_, e3⟩
        · exact absurd rfl hne
        · exact h.mgr i b Q e2 e3
    · rcases set_cases e2 with ⟨rfl, rfl⟩ | ⟨hne, e2⟩
      · rcases set_cases e3 with ⟨_, rfl⟩ | ⟨hne, _⟩
        · exact h2.coll.congr (hb i0)
        · exact absurd rfl hne
      · rcases set_cases e3 with ⟨rfl, _⟩ | ⟨_, e3⟩
        · exact absurd rfl hne
        · exact h.coll i b Q e2 e3

/-- Every step of the program is a step of the specification, with the same result. -/
theorem C89_step_partial (hb : SameBuild env) (hu : ∀ i, us i ≠ .mixed) (hW : W.Reach env us) (h : WLooks env W T) {op : WOp} {r : Option Nat} (hl : op.Legal env us W)
    (d : World.Does env W W' op r) : ∃ T', WStore.Step env us T T' op r ∧ WLooks env W' T' :=
  world_step hb (fun i _ _ _ _ hR h hl e => C81_step_partial (hu i) hR h hl e) (fun i _ _ _ _ _ hR hC h hl d => C82_step_partial (hu i) hR hC h hl d) hW h hl d

/-- **C89**: after every history of a program with any number of managers and collections, every manager looks like its store of functions and every collection like
its list of functions. -/
theorem C89_world_partial (hb : SameBuild env) (hu : ∀ i, us i ≠ .mixed) {h : List (WOp × Option Nat)} (hh : WHistory env us h W) :
    ∃ T, WStore.Runs env us h T ∧ WLooks env W T := by
  induction hh with
  | init => exact ⟨⟨[], []⟩, .init, rfl, rfl, fun i a R e => by simp at e, fun i a R e => by simp at e⟩
  | step hh hl d ih =>
    obtain ⟨T, h1, h2⟩ := ih
    obtain ⟨T', h3, h4⟩ := C89_step_partial hb hu (hh.reach hb) h2 hl d
    exact ⟨T', .step h1 h3, h4⟩
end

section
variable {e1 e2 : Cfg} {u1 u2 : Use} {a1 a2 : Api} {c : Coll} {p q : Nat}

/-- C89: a BDD that is added to a collection by one manager and exported into another manager has the same function there. -/
theorem C89_transfer (hb : e1.ndebug = e2.ndebug) (h1 : Reachable e1 u1 a1) (h2 : Reachable e2 u2 a2) (hC : CReachable e1 c) (hp : a1.Holds p) (p2 : 2 ≤ p)
    (hv : ∀ v, Occurs a1.mgr p v → v < a2.mgr.nvars) (ho : u2 = .ordered → u1 = .ordered) :
    ∃ c', addBdd e1 p (a1.mgr, c) = .ok c.nrBdds (a1.mgr, c') ∧
      Returns (exportBdd e2 c' c.nrBdds a2.mgr) (fun r s' => s'.nvars = a2.mgr.nvars ∧ SameFnOf e1 a1.mgr p e2 s' r) := by
  obtain ⟨t, ht⟩ := h1.good.any hp
  obtain ⟨c', d0, d1, L, e, h⟩ := added (cfg := e1) h1.good hC.inv ht p2
  have hC' : CReachable e1 c' := .add hC rfl h1 hp p2 e
  refine ⟨c', e, ?_⟩
  obtain ⟨c1, _, f1, _, f2, _⟩ := C39_add_bdd h1 hC hp p2
  rw [e] at f1
  cases f1
  have hbig : c'.Big c.nrBdds := by
    intro a b he
    obtain ⟨rfl, rfl⟩ := he.unique h.entry
    have := h.size
    have := List.length_pos_iff.2 h.ne
    omega
  have := C40_export_any (nr := c.nrBdds) h2 (hC'.congr hb) (by rw [h.nr]; omega) hbig (fun v hv' => hv v ((h.var v).1 hv')) (fun hu => h.ordered (Use.ordered_iff.2 (ho hu)))
  refine this.mono ?_
  rintro r s' ⟨g1, g2⟩
  refine ⟨g1, fun x x1 x2 => ?_⟩
  rw [g2 x x2, ← cEvaluate_congr hb, f2 x x1]

/-- C89: managers are canonical for each other: if the second manager holds a BDD `q` of the same function, moving `p` there gives `q`, without a new node. -/
theorem C89_transfer_handle (h1 : Reachable e1 .ordered a1) (h2 : Reachable e2 .ordered a2) (hC : CReachable e1 c) (hp : a1.Holds p)
    (p2 : 2 ≤ p) (hq : a2.Holds q) (hf : SameFnOf e1 a1.mgr p e2 a2.mgr q) :
    ∃ c', addBdd e1 p (a1.mgr, c) = .ok c.nrBdds (a1.mgr, c') ∧ exportBdd e2 c' c.nrBdds a2.mgr = .ok q a2.mgr := by
  obtain ⟨t, ht⟩ := h1.good.any hp
  obtain ⟨tq, hq'⟩ := h2.good.any hq
  obtain ⟨c', d0, d1, L, e, h⟩ := added (cfg := e1) h1.good hC.inv ht p2
  have hC' : CReachable e1 c' := .add hC rfl h1 hp p2 e
  refine ⟨c', e, ?_⟩
  obtain ⟨c1, _, f1, _, f2, _⟩ := C39_add_bdd h1 hC hp p2
  rw [e] at f1
  cases f1
  have hbig : c'.Big c.nrBdds := by
    intro a b he
    obtain ⟨rfl, rfl⟩ := he.unique h.entry
    have := h.size
    have := List.length_pos_iff.2 h.ne
    omega
  have hord : Use.ordered.md.ordered := Use.ordered_iff.2 rfl
  -- the trees agree
  have ev : ∀ x : Assign, t.eval x = tq.eval x := by
    intro y
    have n1 := covers_toList a1.mgr y
    have n2 := covers_toList a2.mgr y
    have l1 : Covers a1.mgr (toList (max a1.mgr.nvars a2.mgr.nvars) y) := by
      unfold Covers; rw [toList_length]; omega
    have l2 : Covers a2.mgr (toList (max a1.mgr.nvars a2.mgr.nvars) y) := by
      unfold Covers; rw [toList_length]; omega
    have := hf _ l1 l2
    rw [show evaluate e1 a1.mgr p _ = _ from evals_repr h1.good ht l1, show evaluate e2 a2.mgr q _ = _ from evals_repr h2.good hq' l2] at this
    injection this with this
    have g1 : t.eval (asg (toList (max a1.mgr.nvars a2.mgr.nvars) y)) = t.eval y :=
      Tree.eval_congr (fun w hw => asg_toList (Nat.lt_of_lt_of_le (h1.good.mem_lt ht hw) (Nat.le_max_left _ _)))
    have g2 : tq.eval (asg (toList (max a1.mgr.nvars a2.mgr.nvars) y)) = tq.eval y :=
      Tree.eval_congr (fun w hw => asg_toList (Nat.lt_of_lt_of_le (h2.good.mem_lt hq' hw) (Nat.le_max_right _ _)))
    rw [← g1, ← g2]
    exact this
  have et : t = tq := Tree.eq_of_eval (h1.good.ord hord _ _ ht) (h2.good.ord hord _ _ hq') (h1.good.reduced ht) (h2.good.reduced hq') ev
  subst et
  exact exportBdd_hit h2.good h.wf h.entry (hbig _ _ h.entry) h.connected h.repr hq'

/-- C89: `mgr.add_bdd(collection, nr)` of the second manager creates the missing variables (in histories without `xor_rec`; in debug builds for collections of at most
1002 instructions, see `C41_refuted`). -/
theorem C89_import (hb : e1.ndebug = e2.ndebug) (h1 : Reachable e1 .ordered a1) (hu : u2 = .ordered ∨ u2 = .unordered) (h2 : Reachable e2 u2 a2) (hC : CReachable e1 c)
    (hp : a1.Holds p) (p2 : 2 ≤ p) :
    ∃ c', addBdd e1 p (a1.mgr, c) = .ok c.nrBdds (a1.mgr, c') ∧ ((e2.ndebug = true ∨ c'.ins.length ≤ 1002) →
      Returns (mgrAddBdd e2 c' c.nrBdds a2.mgr) (fun r s' => SameFnOf e1 a1.mgr p e2 s' r)) := by
  obtain ⟨t, ht⟩ := h1.good.any hp
  obtain ⟨c', d0, d1, L, e, h⟩ := added (cfg := e1) h1.good hC.inv ht p2
  have hC' : CReachable e1 c' := .add hC rfl h1 hp p2 e
  refine ⟨c', e, fun hd => ?_⟩
  obtain ⟨c1, _, f1, _, f2, _⟩ := C39_add_bdd h1 hC hp p2
  rw [e] at f1
  cases f1
  have hvar : ∀ v, c'.Var c.nrBdds v → v < a1.mgr.nvars := fun v hv => h1.good.mem_lt ht ((occurs_iff ht v).1 ((h.var v).1 hv))
  have hle : d1 ≤ c'.ins.length := by
    obtain ⟨_, _, _, hy, _⟩ := (h.wf.entry h.entry).sinks
    have := (h.wf.entry h.entry).two
    obtain ⟨hlt, _⟩ := List.getElem?_eq_some_iff.1 hy
    omega
  have := C41_import_partial (nr := c.nrBdds) hu h2 (hC'.congr hb) (by rw [h.nr]; omega) (h.ordered (Use.ordered_iff.2 rfl))
    (fun v hv => Nat.lt_of_lt_of_le (hvar v hv) h1.good.nv) (hd.imp id fun hd d hd1 => by rw [h.entry.2] at hd1; cases hd1; omega)
  refine this.mono ?_
  intro r s' g x x1 x2
  have cov : CCovers c' c.nrBdds x := fun v hv => Nat.lt_of_lt_of_le (hvar v hv) x1
  rw [g x x2 cov, ← cEvaluate_congr hb, f2 x x1]
end

/-! ## A concrete program -/

/-- Execute a step if it is legal. -/
def wExec (env : Nat → Cfg) (us : Nat → Use) (W : World) : WOp → Option (Option Nat × World)
  | .newMgr => some (none, { W with mgrs := W.mgrs ++ [Api.init (env W.mgrs.length)] })
  | .newColl => some (none, { W with colls := W.colls ++ [Coll.init] })
  | .copyColl k => match W.colls[k]? with | some c => some (none, { W with colls := W.colls ++ [c] }) | none => none
  | .mgr i op =>
    match W.mgrs[i]? with
    | some a => if legalCheck (us i) a op then (match LBDD.step (env i) op a with | .ok _ a' => some (none, { W with mgrs := W.mgrs.set i a' }) | _ => none) else none
    | none => none
  | .move i k (.add h) =>
    match W.mgrs[i]?, W.colls[k]? with
    | some a, some c => match sysExec (env i) (us i) ⟨a, c⟩ (.add h) with | some (r, S') => some (r, ⟨W.mgrs.set i S'.api, W.colls.set k S'.coll⟩) | none => none
    | _, _ => none
  | .move i k (.importEntry nr) =>
    match W.mgrs[i]?, W.colls[k]? with
    | some a, some c => match sysExec (env i) (us i) ⟨a, c⟩ (.importEntry nr) with | some (r, S') => some (r, ⟨W.mgrs.set i S'.api, W.colls.set k S'.coll⟩) | none => none
    | _, _ => none
  | _ => none

theorem wExec_sound {env : Nat → Cfg} {us : Nat → Use} (hb : SameBuild env) {W W' : World} {op : WOp} {r : Option Nat} (hW : W.Reach env us)
    (h : wExec env us W op = some (r, W')) : op.Legal env us W ∧ World.Does env W W' op r := by
  have move : ∀ {i k : Nat} {sop : SOp} {a : Api} {c : Coll} {S' : Sys}, W.mgrs[i]? = some a → W.colls[k]? = some c → sop.IsMove →
      sysExec (env i) (us i) ⟨a, c⟩ sop = some (r, S') → (WOp.move i k sop).Legal env us W ∧ World.Does env W ⟨W.mgrs.set i S'.api, W.colls.set k S'.coll⟩ (.move i k sop) r := by
    intro i k sop a c S' e1 e2 hm e
    obtain ⟨h1, h2⟩ := sysExec_sound ((hW.coll k c e2).congr (hb i).symm) e
    refine ⟨?_, hm, ⟨a, c⟩, S', e1, e2, h2, rfl⟩
    rintro ⟨a', c'⟩ f1 f2
    rw [e1] at f1; rw [e2] at f2
    cases f1; cases f2
    exact h1
  cases op with
  | newMgr => cases h; exact ⟨trivial, rfl, rfl⟩
  | newColl => cases h; exact ⟨trivial, rfl, rfl⟩
  | copyColl k =>
    simp only [wExec] at h
    split at h
    · rename_i c e; cases h; exact ⟨trivial, rfl, c, e, rfl⟩
    · cases h
  | mgr i op =>
    simp only [wExec] at h
    split at h
    · rename_i a e
      split at h
      · rename_i hl
        split at h
        · rename_i a' e1
          cases h
          refine ⟨fun b hb => ?_, rfl, a, a', e, e1, rfl⟩
          rw [e] at hb; cases hb
          exact legalCheck_sound hl
        · cases h
      · cases h
    · cases h
  | coll k op => cases h
  | move i k sop =>
    cases sop with
    | add n =>
      simp only [wExec] at h
      split at h
      · rename_i a c e1 e2
        split at h
        · rename_i r' S' e3
          cases h
          exact move e1 e2 trivial e3
        · cases h
      · cases h
    | importEntry n =>
      simp only [wExec] at h
      split at h
      · rename_i a c e1 e2
        split at h
        · rename_i r' S' e3
          cases h
          exact move e1 e2 trivial e3
        · cases h
      · cases h
    | mgr op => cases h
    | exportEntry n => cases h
    | coll op => cases h

def wRun (env : Nat → Cfg) (us : Nat → Use) : List WOp → List (WOp × Option Nat) → World → Option (List (WOp × Option Nat) × World)
  | [], h, W => some (h, W)
  | op :: ops, h, W => match wExec env us W op with | some (r, W') => wRun env us ops (h ++ [(op, r)]) W' | none => none

theorem wRun_sound {env : Nat → Cfg} {us : Nat → Use} (hb : SameBuild env) : ∀ {ops : List WOp} {h h' : List (WOp × Option Nat)} {W W' : World}, WHistory env us h W →
    wRun env us ops h W = some (h', W') → WHistory env us h' W' ∧ h'.map (·.1) = h.map (·.1) ++ ops
  | [], _, _, _, _, hh, e => by cases e; exact ⟨hh, by simp⟩
  | op :: ops, h, h', W, W', hh, e => by
    unfold wRun at e
    split at e
    · rename_i r W1 e1
      obtain ⟨g1, g2⟩ := wExec_sound hb (hh.reach hb) e1
      obtain ⟨k1, k2⟩ := wRun_sound hb (.step hh g1 g2) e
      exact ⟨k1, by rw [k2]; simp⟩
    · cases e

/-- Two managers in different environments. -/
def twoEnvs : Nat → Cfg := fun i => if i = 1 then otherEnv else envOf true

theorem twoEnvs_build : SameBuild twoEnvs := by
  intro i
  unfold twoEnvs
  split <;> rfl

/-- Both managers build x0 ∧ x1, the second one with the operands exchanged; the BDD of the first manager is added to a collection, the collection is copied, and the
entry of the copy is imported into the second manager. -/
def worldOps : List WOp := [.newMgr, .newMgr, .newColl, .mgr 0 (.call (.projection 0) []), .mgr 0 (.call (.projection 1) []), .mgr 0 (.call .and [0, 1]),
  .mgr 1 (.call (.projection 1) []), .mgr 1 (.call (.projection 0) []), .mgr 1 (.call .and [0, 1]), .move 0 0 (.add 2), .copyColl 0, .move 1 1 (.importEntry 0)]

def worldRes : Option (List (WOp × Option Nat) × World) := wRun twoEnvs (fun _ => .ordered) worldOps [] ⟨[], []⟩

def worldHandles : Option (List (List (Option Nat)) × List Nat) := worldRes.map fun r => (r.2.mgrs.map (·.hs), r.2.colls.map (·.nrBdds))

theorem worldHandles_eq : worldHandles = some ([[some 2, some 3, some 4], [some 2, some 3, some 4, some 4]], [1, 1]) := by decide +kernel

/-- C89: a program that meets the hypotheses of `C89_world_partial`; the imported handle is the one the second manager already had. -/
theorem C89_concrete : SameBuild twoEnvs ∧ ∃ h W, WHistory twoEnvs (fun _ => .ordered) h W ∧ h.map (·.1) = worldOps ∧
    W.mgrs.map (·.hs) = [[some 2, some 3, some 4], [some 2, some 3, some 4, some 4]] ∧ W.colls.map (·.nrBdds) = [1, 1] := by
  refine ⟨twoEnvs_build, ?_⟩
  have h1 := worldHandles_eq
  unfold worldHandles at h1
  cases e : worldRes with
  | none => rw [e] at h1; cases h1
  | some r =>
    obtain ⟨h, W⟩ := r
    rw [e] at h1
    injection h1 with h1
    injection h1 with h1 h2
    obtain ⟨k1, k2⟩ := wRun_sound twoEnvs_build .init e
    exact ⟨h, W, k1, by simpa using k2, h1, h2⟩

end LBDD
