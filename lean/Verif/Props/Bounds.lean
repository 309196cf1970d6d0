import Verif.Spec.Bounds
import Verif.Props.Capacity
import Verif.Props.CollDemo
/-! # Bounds on the number of nodes and on the reference counts (C86) -/
namespace LBDD
variable {cfg : Cfg} {u : Use} {a : Api}

theorem mem_inUse (hR : Reachable cfg u a) {p : Nat} : p ∈ a.mgr.inUse ↔ 2 ≤ p ∧ (a.mgr.cells p).live = true := by
  unfold Mgr.inUse
  simp only [List.mem_filter, List.mem_range, Bool.and_eq_true, decide_eq_true_eq]
  exact ⟨fun h => h.2, fun h => ⟨C30_all_counted hR p h.2, h⟩⟩

theorem inUse_nodup (s : Mgr) : s.inUse.Nodup := List.Pairwise.filter _ List.nodup_range

/-- A list split into `n` classes of at most `B` elements has at most `B * n` elements. -/
theorem length_le_classes {B : Nat} {f : Nat → Nat} : ∀ (n : Nat) (l : List Nat), l.Nodup → (∀ p ∈ l, f p < n) →
    (∀ v, v < n → ∀ l' : List Nat, l'.Nodup → (∀ p ∈ l', p ∈ l ∧ f p = v) → l'.length ≤ B) → l.length ≤ B * n
  | 0, [], _, _, _ => Nat.zero_le _
  | 0, p :: l, _, h, _ => absurd (h p (by simp)) (Nat.not_lt_zero _)
  | n + 1, l, hn, hl, hb => by
    have h1 := hb n (by omega) (l.filter fun p => f p == n) (hn.filter _) (by simp)
    have h2 := length_le_classes (B := B) (f := f) n (l.filter fun p => !(f p == n)) (hn.filter _)
      (by
        intro p hp
        simp only [List.mem_filter, Bool.not_eq_true', beq_eq_false_iff_ne, ne_eq] at hp
        have := hl p hp.1
        omega)
      (fun v hv l' hn' hl' => hb v (by omega) l' hn' fun p hp => ⟨(List.mem_filter.1 (hl' p hp).1).1, (hl' p hp).2⟩)
    have h3 : l.length = (l.filter fun p => f p == n).length + (l.filter fun p => !(f p == n)).length := by
      clear hn hl hb h1 h2
      induction l with
      | nil => rfl
      | cons x l ih =>
        cases e : (f x == n) <;> simp only [List.filter_cons, e, Bool.not_true, Bool.not_false, if_true, List.length_cons, ih, Bool.false_eq_true, if_false] <;> omega
    rw [Nat.mul_add, Nat.mul_one]
    omega

/-- C86: in every reachable state no variable has more than 262145 nodes. -/
theorem C86_per_variable (hR : Reachable cfg u a) (v : Nat) {l : List Nat} (hn : l.Nodup)
    (hl : ∀ p ∈ l, 2 ≤ p ∧ (a.mgr.cells p).live = true ∧ (a.mgr.cells p).index = v) : l.length ≤ 262145 := by
  by_cases hv : v < a.mgr.nvars
  · exact table_bound hR hv hn hl
  · cases l with
    | nil => simp
    | cons p l =>
      obtain ⟨h1, h2, h3⟩ := hl p (by simp)
      have := (hR.good.node p h1 h2).1
      omega

theorem inUse_length (hR : Reachable cfg u a) : a.mgr.inUse.length ≤ 262145 * a.mgr.nvars := by
  refine length_le_classes (f := fun p => (a.mgr.cells p).index) _ _ (inUse_nodup _) (fun p hp => ?_) fun v _ l' hn hl => ?_
  · obtain ⟨h1, h2⟩ := (mem_inUse hR).1 hp
    exact (hR.good.node p h1 h2).1
  · refine C86_per_variable hR v hn fun p hp => ?_
    obtain ⟨h1, h2⟩ := (mem_inUse hR).1 (hl p hp).1
    exact ⟨h1, h2, (hl p hp).2⟩

/-- C86: a manager with `n` variables has at most `262145 * n` inner nodes. -/
theorem C86_nodes (hR : Reachable cfg u a) {l : List Nat} (hn : l.Nodup) (hl : ∀ p ∈ l, 2 ≤ p ∧ (a.mgr.cells p).live = true) :
    l.length ≤ 262145 * a.mgr.nvars :=
  Nat.le_trans (nodup_sub_length hn fun p hp => (mem_inUse hR).2 (hl p hp)) (inUse_length hR)

theorem arcsTo_le (hR : Reachable cfg u a) (p : Nat) : ∀ n, n ≤ a.mgr.pool.hw →
    arcsTo a.mgr.cells p n ≤ ((List.range n).filter fun q => decide (2 ≤ q) && (a.mgr.cells q).live).length
  | 0, _ => Nat.le_refl _
  | n + 1, h => by
    have ih := arcsTo_le hR p n (by omega)
    rw [List.range_succ, List.filter_append, List.length_append]
    unfold arcsTo
    by_cases hc : 2 ≤ n ∧ (a.mgr.cells n).live = true
    · rw [if_pos hc]
      have hne := (hR.good.node n hc.1 hc.2).2.1
      simp only [List.filter_cons, List.filter_nil, hc.1, hc.2, decide_true, Bool.and_self, if_true, List.length_cons, List.length_nil]
      have : (if (a.mgr.cells n).lo = p then 1 else 0) + (if (a.mgr.cells n).hi = p then 1 else 0) ≤ 1 := by
        split <;> split <;> first | omega | (exfalso; apply hne; simp_all)
      omega
    · rw [if_neg hc]; omega

/-- C86: the reference count of a node is at most the number of handles the client holds plus the number of inner nodes in use plus one. -/
theorem C86_counts (hR : Reachable cfg u a) {p : Nat} (hp : (a.mgr.cells p).live = true) :
    0 ≤ (a.mgr.cells p).xref ∧ (a.mgr.cells p).xref ≤ ((a.hs.countP (·.isSome) + a.mgr.inUse.length + 1 : Nat) : Int) := by
  rw [C30_xref_exact hR p hp]
  have h1 := arcsTo_le hR p _ (Nat.le_refl _)
  have h2 : a.count p ≤ a.hs.countP (·.isSome) := by
    unfold Api.count
    rw [List.count]
    exact List.countP_mono_left (fun x _ h => by cases x <;> simp_all)
  have h3 : (if p < 2 then 1 else 0) ≤ 1 := by split <;> omega
  have h4 : a.mgr.inUse.length = ((List.range a.mgr.pool.hw).filter fun q => decide (2 ≤ q) && (a.mgr.cells q).live).length := rfl
  constructor
  · split <;> omega
  · split <;> omega

/-- C86: so the counts fit into 32-bit signed integers as long as the client holds at most 2^30 handles and the manager has at most 4000 variables. -/
theorem C86_no_overflow (hR : Reachable cfg u a) (hh : a.hs.countP (·.isSome) ≤ 2 ^ 30) (hv : a.mgr.nvars ≤ 4000) {p : Nat}
    (hp : (a.mgr.cells p).live = true) : 0 ≤ (a.mgr.cells p).xref ∧ (a.mgr.cells p).xref < 2 ^ 31 := by
  have h1 := C86_counts hR hp
  have h2 := inUse_length hR
  have h3 : 262145 * a.mgr.nvars ≤ 262145 * 4000 := Nat.mul_le_mul_left _ hv
  omega

/-! The bound is attained -/

/-- A throw of `m` leaves the nodes as they were. -/
def ThrowSame {α : Type} (m : M Mgr α) : Prop := ∀ s s', m s = .throw s' → s'.cells = s.cells

/-- `m` changes no node. -/
def CellsSame {α : Type} (m : M Mgr α) : Prop := ∀ s r s', m s = .ok r s' → s'.cells = s.cells

/-- `m` does not throw. -/
def Tame {α : Type} (m : M Mgr α) : Prop := ∀ s s', m s ≠ .throw s'

section
variable {α β : Type}
theorem Tame.same {m : M Mgr α} (h : Tame m) : ThrowSame m := fun s s' e => absurd e (h s s')

theorem ThrowSame.bind {m : M Mgr α} {f : α → M Mgr β} (h1 : ThrowSame m) (h2 : CellsSame m) (h3 : ∀ r, ThrowSame (f r)) : ThrowSame (m >>= f) := by
  intro s s' e
  have e : M.bind m f s = .throw s' := e
  unfold M.bind at e
  cases hm : m s with
  | ok r s1 =>
    rw [hm] at e
    exact (h3 r s1 s' e).trans (h2 s r s1 hm)
  | throw s1 => rw [hm] at e; cases e; exact h1 s _ hm
  | _ => rw [hm] at e; cases e

theorem ThrowSame.bindQ {m : M Mgr α} {f : α → M Mgr β} (h1 : ThrowSame m) (h3 : ∀ r, Tame (f r)) : ThrowSame (m >>= f) := by
  intro s s' e
  have e : M.bind m f s = .throw s' := e
  unfold M.bind at e
  cases hm : m s with
  | ok r s1 =>
    rw [hm] at e
    exact absurd e (h3 r s1 s')
  | throw s1 => rw [hm] at e; cases e; exact h1 s _ hm
  | _ => rw [hm] at e; cases e

theorem Tame.bind {m : M Mgr α} {f : α → M Mgr β} (h1 : Tame m) (h3 : ∀ r, Tame (f r)) : Tame (m >>= f) := by
  intro s s' e
  have e : M.bind m f s = .throw s' := e
  unfold M.bind at e
  cases hm : m s with
  | ok r s1 => rw [hm] at e; exact h3 r s1 s' e
  | throw s1 => exact h1 s s1 hm
  | _ => rw [hm] at e; cases e

theorem CellsSame.bind {m : M Mgr α} {f : α → M Mgr β} (h1 : CellsSame m) (h3 : ∀ r, CellsSame (f r)) : CellsSame (m >>= f) := by
  intro s r s' e
  obtain ⟨r1, s1, e1, e2⟩ := bind_ok_inv e
  exact (h3 r1 _ _ _ e2).trans (h1 _ _ _ e1)

theorem Tame.pure (r : α) : Tame (Pure.pure r : M Mgr α) := fun s s' e => by cases e
theorem Tame.get : Tame (M.get : M Mgr Mgr) := fun s s' e => by cases e
theorem Tame.modify (f : Mgr → Mgr) : Tame (M.modify f) := fun s s' e => by cases e
theorem Tame.ub : Tame (M.ub : M Mgr α) := fun s s' e => by cases e
theorem Tame.hang : Tame (M.hang : M Mgr α) := fun s s' e => by cases e
theorem Tame.assert (nd b : Bool) : Tame (M.assert nd b : M Mgr Unit) := fun s s' e => by
  unfold M.assert at e; cases nd <;> cases b <;> cases e
theorem Tame.lift (x : Except Stop α) : Tame (M.lift x : M Mgr α) := fun s s' e => by
  unfold M.lift at e
  split at e <;> cases e

theorem CellsSame.pure (r : α) : CellsSame (Pure.pure r : M Mgr α) := fun s _ s' e => by cases e; rfl
theorem CellsSame.get : CellsSame (M.get : M Mgr Mgr) := fun s _ s' e => by cases e; rfl
theorem CellsSame.modify {f : Mgr → Mgr} (h : ∀ s, (f s).cells = s.cells) : CellsSame (M.modify f) := fun s _ s' e => by cases e; exact h s
theorem CellsSame.assert (nd b : Bool) : CellsSame (M.assert nd b : M Mgr Unit) := fun s _ s' e => by
  unfold M.assert at e; cases nd <;> cases b <;> cases e <;> rfl
theorem CellsSame.lift (x : Except Stop α) : CellsSame (M.lift x : M Mgr α) := fun s _ s' e => by
  unfold M.lift at e
  split at e <;> cases e <;> rfl
theorem CellsSame.setTab (v : Nat) (t : VarTable) : CellsSame (setTab v t) := CellsSame.modify fun _ => rfl
end

theorem newPage_same (mask : Nat) : ThrowSame (newPage cfg mask) := by
  unfold newPage
  split
  · exact (Tame.pure _).same
  · split
    · intro s s' e; cases e; rfl
    · exact (Tame.bind (.assert _ _) fun _ => .ub).same

theorem doubleCache_same (v : Nat) : ThrowSame (doubleCache cfg v) := by
  unfold doubleCache
  refine ThrowSame.bind Tame.get.same .get fun s => ?_
  simp only
  split
  · exact (Tame.pure _).same
  · refine ThrowSame.bind (Tame.assert _ _).same (.assert _ _) fun _ => ?_
    refine ThrowSame.bind (Tame.modify _).same (.setTab _ _) fun _ => ?_
    refine ThrowSame.bindQ (newPage_same _) fun _ => ?_
    exact .bind (.lift _) fun _ => .bind (.assert _ _) fun _ => .modify _

theorem insertNode_same (v l h : Nat) : ThrowSame (insertNode cfg v l h) := by
  unfold insertNode
  refine ThrowSame.bindQ ?_ fun _ => ?_
  · unfold growIfNeeded
    refine ThrowSame.bind Tame.get.same .get fun s => ?_
    split
    · exact doubleCache_same v
    · exact (Tame.pure _).same
  · refine .bind (fun s s' e => by cases e) fun p => .bind ?_ fun _ => .bind .get fun s => ?_
    · unfold initNewNode
      exact .bind (.assert _ _) fun _ => .modify _
    · exact .bind (.assert _ _) fun _ => .bind (.lift _) fun _ => .bind (.modify _) fun _ => .pure _

theorem uniqueFindAux_same (v l h : Nat) : ∀ n, ThrowSame (uniqueFindAux cfg v l h n)
  | 0 => Tame.hang.same
  | n + 1 => by
    unfold uniqueFindAux
    split
    · exact (Tame.pure _).same
    · refine ThrowSame.bind Tame.get.same .get fun s => ?_
      refine ThrowSame.bind (Tame.assert _ _).same (.assert _ _) fun _ => ?_
      refine ThrowSame.bind (Tame.lift _).same (.lift _) fun o => ?_
      cases o with
      | some p => exact (Tame.pure _).same
      | none =>
        simp only
        refine ThrowSame.bind (Tame.modify _).same (.setTab _ _) fun _ => ?_
        split
        · exact uniqueFindAux_same v l h n
        · exact insertNode_same v l h

theorem uniqueFind_throwSame (v l h : Nat) : ThrowSame (uniqueFind cfg v l h) := by
  unfold uniqueFind
  refine ThrowSame.bind Tame.get.same .get fun s => ?_
  split
  · exact Tame.ub.same
  · exact uniqueFindAux_same v l h 2

theorem addVariables_same : ∀ n, ThrowSame (addVariables cfg n) ∧ CellsSame (addVariables cfg n)
  | 0 => ⟨(Tame.pure _).same, .pure _⟩
  | n + 1 => by
    have h : Tame (addVariable cfg) ∧ CellsSame (addVariable cfg) := by
      unfold addVariable
      exact ⟨.bind .get fun s => .bind (.assert _ _) fun _ => .bind (fun _ _ e => by cases e) fun _ => .pure _,
        fun s r s' e => by
          obtain ⟨_, _, e1, e⟩ := bind_ok_inv e
          cases e1
          obtain ⟨_, _, e1, e⟩ := bind_ok_inv e
          have h2 := CellsSame.assert _ _ _ _ _ e1
          obtain ⟨_, _, e2, e⟩ := bind_ok_inv e
          cases e2; cases e
          rfl⟩
    have ih := addVariables_same n
    unfold addVariables
    exact ⟨.bind h.1.same h.2 fun _ => ih.1, .bind h.2 fun _ => ih.2⟩

theorem projection_same (v : Nat) : ThrowSame (projection cfg v) := by
  unfold projection
  refine ThrowSame.bind ?_ ?_ fun _ => uniqueFind_throwSame _ _ _
  · unfold ensureVar
    exact ThrowSame.bind Tame.get.same .get fun s => (addVariables_same _).1
  · unfold ensureVar
    exact CellsSame.bind .get fun s => (addVariables_same _).2

theorem step_throw_same (hR : Reachable cfg u a) {op : Op} (hb : BuildOp a op) (hl : Legal cfg u a op) {a' : Api} (e : step cfg op a = .throw a') :
    a'.mgr.cells = a.mgr.cells := by
  have hc : ∃ f is, op = .call f is ∧ ∀ ps, ThrowSame (f.run cfg ps) := by
    rcases hb with ⟨v, rfl, _⟩ | ⟨is, rfl⟩
    · refine ⟨_, _, rfl, fun ps => ?_⟩
      cases ps with
      | nil => exact ThrowSame.bindQ (projection_same v) fun _ => .pure _
      | cons p ps => exact Tame.ub.same
    · refine ⟨_, _, rfl, fun ps => ?_⟩
      have h : ∀ l h, ThrowSame (do let r ← mgrUniqueFind cfg 0 l h; pure [r]) := by
        intro l h
        refine ThrowSame.bindQ ?_ fun _ => .pure _
        unfold mgrUniqueFind
        exact ThrowSame.bind Tame.get.same .get fun s => ThrowSame.bind (Tame.assert _ _).same (.assert _ _) fun _ => uniqueFind_throwSame _ _ _
      match ps with
      | [] => exact Tame.ub.same
      | [_] => exact Tame.ub.same
      | [l, k] => exact h l k
      | _ :: _ :: _ :: _ => exact Tame.ub.same
  obtain ⟨f, is, rfl, hf⟩ := hc
  simp only [LBDD.step] at e
  rw [M.get_bind_apply] at e
  cases ha : a.args is with
  | none => rw [ha] at e; cases e
  | some ps =>
    rw [ha] at e
    simp only at e
    cases er : f.run cfg ps a.mgr with
    | ok rs s1 =>
      obtain ⟨g, i, an⟩ := Fn.run_lib hR.good f ps (hR.good.args ha) (hl ps ha) rs s1 er
      obtain ⟨a2, e2, _⟩ := pushHandles_good (cfg := cfg) (u := u) rs (a := { a with mgr := s1 }) i an
      have e1 : onMgr (f.run cfg ps) a = .ok rs { a with mgr := s1 } := by unfold onMgr; rw [er]
      rw [M.bind_ok e1, e2] at e
      cases e
    | throw s1 =>
      have e1 : onMgr (f.run cfg ps) a = .throw { a with mgr := s1 } := by unfold onMgr; rw [er]
      have e : M.bind _ _ a = .throw a' := e
      unfold M.bind at e
      rw [e1] at e
      cases e
      exact hf ps _ _ er
    | _ =>
      have e : M.bind _ _ a = .throw a' := e
      unfold M.bind onMgr at e
      rw [er] at e
      cases e

/-- C86: whatever the addresses and hash keys, a client can give a variable 262145 nodes. -/
theorem C86_attained (cfg : Cfg) : ∃ (a : Api) (v : Nat) (l : List Nat), Reachable cfg .ordered a ∧ l.Nodup ∧ l.length = 262145 ∧
    ∀ p ∈ l, 2 ≤ p ∧ (a.mgr.cells p).live = true ∧ (a.mgr.cells p).index = v := by
  refine Classical.byContradiction fun hT => ?_
  obtain ⟨a, f, l, hR, _, hnv, hn, hlen, hl⟩ := build_nodes (cfg := cfg) (fun a op a' h1 hb h2 h3 h4 => by
    obtain ⟨_, v, _, _, _, l, hn, hlen, hl, _⟩ := h4
    rw [step_throw_same h1 hb h2 h3] at hl
    have := C86_per_variable h1 v hn hl
    exact hT ⟨a, v, l, h1, hn, by omega, hl⟩) 262146 (Nat.le_refl _)
  have := table_bound hR hnv hn (fun p hp => ⟨(hl p hp).1, (hl p hp).2.1, (hl p hp).2.2.1⟩)
  omega

/-- C86: once a variable has that many nodes, no call of the library adds another: whatever succeeds leaves the variable with the same nodes. -/
theorem C86_full (hR : Reachable cfg u a) {v : Nat} {l : List Nat} (hn : l.Nodup) (hlen : l.length = 262145)
    (hl : ∀ p ∈ l, 2 ≤ p ∧ (a.mgr.cells p).live = true ∧ (a.mgr.cells p).index = v) {f : Fn} {is : List Nat} {a' : Api}
    (hL : Legal cfg u a (.call f is)) (e : step cfg (.call f is) a = .ok () a') (p : Nat) :
    (2 ≤ p ∧ (a'.mgr.cells p).live = true ∧ (a'.mgr.cells p).index = v) ↔ p ∈ l := by
  have hg := (step_grow hR.good hL (fun h => nomatch h) e).2
  have hR' : Reachable cfg u a' := .step hR hL e
  have hl' : ∀ p ∈ l, 2 ≤ p ∧ (a'.mgr.cells p).live = true ∧ (a'.mgr.cells p).index = v := by
    intro p hp
    obtain ⟨h1, h2, h3⟩ := hl p hp
    obtain ⟨b1, _, _, b4, _⟩ := hg.cells p h2
    exact ⟨h1, b1, b4.trans h3⟩
  refine ⟨fun h => Classical.byContradiction fun hp => ?_, hl' p⟩
  have := C86_per_variable hR' v (l := p :: l) (List.nodup_cons.2 ⟨hp, hn⟩) (fun q hq => by
    rcases List.mem_cons.1 hq with rfl | hq
    · exact h
    · exact hl' q hq)
  rw [List.length_cons] at this
  omega

/-- C86, concrete: the demo state is reachable, holds handles and has inner nodes in use. -/
theorem C86_concrete (nd : Bool) : Reachable (envOf nd) .ordered (demoOf nd) ∧ (demoOf nd).hs.countP (·.isSome) ≤ 2 ^ 30 ∧ (demoOf nd).mgr.nvars ≤ 4000 ∧
    1 < (demoOf nd).mgr.inUse.length ∧ ((demoOf nd).mgr.cells 2).live = true ∧ 1 < ((demoOf nd).mgr.cells 1).xref :=
  ⟨demoOf_reachable nd, by cases nd <;> decide +kernel, by cases nd <;> decide +kernel, by cases nd <;> decide +kernel, by cases nd <;> decide +kernel, by cases nd <;> decide +kernel⟩

end LBDD
