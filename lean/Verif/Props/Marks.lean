import Verif.Proof.Marks
import Verif.Proof.Clean
import Verif.Proof.Keep
import Verif.Props.Order
/-!
# Mark bits set through handles (C69)
-/
namespace LBDD
section
variable {cfg : Cfg} {u : Use} {a b : Api} {p : Nat}

theorem SameButMarks.eq (h : SameButMarks a b) : b = withMarks a b.mgr.marks := by
  cases b with
  | mk bm bh =>
    have h1 : bh = a.hs := h.1
    have h2 : bm = { a.mgr with marks := bm.marks } := h.2
    show Api.mk bm bh = ⟨{ a.mgr with marks := bm.marks }, a.hs⟩
    rw [← h2, h1]

theorem SameButMarks.with (a : Api) (k : Nat → Bool) : SameButMarks a (withMarks a k) := ⟨rfl, rfl⟩

theorem SameEnd.of {α : Type} {D k : Nat → Bool} {x y : Res Api α} (h : y = x.onSt (fun a' => withMarks a' (clr D k))) : SameEnd x y := by
  subst h
  cases x with
  | ok r s => exact ⟨rfl, .with _ _⟩
  | throw s => exact .with _ _
  | _ => trivial

theorem Fn.walks_eq (f : Fn) : f.walks = f.looks := by cases f <;> rfl

theorem bfs_unique {c : Nat → Cell} {l l' : List Nat} (h : BfsList c p l) (h' : BfsList c p l') (e : l = (p :: l.flatMap (innerChildren c)).eraseDups)
    (e' : l' = (p :: l'.flatMap (innerChildren c)).eraseDups) : l = l' := by
  have key : ∀ {l : List Nat}, BfsList c p l → ∀ l1 q l2, l = l1 ++ q :: l2 → q = p ∨ ∃ x ∈ l1, q ∈ innerChildren c x := by
    intro l h l1 q l2 el
    have q2 := ((h.lists.mem q).1 (by rw [el]; simp)).1
    refine (h.parent l1 q l2 el).imp_right ?_
    rintro ⟨x, hx, hq⟩
    refine ⟨x, hx, ?_⟩
    unfold innerChildren
    rw [List.mem_filter]
    exact ⟨by rcases hq with h | h <;> simp [h], by simpa using q2⟩
  exact C26_order_unique e e' (key h) (key h')

/-- Traversals of a BDD without marked nodes. -/
theorem traverse_same {md : Md} {refs : Nat → Nat} {s : Mgr} {k : Nat → Bool} (hi : Inv cfg md refs s) {f : Fn} (hf : f.traverses = true) {ps : List Nat}
    (hps : ∀ p ∈ ps, 2 ≤ p ∧ (∃ t, Repr s.cells p t) ∧ ∀ q, 2 ≤ q → Reaches s.cells p q → k q = false) :
    f.run cfg ps { s with marks := k } = (f.run cfg ps s).onSt (fun s' => withMarks s' k) := by
  match ps, hps with
  | [], _ => cases f <;> first | (cases hf; done) | rfl
  | _ :: _ :: _, _ => cases f <;> first | (cases hf; done) | rfl
  | [p], hps =>
    obtain ⟨p2, ⟨t, ht⟩, hk⟩ := hps p (by simp)
    have hs : ∀ q, 2 ≤ q → Reaches s.cells p q → s.marks q = false := fun q h2 hr => hi.mark q h2 (hr.live_or hi ht)
    obtain ⟨w, hw⟩ := Unfolds.exists true ht
    obtain ⟨w', hw'⟩ := Unfolds.exists false ht
    obtain ⟨_, _, _, hl⟩ := visit_clean (cfg := cfg) hi false ht hk hw'
    have go : ∀ {α β : Type} {m : M Mgr α} {g : α → M Mgr β} {x : α} {y : β}, m s = .ok x s → m { s with marks := k } = .ok x { s with marks := k } →
        (∀ s', g x s' = .ok y s') → (m >>= g) { s with marks := k } = ((m >>= g) s).onSt (fun s' => withMarks s' k) := by
      intro α β m g x y e1 e2 h
      rw [M.bind_ok e1, M.bind_ok e2, h, h]; rfl
    cases f with
    | nrNodes =>
      have e1 : nrNodes cfg p s = .ok _ s := nrNodes_clean (cfg := cfg) hi ht hs p2 hl
      exact go e1 (nrNodes_clean hi ht hk p2 hl) (fun _ => rfl)
    | variables =>
      have e1 : variables cfg p s = .ok _ s := variables_clean (cfg := cfg) hi ht hs hw'
      exact go e1 (variables_clean hi ht hk hw') (fun _ => rfl)
    | print =>
      have e1 : printArcs cfg p s = .ok _ s := printArcs_clean (cfg := cfg) hi ht hs hw'
      exact go e1 (printArcs_clean hi ht hk hw') (fun _ => rfl)
    | nodesPostorder =>
      have e1 : nodesPostorder cfg p s = .ok _ s := nodesPostorder_clean (cfg := cfg) hi ht hs p2 hw
      show nodesPostorder cfg p _ = (nodesPostorder cfg p s).onSt _
      rw [e1, nodesPostorder_clean hi ht hk p2 hw]; rfl
    | nodesBfs =>
      obtain ⟨l, e1, b1, o1⟩ := nodesBfs_clean (cfg := cfg) hi ht hs p2
      obtain ⟨l', e2, b2, o2⟩ := nodesBfs_clean (cfg := cfg) hi ht hk p2
      have e1 : nodesBfs cfg p s = .ok l s := e1
      have := bfs_unique b1 b2 o1 o2
      subst this
      show nodesBfs cfg p _ = (nodesBfs cfg p s).onSt _
      rw [e1, e2]; rfl
    | _ => cases hf

theorem traverse_state {md : Md} {refs : Nat → Nat} {s s' : Mgr} (hi : Inv cfg md refs s) {f : Fn} (hf : f.traverses = true) {ps rs : List Nat}
    (hps : ∀ p ∈ ps, 2 ≤ p ∧ (∃ t, Repr s.cells p t)) (e : f.run cfg ps s = .ok rs s') : s' = s := by
  match ps, hps with
  | [], _ => cases f <;> first | (cases hf; done) | (cases e; done)
  | _ :: _ :: _, _ => cases f <;> first | (cases hf; done) | (cases e; done)
  | [p], hps =>
    obtain ⟨p2, t, ht⟩ := hps p (by simp)
    have hs : ∀ q, 2 ≤ q → Reaches s.cells p q → s.marks q = false := fun q h2 hr => hi.mark q h2 (hr.live_or hi ht)
    obtain ⟨w, hw⟩ := Unfolds.exists true ht
    obtain ⟨w', hw'⟩ := Unfolds.exists false ht
    obtain ⟨_, _, _, hl⟩ := visit_clean (cfg := cfg) hi false ht hs hw'
    have go : ∀ {α β : Type} {m : M Mgr α} {g : α → M Mgr β} {x : α} {y y' : β} {s' : Mgr}, m s = .ok x s →
        (∀ s', g x s' = .ok y s') → (m >>= g) s = .ok y' s' → s' = s := by
      intro α β m g x y y' s' e1 h e
      rw [M.bind_ok e1, h] at e; cases e; rfl
    cases f with
    | nrNodes =>
      have e1 : nrNodes cfg p s = .ok _ s := nrNodes_clean (cfg := cfg) hi ht hs p2 hl
      exact go (y := []) e1 (fun _ => rfl) e
    | variables =>
      have e1 : variables cfg p s = .ok _ s := variables_clean (cfg := cfg) hi ht hs hw'
      exact go (y := []) e1 (fun _ => rfl) e
    | print =>
      have e1 : printArcs cfg p s = .ok _ s := printArcs_clean (cfg := cfg) hi ht hs hw'
      exact go (y := []) e1 (fun _ => rfl) e
    | nodesPostorder =>
      have e1 : nodesPostorder cfg p s = .ok _ s := nodesPostorder_clean (cfg := cfg) hi ht hs p2 hw
      have e : nodesPostorder cfg p s = .ok rs s' := e
      rw [e1] at e; cases e; rfl
    | nodesBfs =>
      obtain ⟨l, e1, b1, o1⟩ := nodesBfs_clean (cfg := cfg) hi ht hs p2
      have e1 : nodesBfs cfg p s = .ok l s := e1
      have e : nodesBfs cfg p s = .ok rs s' := e
      rw [e1] at e; cases e; rfl
    | _ => cases hf

theorem step_marks (hR : Reachable cfg u a) (k : Nat → Bool) {op : Op} (hf : MarkFree (withMarks a k) op) :
    ∃ D, step cfg op (withMarks a k) = (step cfg op a).onSt (fun a' => withMarks a' (clr D k)) := by
  have simple : op.walks = false → ∃ D, step cfg op (withMarks a k) = (step cfg op a).onSt (fun a' => withMarks a' (clr D k)) := by
    intro h
    obtain ⟨D, hD⟩ := (step_obl (cfg := cfg) op h).at' a
    exact ⟨D, hD k⟩
  cases op with
  | call f is =>
    rcases hf with hf | ⟨hf, hp⟩
    · exact simple (show f.walks = false by rw [Fn.walks_eq]; exact hf)
    · have hargs : (withMarks a k).args is = a.args is := rfl
      rw [hargs] at hp
      simp only [step]
      rw [M.get_bind_apply, M.get_bind_apply, hargs]
      cases e : a.args is with
      | none => exact ⟨fun _ => false, rfl⟩
      | some ps =>
        have hps := hp ps e
        have tr := traverse_same (k := k) hR.good hf (ps := ps) (fun p hp => ⟨(hps p hp).1, hR.good.any (args_holds e p hp), (hps p hp).2⟩)
        simp only
        have hm : onMgr (f.run cfg ps) (withMarks a k) = (onMgr (f.run cfg ps) a).onSt (fun a' => withMarks a' k) := by
          unfold onMgr
          rw [show (withMarks a k).mgr = { a.mgr with marks := k } from rfl, tr]
          cases f.run cfg ps a.mgr <;> rfl
        show ∃ D, M.bind (onMgr (f.run cfg ps)) pushHandles _ = (M.bind (onMgr (f.run cfg ps)) pushHandles a).onSt _
        unfold M.bind
        rw [hm]
        cases onMgr (f.run cfg ps) a with
        | ok r a' =>
          obtain ⟨D, hD⟩ := (pushHandles_obl r).at' a'
          exact ⟨D, hD k⟩
        | throw a' => exact ⟨fun _ => false, rfl⟩
        | _ => exact ⟨fun _ => false, rfl⟩
  | _ => exact simple rfl

theorem SameButMarks.unmark_exact (hR : Reachable cfg u a) (hS : SameButMarks a b) (hp : a.Holds p) :
    ∃ m', refUnmarkRec cfg p b.mgr = .ok () { b.mgr with marks := m' } ∧
      ∀ q, m' q = true ↔ b.mgr.marks q = true ∧ ¬ MarkedPath b.mgr.cells b.mgr.marks p q := by
  obtain ⟨t, ht⟩ := hR.good.any hp
  obtain ⟨m', e, h⟩ := LBDD.unmark_exact (cfg := cfg) hR.good ht b.mgr.marks
  refine ⟨m', ?_, ?_⟩
  · have h2 := hS.2
    unfold refUnmarkRec
    rw [h2, M.get_bind_apply, fuel1_marks]
    exact e
  · have hc : b.mgr.cells = a.mgr.cells := by rw [hS.2]
    rw [hc]; exact h

theorem SameButMarks.nodeMark (hR : Reachable cfg u a) (hS : SameButMarks a b) (hp : a.Holds p) :
    ∃ l m', LBDD.nodeMark cfg p b.mgr = .ok () { b.mgr with marks := m' } ∧ DfsOut a.mgr.cells true b.mgr.marks m' p l := by
  obtain ⟨t, ht⟩ := hR.good.any hp
  obtain ⟨l, m', e, h⟩ := markRec_ok (cfg := cfg) hR.good (fuel1 a.mgr) p t ht (by have := hR.good.ht _ _ ht; unfold fuel1; omega) b.mgr.marks
  refine ⟨l, m', ?_, h⟩
  have h2 := hS.2
  unfold LBDD.nodeMark
  rw [h2, M.get_bind_apply, fuel1_marks]
  exact e

theorem SameButMarks.holds (hS : SameButMarks a b) : b.Holds p ↔ a.Holds p := by unfold Api.Holds; rw [hS.1]

theorem MarkHistory.same (h : MarkHistory cfg u a b) : Reachable cfg u a ∧ SameButMarks a b := by
  induction h with
  | start hR => exact ⟨hR, rfl, rfl⟩
  | @step a b a' b' op _ hl hf e1 e2 ih =>
    obtain ⟨hR, hS⟩ := ih
    refine ⟨.step hR hl e1, ?_⟩
    rw [hS.eq] at hf e2
    obtain ⟨D, hD⟩ := step_marks hR b.mgr.marks hf
    rw [hD, e1] at e2
    have : b' = withMarks a' (clr D b.mgr.marks) := by
      simp only [Res.onSt] at e2
      injection e2 with _ h
      exact h.symm
    rw [this]; exact .with _ _
  | mark _ _ e ih =>
    have : refMark _ _ = _ := e
    cases e
    exact ⟨ih.1, ih.2.1, by show _ = _; conv => lhs; rw [ih.2.2]⟩
  | unmark _ _ e ih =>
    cases e
    exact ⟨ih.1, ih.2.1, by show _ = _; conv => lhs; rw [ih.2.2]⟩
  | unmarkRec _ hp e ih =>
    obtain ⟨m', e', _⟩ := ih.2.unmark_exact ih.1 (ih.2.holds.1 hp)
    rw [e'] at e
    cases e
    exact ⟨ih.1, ih.2.1, by show _ = _; conv => lhs; rw [ih.2.2]⟩
  | nodeMark _ hp e ih =>
    obtain ⟨_, m', e', _⟩ := ih.2.nodeMark ih.1 (ih.2.holds.1 hp)
    rw [e'] at e
    cases e
    exact ⟨ih.1, ih.2.1, by show _ = _; conv => lhs; rw [ih.2.2]⟩

/-- C69: setting and clearing marks through handles changes nothing else. Whatever marks the second process has set, the two processes stay the
same except for mark bits, and every further call, except a traversal of a BDD with marked nodes, ends the same way in both: it returns the same, or
throws, or fails, in both. -/
theorem C69_invisible (h : MarkHistory cfg u a b) : Reachable cfg u a ∧ SameButMarks a b ∧
    ∀ op, MarkFree b op → SameEnd (step cfg op a) (step cfg op b) := by
  obtain ⟨hR, hS⟩ := h.same
  refine ⟨hR, hS, fun op hf => ?_⟩
  rw [hS.eq] at hf
  obtain ⟨D, hD⟩ := step_marks hR b.mgr.marks hf
  rw [← hS.eq] at hD
  exact .of hD

/-- C69: the same for what the read-only member functions of a handle return. The traversals are exact as long as the BDD has no marked node, whatever
else is marked, and they leave every mark as it was. -/
theorem C69_traversals (h : MarkHistory cfg u a b) (hp : b.Holds p) (p2 : 2 ≤ p) (hu : Unmarked b.mgr p) :
    (∃ n, nrNodes cfg p a.mgr = .ok n a.mgr ∧ nrNodes cfg p b.mgr = .ok n b.mgr) ∧
    (∃ l, variables cfg p a.mgr = .ok l a.mgr ∧ variables cfg p b.mgr = .ok l b.mgr) ∧
    (∃ l, printArcs cfg p a.mgr = .ok l a.mgr ∧ printArcs cfg p b.mgr = .ok l b.mgr) ∧
    (∃ l, nodesPostorder cfg p a.mgr = .ok l a.mgr ∧ nodesPostorder cfg p b.mgr = .ok l b.mgr) ∧
    (∃ l, nodesBfs cfg p a.mgr = .ok l a.mgr ∧ nodesBfs cfg p b.mgr = .ok l b.mgr) := by
  obtain ⟨hR, hS⟩ := h.same
  obtain ⟨t, ht⟩ := hR.good.any (hS.holds.1 hp)
  have hi := hR.good
  have hk : ∀ q, 2 ≤ q → Reaches a.mgr.cells p q → b.mgr.marks q = false := by
    intro q q2 hr
    refine hu q q2 ?_
    rw [hS.2]; exact hr
  have hs : ∀ q, 2 ≤ q → Reaches a.mgr.cells p q → a.mgr.marks q = false := fun q h2 hr => hi.mark q h2 (hr.live_or hi ht)
  obtain ⟨w, hw⟩ := Unfolds.exists true ht
  obtain ⟨w', hw'⟩ := Unfolds.exists false ht
  obtain ⟨_, _, _, hl⟩ := visit_clean (cfg := cfg) hi false ht hk hw'
  obtain ⟨l, e1, b1, o1⟩ := nodesBfs_clean (cfg := cfg) hi ht hs p2
  obtain ⟨l', e2, b2, o2⟩ := nodesBfs_clean (cfg := cfg) hi ht hk p2
  have := bfs_unique b1 b2 o1 o2
  subst this
  rw [hS.2]
  exact ⟨⟨_, nrNodes_clean hi ht hs p2 hl, nrNodes_clean hi ht hk p2 hl⟩, ⟨_, variables_clean hi ht hs hw', variables_clean hi ht hk hw'⟩,
    ⟨_, printArcs_clean hi ht hs hw', printArcs_clean hi ht hk hw'⟩, ⟨_, nodesPostorder_clean hi ht hs p2 hw, nodesPostorder_clean hi ht hk p2 hw⟩, ⟨_, e1, e2⟩⟩

theorem evaluateAux_marks (s : Mgr) (k : Nat → Bool) (x : List Bool) : ∀ n p, evaluateAux cfg { s with marks := k } x n p = evaluateAux cfg s x n p
  | 0, _ => rfl
  | n + 1, p => by
    unfold evaluateAux
    simp only [evaluateAux_marks s k x n]

/-- C69: evaluation, the root variable, the reference count, the children, and the one-solution test ignore marks. -/
theorem C69_reads (h : MarkHistory cfg u a b) (p : Nat) (x : List Bool) :
    evaluate cfg b.mgr p x = evaluate cfg a.mgr p x ∧ (b.mgr.cells p).xref = (a.mgr.cells p).xref ∧ (b.mgr.cells p).index = (a.mgr.cells p).index ∧
    (b.mgr.cells p).lo = (a.mgr.cells p).lo ∧ (b.mgr.cells p).hi = (a.mgr.cells p).hi ∧
    ∀ r s', exactlyOneSolution cfg p a.mgr = .ok r s' → ∃ s'', exactlyOneSolution cfg p b.mgr = .ok r s'' := by
  obtain ⟨hR, hS⟩ := h.same
  rw [hS.2]
  refine ⟨?_, rfl, rfl, rfl, rfl, ?_⟩
  · unfold evaluate
    rw [fuel1_marks]
    exact evaluateAux_marks _ _ _ _ _
  · intro r s' e
    obtain ⟨D, hD⟩ := (exactlyOneSolution_obl (cfg := cfg) p).at' a.mgr
    have := hD b.mgr.marks
    rw [e] at this
    exact ⟨_, this⟩

/-- C69: `mark()` and `unmark()` write the bit that `marked()` reads, and no other. -/
theorem C69_mark_one (s : Mgr) (p : Nat) :
    (∃ s', refMark p s = .ok () s' ∧ refMarked p s' = .ok true s' ∧ s' = { s with marks := s'.marks } ∧ ∀ q, q ≠ p → s'.marks q = s.marks q) ∧
    (∃ s', refUnmark p s = .ok () s' ∧ refMarked p s' = .ok false s' ∧ s' = { s with marks := s'.marks } ∧ ∀ q, q ≠ p → s'.marks q = s.marks q) := by
  refine ⟨⟨{ s with marks := upd s.marks p true }, rfl, ?_, rfl, fun q h => upd_ne _ _ h⟩,
    ⟨{ s with marks := upd s.marks p false }, rfl, ?_, rfl, fun q h => upd_ne _ _ h⟩⟩
  · show Res.ok (upd s.marks p true p) _ = _
    rw [upd_same]
  · show Res.ok (upd s.marks p false p) _ = _
    rw [upd_same]

/-- C69: `unmark_rec()` clears exactly the marks of the nodes that are joined to the root by a path of marked nodes. -/
theorem C69_unmark_rec (h : MarkHistory cfg u a b) (hp : b.Holds p) :
    ∃ m', refUnmarkRec cfg p b.mgr = .ok () { b.mgr with marks := m' } ∧
      ∀ q, m' q = true ↔ b.mgr.marks q = true ∧ ¬ MarkedPath b.mgr.cells b.mgr.marks p q := by
  obtain ⟨hR, hS⟩ := h.same
  exact hS.unmark_exact hR (hS.holds.1 hp)

/-- C69: the recursive `mark()` of the node marks all nodes of a BDD without marked nodes, and no others; `unmark_rec()` then restores the state. -/
theorem C69_mark_all (h : MarkHistory cfg u a b) (hp : b.Holds p) (hu : Unmarked b.mgr p) :
    ∃ m', nodeMark cfg p b.mgr = .ok () { b.mgr with marks := m' } ∧
      (∀ q, m' q = true ↔ b.mgr.marks q = true ∨ (2 ≤ q ∧ Reaches b.mgr.cells p q)) ∧
      refUnmarkRec cfg p { b.mgr with marks := m' } = .ok () b.mgr := by
  obtain ⟨hR, hS⟩ := h.same
  have hp' := hS.holds.1 hp
  obtain ⟨t, ht⟩ := hR.good.any hp'
  obtain ⟨l, m', e, d⟩ := hS.nodeMark (cfg := cfg) hR hp'
  have hc : b.mgr.cells = a.mgr.cells := by rw [hS.2]
  unfold Unmarked at hu
  rw [hc] at hu ⊢
  have hmem := d.mem_iff (fun q q2 hr => by rw [hu q q2 hr]; decide)
  refine ⟨m', e, ?_, ?_⟩
  · intro q
    rw [d.marks, ← hmem q]
    split <;> rename_i hq <;> simp [hq]
  · have := unmark_clean (cfg := cfg) hR.good ht hu d.marks hmem
    have h2 := hS.2
    unfold refUnmarkRec
    rw [M.get_bind_apply, fuel1_marks]
    rw [h2, fuel1_marks]
    exact this

/-! ### marks stay -/

/-- Nodes outside the pool keep their mark bits. -/
def KeepsMarks (s s' : Mgr) : Prop := PoolW s → PoolW s' ∧ (∀ q, Avail s' q → Avail s q) ∧ ∀ q, ¬ Avail s q → s'.marks q = s.marks q

theorem KeepsMarks.trans {s s1 s2 : Mgr} (h1 : KeepsMarks s s1) (h2 : KeepsMarks s1 s2) : KeepsMarks s s2 := by
  intro w
  obtain ⟨w1, a1, m1⟩ := h1 w
  obtain ⟨w2, a2, m2⟩ := h2 w1
  exact ⟨w2, fun q h => a1 q (a2 q h), fun q h => (m2 q fun h' => h (a1 q h')).trans (m1 q h)⟩

theorem onMgr_keeps {α : Type} {m : M Mgr α} [hm : Kp m] {x : α} {a' : Api} (e : onMgr m a = .ok x a') : KeepsMarks a.mgr a'.mgr :=
  hm.at' _ _ _ (onMgr_ok e).1

instance optM_kp (o : Option Nat) (f : Nat → M Mgr Unit) [∀ p, Kp (f p)] : Kp (optM o f) := by unfold optM; kp

theorem pushHandles_keeps : ∀ {ps : List Nat} {a a' : Api}, pushHandles ps a = .ok () a' → KeepsMarks a.mgr a'.mgr
  | [], _, _, e => by cases e; exact fun w => ⟨w, fun _ h => h, fun _ _ => rfl⟩
  | p :: ps, a, a', e => by
    unfold pushHandles pushHandle at e
    obtain ⟨_, a1, e1, e⟩ := bind_ok_inv e
    obtain ⟨_, a2, e2, e1⟩ := bind_ok_inv e1
    have e1 : Res.ok () _ = Res.ok _ a1 := e1
    cases e1
    exact (onMgr_keeps e2).trans (pushHandles_keeps (a := { a2 with hs := a2.hs ++ [some p] }) e)

theorem step_keeps {op : Op} (hw : op.walks = false) (hg : op ≠ .gc) {a' : Api} (e : step cfg op a = .ok () a') : KeepsMarks a.mgr a'.mgr := by
  cases op with
  | call f is =>
    simp only [step] at e
    rw [M.get_bind_apply] at e
    cases ea : a.args is with
    | none => rw [ea] at e; cases e
    | some ps =>
      rw [ea] at e
      obtain ⟨rs, a1, e1, e2⟩ := bind_ok_inv e
      have := Fn.run_kp (cfg := cfg) f hw ps
      exact (onMgr_keeps e1).trans (pushHandles_keeps e2)
  | copy i =>
    simp only [step] at e
    rw [M.get_bind_apply] at e
    cases ea : a.hs[i]? with
    | none => rw [ea] at e; cases e
    | some o =>
      rw [ea] at e
      obtain ⟨_, a1, e1, e2⟩ := bind_ok_inv e
      have e2 : Res.ok () _ = Res.ok _ a' := e2
      cases e2
      exact (onMgr_keeps e1 : KeepsMarks a.mgr a1.mgr)
  | move i =>
    simp only [step] at e
    rw [M.get_bind_apply] at e
    cases ea : a.hs[i]? with
    | none => rw [ea] at e; cases e
    | some o =>
      rw [ea] at e
      have e2 : Res.ok () _ = Res.ok _ a' := e
      cases e2
      exact fun w => ⟨w, fun _ h => h, fun _ _ => rfl⟩
  | assign i j =>
    simp only [step] at e
    rw [M.get_bind_apply] at e
    cases ea : a.hs[i]? with
    | none => rw [ea] at e; cases e
    | some o =>
      cases eb : a.hs[j]? with
      | none => rw [ea, eb] at e; cases e
      | some o' =>
        rw [ea, eb] at e
        obtain ⟨_, a1, e1, e2⟩ := bind_ok_inv e
        obtain ⟨_, a2, e3, e4⟩ := bind_ok_inv e2
        have e4 : Res.ok () _ = Res.ok _ a' := e4
        cases e4
        exact (onMgr_keeps e1).trans (onMgr_keeps e3 : KeepsMarks a1.mgr a2.mgr)
  | drop i =>
    simp only [step] at e
    rw [M.get_bind_apply] at e
    cases ea : a.hs[i]? with
    | none => rw [ea] at e; cases e
    | some o =>
      rw [ea] at e
      obtain ⟨_, a1, e1, e2⟩ := bind_ok_inv e
      have e2 : Res.ok () _ = Res.ok _ a' := e2
      cases e2
      exact (onMgr_keeps e1 : KeepsMarks a.mgr a1.mgr)
  | gc => exact absurd rfl hg

/-- C69: a mark stays as the user left it: every call (traversals of unmarked BDDs and garbage collection included) preserves the mark bits of all nodes
that the user can reach from a handle. -/
theorem C69_marks_stay (h : MarkHistory cfg u a b) {op : Op} (hf : MarkFree b op) {b' : Api} (e : step cfg op b = .ok () b') {q : Nat} (hq : b.Holds q)
    (hr : Reaches b.mgr.cells q p) : b'.mgr.marks p = b.mgr.marks p := by
  obtain ⟨hR, hS⟩ := h.same
  have hc : b.mgr.cells = a.mgr.cells := by rw [hS.2]
  have hpl : b.mgr.pool = a.mgr.pool := by rw [hS.2]
  obtain ⟨t, ht⟩ := hR.good.any (hS.holds.1 hq)
  have hlive : (a.mgr.cells p).live = true := (hc ▸ hr : Reaches a.mgr.cells q p).live_or hR.good ht
  have hP := hR.good.pool
  have hav : ¬ Avail b.mgr p := by
    unfold Avail
    rw [hpl]
    have := (hP.live p).1 hlive
    rintro (h | h)
    · exact this.2 h
    · omega
  have hW : PoolW b.mgr := by
    unfold PoolW
    rw [hpl]; exact ⟨hP.off, hP.pages⟩
  have simple : op.walks = false → b'.mgr.marks p = b.mgr.marks p := by
    intro hw
    by_cases hg : op = .gc
    · subst hg
      simp only [step] at e
      rw [(collectGarbage_mk (cfg := cfg)).at' _ _ _ (onMgr_ok e).1]
    · exact (step_keeps hw hg e hW).2.2 p hav
  cases op with
  | call f is =>
    rcases hf with hf | ⟨hf, hp⟩
    · exact simple (show f.walks = false by rw [Fn.walks_eq]; exact hf)
    · simp only [step] at e
      rw [M.get_bind_apply] at e
      cases ea : b.args is with
      | none => rw [ea] at e; cases e
      | some ps =>
        rw [ea] at e
        obtain ⟨rs, b1, e1, e2⟩ := bind_ok_inv e
        have hps := hp ps ea
        have hargs : a.args is = some ps := by rw [← ea]; unfold Api.args; rw [hS.1]
        have tr := traverse_same (cfg := cfg) (k := b.mgr.marks) hR.good hf (ps := ps)
          (fun p hp => ⟨(hps p hp).1, hR.good.any (args_holds hargs p hp), fun q q2 hq => (hps p hp).2 q q2 (hc ▸ hq)⟩)
        obtain ⟨e3, _⟩ := onMgr_ok e1
        rw [hS.2, tr] at e3
        have e4 : b1.mgr.marks = b.mgr.marks := by
          cases ex : f.run cfg ps a.mgr with
          | ok x s' =>
            rw [ex] at e3
            simp only [Res.onSt, Res.ok.injEq] at e3
            rw [← e3.2]; rfl
          | _ => rw [ex] at e3; cases e3
        have e5 : b1.mgr.pool = b.mgr.pool := by
          cases ex : f.run cfg ps a.mgr with
          | ok x s' =>
            have hs' : s' = a.mgr := traverse_state hR.good hf (fun p hp => ⟨(hps p hp).1, hR.good.any (args_holds hargs p hp)⟩) ex
            rw [ex] at e3
            simp only [Res.onSt, Res.ok.injEq] at e3
            rw [← e3.2, hs', hpl]; rfl
          | _ => rw [ex] at e3; cases e3
        have hW1 : PoolW b1.mgr := by unfold PoolW; rw [e5]; exact hW
        have hav1 : ¬ Avail b1.mgr p := by unfold Avail; rw [e5]; exact hav
        rw [(pushHandles_keeps e2 hW1).2.2 p hav1, e4]
  | _ => exact simple rfl

end

/-! ## Marks that are not connected to the root -/

theorem resOf_val {α : Type} {o : Res Mgr α} {d v : α} {s : Mgr} (h : okB o = true) (hv : (resOf o d s).1 = v) : o = .ok v (resOf o d s).2 := by
  rw [← hv]; exact resOf_eq h

/-- The state after `mark()` on a handle to `p`. -/
def Api.marked (b : Api) (p : Nat) : Api := { b with mgr := { b.mgr with marks := upd b.mgr.marks p true } }

theorem MarkHistory.marked {cfg : Cfg} {u : Use} {a b : Api} {p : Nat} (h : MarkHistory cfg u a b) (hp : b.Holds p) : MarkHistory cfg u a (b.marked p) :=
  .mark h hp rfl
theorem Api.marked_hs (b : Api) (p : Nat) : (b.marked p).hs = b.hs := rfl

/-- The demo state after marking the node of x1. -/
def markedDemo : Api := (demo .ordered).marked 3

theorem markedDemo_history : MarkHistory (envOf false) .ordered (demo .ordered) markedDemo :=
  MarkHistory.marked (.start (demo_reachable _)) (by unfold Api.Holds; rw [demo_hs]; decide)

theorem markedDemo_hs : markedDemo.hs = (demo .ordered).hs := Api.marked_hs _ _

/-- C69, the limits: after `x1.mark()`, `unmark_rec()` on x0 ∧ x1 does not clear the mark, although the node belongs to that BDD, and `nr_nodes()` on
it returns 1 instead of 2 — and has cleared the mark of x1 when it is done. -/
theorem C69_refuted_inner_mark : ∃ a b, MarkHistory (envOf false) .ordered a b ∧ b.Holds 5 ∧ b.Holds 3 ∧ Reaches b.mgr.cells 5 3 ∧
    (∃ s', refUnmarkRec (envOf false) 5 b.mgr = .ok () s' ∧ s'.marks 3 = true) ∧
    (∃ s', nrNodes (envOf false) 5 a.mgr = .ok 2 s') ∧
    (∃ s', nrNodes (envOf false) 5 b.mgr = .ok 1 s' ∧ b.mgr.marks 3 = true ∧ s'.marks 3 = false) := by
  refine ⟨demo .ordered, markedDemo, markedDemo_history, ?_, ?_, ?_, ?_, ?_, ?_⟩
  · unfold Api.Holds; rw [markedDemo_hs, demo_hs]; decide
  · unfold Api.Holds; rw [markedDemo_hs, demo_hs]; decide
  · exact reachB_sound 4 _ _ (by decide +kernel)
  · exact ⟨_, resOf_val (d := ()) (s := markedDemo.mgr) (by decide +kernel) (by decide +kernel), by decide +kernel⟩
  · exact ⟨_, resOf_val (d := 0) (s := (demo .ordered).mgr) (by decide +kernel) (by decide +kernel)⟩
  · exact ⟨_, resOf_val (d := 0) (s := markedDemo.mgr) (by decide +kernel) (by decide +kernel), by decide +kernel, by decide +kernel⟩

/-- The hypotheses of C69 are met: in the state with x1 marked, the handle 4 (x2) has an unmarked BDD, conjoining 5 and 9 is a call that does not look
at marks, and marking x0 ∧ x1 as a whole starts from an unmarked BDD. -/
example : MarkHistory (envOf false) .ordered (demo .ordered) markedDemo ∧ markedDemo.Holds 4 ∧ MarkFree markedDemo (.call .and [3, 5]) := by
  refine ⟨markedDemo_history, ?_, Or.inl rfl⟩
  unfold Api.Holds; rw [markedDemo_hs, demo_hs]; decide

theorem unmarked_of_reachable {cfg : Cfg} {u : Use} {a : Api} {p : Nat} (hR : Reachable cfg u a) (hp : a.Holds p) : Unmarked a.mgr p := by
  obtain ⟨t, ht⟩ := hR.good.any hp
  exact fun q q2 hr => hR.good.mark q q2 (hr.live_or hR.good ht)

theorem reaches_not5 {c : Nat → Cell} (e1 : (c 9).lo = 4) (e2 : (c 9).hi = 8) (e3 : (c 8).lo = 4) (e4 : (c 8).hi = 1) (e5 : (c 4).lo = 0)
    (e6 : (c 4).hi = 1) : ¬ Reaches c 9 5 := by
  have h0 : ∀ {p}, p < 2 → ¬ Reaches c p 5 := by
    intro p hp h
    cases h with
    | refl => omega
    | lo h _ _ => omega
    | hi h _ _ => omega
  have h4 : ¬ Reaches c 4 5 := by
    intro h
    cases h with
    | lo _ _ h => rw [e5] at h; exact h0 (by decide) h
    | hi _ _ h => rw [e6] at h; exact h0 (by decide) h
  have h8 : ¬ Reaches c 8 5 := by
    intro h
    cases h with
    | lo _ _ h => rw [e3] at h; exact h4 h
    | hi _ _ h => rw [e4] at h; exact h0 (by decide) h
  intro h
  cases h with
  | lo _ _ h => rw [e1] at h; exact h4 h
  | hi _ _ h => rw [e2] at h; exact h8 h

example : ∃ m', nodeMark (envOf false) 9 (demo .ordered).mgr = .ok () { (demo .ordered).mgr with marks := m' } ∧ m' 8 = true ∧ m' 5 = false := by
  have h9 : (demo .ordered).Holds 9 := by unfold Api.Holds; rw [demo_hs]; decide
  have h5 : (demo .ordered).Holds 5 := by unfold Api.Holds; rw [demo_hs]; decide
  obtain ⟨m', e, h, _⟩ := C69_mark_all (.start (demo_reachable .ordered)) h9 (unmarked_of_reachable (demo_reachable _) h9)
  refine ⟨m', e, (h 8).2 (Or.inr ⟨by decide, reachB_sound 4 _ _ (by decide +kernel)⟩), ?_⟩
  cases hm : m' 5 with
  | false => rfl
  | true =>
    rcases (h 5).1 hm with h | ⟨_, hr⟩
    · rw [unmarked_of_reachable (demo_reachable _) h5 5 (by decide) (.refl _)] at h; cases h
    · exfalso
      have e9 : ((demo .ordered).mgr.cells 9).lo = 4 ∧ ((demo .ordered).mgr.cells 9).hi = 8 ∧ ((demo .ordered).mgr.cells 8).lo = 4 ∧
          ((demo .ordered).mgr.cells 8).hi = 1 ∧ ((demo .ordered).mgr.cells 4).lo = 0 ∧ ((demo .ordered).mgr.cells 4).hi = 1 := by
        refine ⟨?_, ?_, ?_, ?_, ?_, ?_⟩ <;> decide +kernel
      exact reaches_not5 e9.1 e9.2.1 e9.2.2.1 e9.2.2.2.1 e9.2.2.2.2.1 e9.2.2.2.2.2 hr

end LBDD
