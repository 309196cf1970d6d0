import Verif.Model.Query
import Verif.Proof.GcHeap
/-!
# Two managers that look alike below some nodes

`Mirror D s s'`: the managers agree on everything the traversals read, except that nodes outside `D` may be in use in one of them only. The
functions that only read BDDs, called on nodes of `D`, do the same in both.
-/
namespace LBDD

structure Mirror (D : Nat → Prop) (s s' : Mgr) : Prop where
  cell : ∀ q, (s'.cells q).lo = (s.cells q).lo ∧ (s'.cells q).hi = (s.cells q).hi ∧ (s'.cells q).index = (s.cells q).index
  live : ∀ q, D q → (s'.cells q).live = (s.cells q).live
  closed : ∀ q, D q → (s.cells q).live = true → (s.cells q).index ≠ botsinkIndex → (s.cells q).index ≠ topsinkIndex → D (s.cells q).lo ∧ D (s.cells q).hi
  nvars : s'.nvars = s.nvars
  rng : s'.rngPos = s.rngPos
  hw : s'.pool.hw = s.pool.hw
  marks : s'.marks = s.marks

theorem Mirror.mark {D : Nat → Prop} {s s' : Mgr} (h : Mirror D s s') (m : Nat → Bool) : Mirror D { s with marks := m } { s' with marks := m } :=
  ⟨h.cell, h.live, h.closed, h.nvars, h.rng, h.hw, rfl⟩

/-- The same outcome in both managers; apart from marks nothing has changed. -/
inductive SameRes {α : Type} (P : α → Prop) (s s' : Mgr) : Res Mgr α → Res Mgr α → Prop where
  | ok {r : α} (m : Nat → Bool) : P r → SameRes P s s' (.ok r { s with marks := m }) (.ok r { s' with marks := m })
  | assertFail : SameRes P s s' .assertFail .assertFail
  | ub : SameRes P s s' .ub .ub
  | hang : SameRes P s s' .hang .hang

/-- Programs that do the same in managers that look alike below `D`; results satisfy `P`. -/
def Alike {α : Type} (D : Nat → Prop) (P : α → Prop) (f f' : M Mgr α) : Prop := ∀ s s', Mirror D s s' → SameRes P s s' (f s) (f' s')

section
variable {α β : Type} {D : Nat → Prop} {P : α → Prop} {Q : β → Prop} {cfg : Cfg}

theorem Mirror.ok {s s' : Mgr} (h : Mirror D s s') {r : α} (hr : P r) : SameRes P s s' (.ok r s) (.ok r s') := by
  have := SameRes.ok (P := P) (s := s) (s' := s') s.marks hr
  have e : ({ s' with marks := s.marks } : Mgr) = s' := by rw [← h.marks]
  rw [e] at this
  exact this

theorem Alike.pure {r : α} (h : P r) : Alike D P (Pure.pure r) (Pure.pure r) := fun _ _ hm => hm.ok h

theorem Alike.bind {f f' : M Mgr α} {g g' : α → M Mgr β} (h : Alike D P f f') (k : ∀ r, P r → Alike D Q (g r) (g' r)) : Alike D Q (f >>= g) (f' >>= g') := by
  intro s s' hm
  have h1 := h s s' hm
  show SameRes Q s s' (M.bind f g s) (M.bind f' g' s')
  unfold M.bind
  generalize f s = x at h1
  generalize f' s' = y at h1
  cases h1 with
  | @ok r m hr =>
    have h2 := k r hr _ _ (hm.mark m)
    dsimp only
    generalize g r { s with marks := m } = x at h2
    generalize g' r { s' with marks := m } = y at h2
    cases h2 with
    | ok m' hr' => exact .ok m' hr'
    | assertFail => exact .assertFail
    | ub => exact .ub
    | hang => exact .hang
  | assertFail => exact .assertFail
  | ub => exact .ub
  | hang => exact .hang

theorem Alike.get {g g' : Mgr → M Mgr β} (h : ∀ s s', Mirror D s s' → Alike D Q (g s) (g' s')) : Alike D Q (M.get >>= g) (M.get >>= g') := by
  intro s s' hm
  rw [M.get_bind_apply, M.get_bind_apply]
  exact h s s' hm s s' hm

theorem Alike.ub : Alike D P (M.ub : M Mgr α) M.ub := fun _ _ _ => .ub
theorem Alike.hang : Alike D P (M.hang : M Mgr α) M.hang := fun _ _ _ => .hang

theorem Alike.assert (b c : Bool) : Alike D (fun _ => True) (M.assert b c) (M.assert b c) := by
  intro s s' hm
  unfold M.assert
  split
  · exact hm.ok trivial
  · exact .assertFail

theorem Alike.ite {c : Prop} [Decidable c] {f f' g g' : M Mgr α} (h1 : c → Alike D P f f') (h2 : ¬ c → Alike D P g g') :
    Alike D P (if c then f else g) (if c then f' else g') := by
  by_cases h : c
  · rw [if_pos h, if_pos h]; exact h1 h
  · rw [if_neg h, if_neg h]; exact h2 h

theorem Alike.mono {R : α → Prop} {f f' : M Mgr α} (h : Alike D P f f') (k : ∀ r, P r → R r) : Alike D R f f' := by
  intro s s' hm
  have h1 := h s s' hm
  generalize f s = x at h1
  generalize f' s' = y at h1
  cases h1 with
  | ok m hr => exact .ok m (k _ hr)
  | assertFail => exact .assertFail
  | ub => exact .ub
  | hang => exact .hang

theorem isTop_alike (p : Nat) : Alike D (fun _ => True) (isTop cfg p) (isTop cfg p) := by
  refine Alike.get fun s s' hm => ?_
  obtain ⟨h1, h2, h3⟩ := hm.cell p
  dsimp only
  rw [h1, h2, h3]
  exact (Alike.assert _ _).bind fun _ _ => .pure trivial

theorem isBot_alike (p : Nat) : Alike D (fun _ => True) (isBot cfg p) (isBot cfg p) := by
  refine Alike.get fun s s' hm => ?_
  obtain ⟨h1, h2, h3⟩ := hm.cell p
  dsimp only
  rw [h1, h2, h3]
  exact (Alike.assert _ _).bind fun _ _ => .pure trivial

theorem isTerm_alike (p : Nat) : Alike D (fun _ => True) (isTerm cfg p) (isTerm cfg p) :=
  (isTop_alike p).bind fun _ _ => .ite (fun _ => .pure trivial) (fun _ => isBot_alike p)

theorem lowOf_alike {p : Nat} (hp : D p) : Alike D D (lowOf p) (lowOf p) := by
  refine Alike.get fun s s' hm => ?_
  obtain ⟨h1, h2, h3⟩ := hm.cell p
  rw [h1, h3, hm.live p hp]
  refine .ite (fun _ => .ub) (fun h => .pure ?_)
  simp only [Bool.or_eq_true, Bool.not_eq_true', decide_eq_true_eq, not_or, Bool.not_eq_false] at h
  have hb : topsinkIndex < botsinkIndex := by decide
  exact (hm.closed p hp h.1 (by omega) (by omega)).1

theorem highOf_alike {p : Nat} (hp : D p) : Alike D D (highOf p) (highOf p) := by
  refine Alike.get fun s s' hm => ?_
  obtain ⟨h1, h2, h3⟩ := hm.cell p
  rw [h2, h3, hm.live p hp]
  refine .ite (fun _ => .ub) (fun h => .pure ?_)
  simp only [Bool.or_eq_true, Bool.not_eq_true', decide_eq_true_eq, not_or, Bool.not_eq_false] at h
  have hb : topsinkIndex < botsinkIndex := by decide
  exact (hm.closed p hp h.1 (by omega) (by omega)).2

theorem nodeVar_alike {p : Nat} (hp : D p) : Alike D (fun _ => True) (nodeVar p) (nodeVar p) := by
  refine Alike.get fun s s' hm => ?_
  obtain ⟨h1, h2, h3⟩ := hm.cell p
  rw [h3, hm.live p hp]
  exact .ite (fun _ => .ub) (fun h => .pure trivial)

theorem getMark_alike (p : Nat) : Alike D (fun _ => True) (getMark p) (getMark p) := by
  intro s s' hm
  show SameRes _ s s' (.ok (s.marks p) s) (.ok (s'.marks p) s')
  rw [hm.marks]
  exact hm.ok trivial

theorem setMark_alike (p : Nat) (b : Bool) : Alike D (fun _ => True) (setMark p b) (setMark p b) := by
  intro s s' hm
  show SameRes _ s s' (.ok () { s with marks := upd s.marks p b }) (.ok () { s' with marks := upd s'.marks p b })
  rw [hm.marks]
  exact .ok _ trivial

theorem visit_alike {post : Bool} : ∀ (n : Nat) {p : Nat}, D p → Alike D (fun _ => True) (visit cfg post n p) (visit cfg post n p) := by
  intro n
  induction n with
  | zero => intro p _; exact .hang
  | succ n ih =>
    intro p hp
    refine (isTerm_alike p).bind fun _ _ => .ite (fun _ => .pure trivial) fun _ => ?_
    refine (getMark_alike p).bind fun _ _ => (Alike.assert _ _).bind fun _ _ => (setMark_alike p true).bind fun _ _ => ?_
    refine (lowOf_alike hp).bind fun lo hlo => ?_
    refine Alike.bind (P := fun _ => True) ((getMark_alike lo).bind fun _ _ => .ite (fun _ => .pure trivial) fun _ => ih hlo) fun _ _ => ?_
    refine (highOf_alike hp).bind fun hi hhi => ?_
    refine Alike.bind (P := fun _ => True) ((getMark_alike hi).bind fun _ _ => .ite (fun _ => .pure trivial) fun _ => ih hhi) fun _ _ => ?_
    exact .pure trivial

theorem unmark_alike : ∀ (n : Nat) {p : Nat}, D p → Alike D (fun _ => True) (unmark cfg n p) (unmark cfg n p) := by
  intro n
  induction n with
  | zero => intro p _; exact .hang
  | succ n ih =>
    intro p hp
    refine (isTerm_alike p).bind fun _ _ => .ite (fun _ => .pure trivial) fun _ => ?_
    refine (getMark_alike p).bind fun _ _ => .ite (fun _ => ?_) fun _ => .pure trivial
    refine (setMark_alike p false).bind fun _ _ => (lowOf_alike hp).bind fun lo hlo => (ih hlo).bind fun _ _ => ?_
    exact (highOf_alike hp).bind fun hi hhi => ih hhi

theorem markRec_alike : ∀ (n : Nat) {p : Nat}, D p → Alike D (fun _ => True) (markRec cfg n p) (markRec cfg n p) := by
  intro n
  induction n with
  | zero => intro p _; exact .hang
  | succ n ih =>
    intro p hp
    refine (isTerm_alike p).bind fun _ _ => .ite (fun _ => .pure trivial) fun _ => ?_
    refine (getMark_alike p).bind fun _ _ => .ite (fun _ => .pure trivial) fun _ => ?_
    refine (setMark_alike p true).bind fun _ _ => (lowOf_alike hp).bind fun lo hlo => (ih hlo).bind fun _ _ => ?_
    exact (highOf_alike hp).bind fun hi hhi => ih hhi

theorem fuel1_alike {s s' : Mgr} (h : Mirror D s s') : fuel1 s' = fuel1 s := by unfold fuel1; rw [h.rng]

theorem nrNodes_alike {p : Nat} (hp : D p) : Alike D (fun _ => True) (nrNodes cfg p) (nrNodes cfg p) := by
  refine Alike.get fun s s' hm => ?_
  rw [fuel1_alike hm]
  refine (getMark_alike p).bind fun _ _ => (Alike.assert _ _).bind fun _ _ => (visit_alike _ hp).bind fun _ _ => ?_
  exact (unmark_alike _ hp).bind fun _ _ => .pure trivial

theorem assertCount_alike {p : Nat} (hp : D p) (k : Nat) : Alike D (fun _ => True) (assertCount cfg p k) (assertCount cfg p k) :=
  .ite (fun _ => .pure trivial) fun _ => (nrNodes_alike hp).bind fun _ _ => .assert _ _

theorem nodesPostorder_alike {p : Nat} (hp : D p) : Alike D (fun _ => True) (nodesPostorder cfg p) (nodesPostorder cfg p) := by
  refine Alike.get fun s s' hm => ?_
  rw [fuel1_alike hm]
  refine (getMark_alike p).bind fun _ _ => (Alike.assert _ _).bind fun _ _ => (visit_alike _ hp).bind fun _ _ => ?_
  exact (unmark_alike _ hp).bind fun _ _ => (assertCount_alike hp _).bind fun _ _ => .pure trivial

theorem bfsPush_alike {q : Nat} (hq : D q) {dq : List Nat} (hd : ∀ p ∈ dq, D p) :
    Alike D (fun l => ∀ p ∈ l, D p) (bfsPush cfg q dq) (bfsPush cfg q dq) := by
  refine (isTerm_alike q).bind fun _ _ => .ite (fun _ => .pure hd) fun _ => ?_
  refine (getMark_alike q).bind fun _ _ => .ite (fun _ => .pure hd) fun _ => ?_
  refine (setMark_alike q true).bind fun _ _ => .pure fun p hp => ?_
  rcases List.mem_append.1 hp with h | h
  · exact hd p h
  · rw [List.mem_singleton.1 h]; exact hq

theorem bfsLoop_alike : ∀ (n : Nat) {dq acc : List Nat}, (∀ p ∈ dq, D p) → Alike D (fun _ => True) (bfsLoop cfg n dq acc) (bfsLoop cfg n dq acc) := by
  intro n
  induction n with
  | zero =>
    intro dq acc h
    cases dq with
    | nil => exact .pure trivial
    | cons p dq => exact .hang
  | succ n ih =>
    intro dq acc h
    cases dq with
    | nil => exact .pure trivial
    | cons p dq =>
      refine (getMark_alike p).bind fun _ _ => (Alike.assert _ _).bind fun _ _ => (lowOf_alike (h p (by simp))).bind fun lo hlo => ?_
      refine (bfsPush_alike hlo fun q hq => h q (by simp [hq])).bind fun dq1 h1 => (highOf_alike (h p (by simp))).bind fun hi hhi => ?_
      exact (bfsPush_alike hhi h1).bind fun dq2 h2 => ih h2

theorem nodesBfs_alike {p : Nat} (hp : D p) : Alike D (fun _ => True) (nodesBfs cfg p) (nodesBfs cfg p) := by
  refine Alike.get fun s s' hm => ?_
  have hw : (s'.pool.pages - 1) * 4096 + s'.pool.off = (s.pool.pages - 1) * 4096 + s.pool.off := hm.hw
  rw [fuel1_alike hm, hw]
  refine (getMark_alike p).bind fun _ _ => (Alike.assert _ _).bind fun _ _ => (setMark_alike p true).bind fun _ _ => ?_
  refine (bfsLoop_alike _ fun q hq => by rw [List.mem_singleton.1 hq]; exact hp).bind fun _ _ => ?_
  exact (unmark_alike _ hp).bind fun _ _ => (assertCount_alike hp _).bind fun _ _ => .pure trivial

theorem variables_alike {p : Nat} (hp : D p) : Alike D (fun _ => True) (variables cfg p) (variables cfg p) := by
  refine Alike.get fun s s' hm => ?_
  rw [fuel1_alike hm]
  have e : (fun q => (s'.cells q).index) = fun q => (s.cells q).index := funext fun q => (hm.cell q).2.2
  rw [e]
  exact (visit_alike _ hp).bind fun _ _ => (unmark_alike _ hp).bind fun _ _ => .pure trivial

theorem printArcs_alike {p : Nat} (hp : D p) : Alike D (fun _ => True) (printArcs cfg p) (printArcs cfg p) := by
  refine Alike.get fun s s' hm => ?_
  rw [fuel1_alike hm]
  have e : (fun q => [(q, false, (s'.cells q).lo), (q, true, (s'.cells q).hi)]) = fun q => [(q, false, (s.cells q).lo), (q, true, (s.cells q).hi)] :=
    funext fun q => by rw [(hm.cell q).1, (hm.cell q).2.1]
  rw [e]
  exact (visit_alike _ hp).bind fun _ _ => (unmark_alike _ hp).bind fun _ _ => .pure trivial

theorem exactlyOne_alike : ∀ (n : Nat) {p : Nat}, D p → Alike D (fun _ => True) (exactlyOne cfg n p) (exactlyOne cfg n p) := by
  intro n
  induction n with
  | zero => intro p _; exact .hang
  | succ n ih =>
    intro p hp
    refine (isTop_alike p).bind fun _ _ => .ite (fun _ => .pure trivial) fun _ => ?_
    refine (isBot_alike p).bind fun _ _ => .ite (fun _ => .pure trivial) fun _ => ?_
    refine (lowOf_alike hp).bind fun lo hlo => (highOf_alike hp).bind fun hi hhi => ?_
    refine (isBot_alike lo).bind fun _ _ => .ite (fun _ => ih hhi) fun _ => ?_
    exact (isBot_alike hi).bind fun _ _ => .ite (fun _ => ih hlo) fun _ => .pure trivial

theorem exactlyOneSolution_alike {p : Nat} (hp : D p) : Alike D (fun _ => True) (exactlyOneSolution cfg p) (exactlyOneSolution cfg p) := by
  refine Alike.get fun s s' hm => ?_
  rw [fuel1_alike hm]
  exact exactlyOne_alike _ hp

theorem findMgr_alike : ∀ (n : Nat) {p : Nat}, D p → Alike D (fun _ => True) (findMgr cfg n p) (findMgr cfg n p) := by
  intro n
  induction n with
  | zero => intro p _; exact .hang
  | succ n ih =>
    intro p hp
    refine (isTerm_alike p).bind fun _ _ => .ite (fun _ => .pure trivial) fun _ => ?_
    refine (lowOf_alike hp).bind fun lo hlo => (isTerm_alike lo).bind fun _ _ => .ite (fun _ => .pure trivial) fun _ => ?_
    exact (highOf_alike hp).bind fun hi hhi => ih hhi

theorem findBddMgr_alike {p : Nat} (hp : D p) : Alike D (fun _ => True) (findBddMgr cfg p) (findBddMgr cfg p) := by
  refine Alike.get fun s s' hm => ?_
  rw [fuel1_alike hm]
  exact findMgr_alike _ hp

theorem evaluateAux_alike {s s' : Mgr} (hm : Mirror D s s') (x : List Bool) : ∀ (n : Nat) {p : Nat}, D p → evaluateAux cfg s' x n p = evaluateAux cfg s x n p := by
  intro n
  induction n with
  | zero => intro p _; rfl
  | succ n ih =>
    intro p hp
    obtain ⟨a1, a2, a3⟩ := hm.cell p
    unfold evaluateAux
    simp only [a1, a2, a3, hm.live p hp]
    split
    · rfl
    split
    · rfl
    rename_i n1
    split
    · rfl
    rename_i n2
    split
    · rfl
    rename_i n3
    have hl : (s.cells p).live = true := by simpa using n3
    have hc := hm.closed p hp hl n1 n2
    split
    · rfl
    · exact ih hc.2
    · exact ih hc.1

theorem evaluateAux_no_throw (s : Mgr) (x : List Bool) : ∀ (n p : Nat) (k : Unit), evaluateAux cfg s x n p ≠ .throw k := by
  intro n
  induction n with
  | zero => intro p k e; cases e
  | succ n ih =>
    intro p k e
    unfold evaluateAux at e
    dsimp only at e
    split at e
    · cases e
    split at e
    · cases e
    split at e
    · cases e
    split at e
    · cases e
    split at e
    · split at e <;> cases e
    · exact ih _ _ e
    · exact ih _ _ e

theorem evaluate_no_throw (s : Mgr) (x : List Bool) (p : Nat) (k : Unit) : evaluate cfg s p x ≠ .throw k := evaluateAux_no_throw s x _ p k

theorem evaluateM_alike {p : Nat} (hp : D p) (x : List Bool) : Alike D (fun _ => True) (evaluateM cfg x p) (evaluateM cfg x p) := by
  intro s s' hm
  have e : evaluate cfg s' p x = evaluate cfg s p x := by
    unfold evaluate
    rw [fuel1_alike hm]
    exact evaluateAux_alike hm x _ hp
  show SameRes _ s s' (match evaluate cfg s p x with | .ok b _ => _ | .throw _ => _ | .assertFail => _ | .ub => _ | .hang => _)
    (match evaluate cfg s' p x with | .ok b _ => _ | .throw _ => _ | .assertFail => _ | .ub => _ | .hang => _)
  rw [e]
  cases h : evaluate cfg s p x with
  | ok b _ => exact hm.ok trivial
  | throw _ => exact absurd h (evaluate_no_throw _ _ _ _)
  | assertFail => exact .assertFail
  | ub => exact .ub
  | hang => exact .hang

end

end LBDD
