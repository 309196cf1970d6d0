import Verif.Spec.Caught
import Verif.Props.Ask
import Verif.Props.Safe
import Verif.Props.Observe
import Verif.Props.Capacity
import Verif.Props.Alloc
/-!
# After an exception the handles are as good as before (C92)
-/
namespace LBDD
section
variable {cfg : Cfg} {u : Use} {a b a' : Api}

/-- The same client with other unique tables. -/
def Api.tabled (a : Api) (tb : Nat → VarTable) : Api := { a with mgr := { a.mgr with tabs := tb } }

theorem tabled_along (a : Api) (tb : Nat → VarTable) : Alongside (a.tabled tb) a := ⟨rfl, fun _ => ⟨rfl, rfl, rfl⟩, fun _ h => h, rfl, rfl, rfl, rfl⟩

theorem Good.heap_tabled {tb : Nat → VarTable} (h : Good cfg u (a.tabled tb)) : HeapOk a.count a.mgr := by
  have h := h.heapOk
  exact ⟨h.sink, h.child, h.bound, h.count, h.held, h.avail⟩

theorem Alongside.lift (h : Alongside b a) (ha : HeapOk a.count a.mgr) {q : Query} {r : Answer} (e : q.run cfg b = .ok r b) : q.run cfg a = .ok r a := by
  have h1 := Query.same (cfg := cfg) h ha q
  rw [e] at h1
  generalize hx : (Res.ok r b : Res Api Answer) = x at h1
  generalize hy : q.run cfg a = y at h1
  cases h1 with
  | ok r' m =>
    injection hx with h2 h3
    subst h2
    have hm : b.mgr.marks = m := by rw [h3]
    have : ({ a with mgr := { a.mgr with marks := m } } : Api) = a := by rw [← hm, ← h.marks]
    rw [this]
  | assertFail => cases hx
  | ub => cases hx
  | hang => cases hx

/-- What the exception of an admissible call leaves behind. -/
theorem thrown_good (hR : Reachable cfg u a) {f : Fn} {is : List Nat} (hl : Legal cfg u a (.call f is)) (hs : Op.Safe cfg u a (.call f is))
    (e : step cfg (.call f is) a = .throw a') : a'.hs = a.hs ∧ Grow a.mgr a'.mgr ∧ ∃ tb, Good cfg u (a'.tabled tb) := by
  have hg := hR.good
  obtain ⟨ps, e1, ht, hf⟩ := hs
  have hfine := Fn.run_fine hg f (hg.args e1) (hl ps e1) ht hf
  simp only [LBDD.step] at e
  rw [M.get_bind_apply, e1] at e
  have e : (onMgr (f.run cfg ps) >>= pushHandles) a = .throw a' := e
  unfold Fine at hfine
  cases e2 : f.run cfg ps a.mgr with
  | ok rs s1 =>
    have e3 : onMgr (f.run cfg ps) a = .ok rs { a with mgr := s1 } := by unfold onMgr; rw [e2]
    rw [M.bind_ok e3] at e
    obtain ⟨_, i, an⟩ := Fn.run_lib hg f ps (hg.args e1) (hl ps e1) rs _ e2
    obtain ⟨a2, e6, _⟩ := pushHandles_good (cfg := cfg) (u := u) rs (a := { a with mgr := s1 }) i an
    rw [e6] at e; cases e
  | throw s1 =>
    rw [e2] at hfine
    have e3 : onMgr (f.run cfg ps) a = .throw { a with mgr := s1 } := by unfold onMgr; rw [e2]
    rw [show (onMgr (f.run cfg ps) >>= pushHandles) a = .throw { a with mgr := s1 } from by
      show M.bind _ _ _ = _; unfold M.bind; rw [e3]] at e
    cases e
    obtain ⟨h1, _, _, _, _, _, _, _, _, tb, h2⟩ := hfine
    exact ⟨rfl, h1, tb, h2⟩
  | assertFail => rw [e2] at hfine; exact hfine.elim
  | ub => rw [e2] at hfine; exact hfine.elim
  | hang => rw [e2] at hfine; exact hfine.elim

/-- Handle operations do not look at the tables. -/
theorem handle_tabled (tb : Nat → VarTable) {o : Op} (hc : ∀ f is, o ≠ .call f is) (hg : o ≠ .gc) (e : step cfg o a = .ok () a') :
    step cfg o (a.tabled tb) = .ok () (a'.tabled tb) := by
  cases o with
  | call f is => exact absurd rfl (hc f is)
  | gc => exact absurd rfl hg
  | copy i =>
    simp only [LBDD.step] at e ⊢
    rw [M.get_bind_apply] at e ⊢
    show (match a.hs[i]? with
      | none => M.ub
      | some o => _ : M Api Unit) (a.tabled tb) = _
    cases h : a.hs[i]? with
    | none => rw [h] at e; cases e
    | some o => rw [h] at e; cases o <;> (cases e; rfl)
  | move i =>
    simp only [LBDD.step] at e ⊢
    rw [M.get_bind_apply] at e ⊢
    show (match a.hs[i]? with
      | none => M.ub
      | some o => _ : M Api Unit) (a.tabled tb) = _
    cases h : a.hs[i]? with
    | none => rw [h] at e; cases e
    | some o => rw [h] at e; cases e; rfl
  | assign i j =>
    simp only [LBDD.step] at e ⊢
    rw [M.get_bind_apply] at e ⊢
    show (match a.hs[i]?, a.hs[j]? with
      | some oi, some oj => _
      | _, _ => M.ub : M Api Unit) (a.tabled tb) = _
    cases h : a.hs[i]? with
    | none => rw [h] at e; cases e
    | some oi =>
      cases h' : a.hs[j]? with
      | none => rw [h, h'] at e; cases e
      | some oj => rw [h, h'] at e; cases oi <;> cases oj <;> (cases e; rfl)
  | drop i =>
    simp only [LBDD.step] at e ⊢
    rw [M.get_bind_apply] at e ⊢
    show (match a.hs[i]? with
      | none => M.ub
      | some o => _ : M Api Unit) (a.tabled tb) = _
    cases h : a.hs[i]? with
    | none => rw [h] at e; cases e
    | some o =>
      rw [h] at e
      cases o with
      | none => cases e; rfl
      | some p =>
        obtain ⟨_, a1, e1, e2⟩ := bind_ok_inv e
        obtain ⟨e3, e4⟩ := onMgr_ok e1
        have e3 : release cfg p a.mgr = .ok () a1.mgr := e3
        unfold release at e3
        rw [M.get_bind_apply] at e3
        obtain ⟨_, s2, e5, e6⟩ := bind_ok_inv e3
        have hx : cfg.ndebug = true ∨ 0 < (a.mgr.cells p).xref := by
          unfold M.assert at e5
          split at e5
          · rename_i h; simpa using h
          · cases e5
        have e7 : s2 = a.mgr := by
          unfold M.assert at e5
          split at e5
          · cases e5; rfl
          · cases e5
        subst e7
        have e9 : a1.mgr = { a.mgr with cells := upd a.mgr.cells p { a.mgr.cells p with xref := (a.mgr.cells p).xref - 1 } } := by
          have e6 : Res.ok () _ = Res.ok () a1.mgr := e6
          injection e6 with _ e6
          exact e6.symm
        have e8 : release cfg p (a.tabled tb).mgr = .ok () { a1.mgr with tabs := tb } := by
          unfold release
          rw [M.get_bind_apply, e9]
          show (M.assert cfg.ndebug (decide (0 < (a.mgr.cells p).xref)) >>= _) _ = _
          rcases hx with hx | hx
          · rw [hx]; rfl
          · rw [M.assert_bind_apply (by simpa using hx)]; rfl
        cases e2
        show (onMgr (optM (some p) (release cfg)) >>= fun _ => _) (a.tabled tb) = _
        rw [M.bind_ok (onMgr_ok_of (show optM (some p) (release cfg) (a.tabled tb).mgr = _ from e8))]
        show Res.ok () _ = Res.ok () _
        unfold Api.tabled
        simp only [e4]

theorem Caught.good (h : Caught cfg u a) : ∃ tb, Good cfg u (a.tabled tb) := by
  induction h with
  | thrown hR hl hs e => exact (thrown_good hR hl hs e).2.2
  | handle _ hc hg e ih =>
    obtain ⟨tb, h⟩ := ih
    refine ⟨tb, (step_good h ?_ (handle_tabled tb hc hg e)).1⟩
    rename_i o _
    cases o with
    | call f is => exact absurd rfl (hc f is)
    | gc => exact absurd rfl hg
    | copy i => trivial
    | move i => trivial
    | assign i j => trivial
    | drop i => trivial

/-- **C92** After an exception, and any handle operations after it, every admissible question is answered, and asking changes nothing. -/
theorem C92_answered (h : Caught cfg u a) {q : Query} (hq : q.Admissible cfg a) : ∃ r, q.run cfg a = .ok r a := by
  obtain ⟨tb, hg⟩ := h.good
  obtain ⟨r, e⟩ := hg.answered (q := q) (by cases q <;> exact hq)
  exact ⟨r, (tabled_along a tb).lift hg.heap_tabled e⟩

/-! ## Questions about older handles -/

/-- What `exactly_one_solution()` finds by following the diagram. -/
def Tree.single : Tree → Bool
  | .bot => false
  | .top => true
  | .node _ l h => if l = .bot then h.single else if h = .bot then l.single else false

theorem repr_bot_iff {c : Nat → Cell} {p : Nat} {t : Tree} (h : Repr c p t) : p = 0 ↔ t = .bot := by
  constructor
  · rintro rfl; cases h with
    | bot => rfl
    | node h2 => omega
  · rintro rfl; cases h; rfl

theorem exactlyOneSolution_single {md : Md} {refs : Nat → Nat} {s : Mgr} (hi : Inv cfg md refs s) {p : Nat} {t : Tree} (hp : Repr s.cells p t) :
    exactlyOneSolution cfg p s = .ok t.single s := by
  unfold exactlyOneSolution
  rw [M.get_bind_apply]
  suffices h : ∀ (n p : Nat) (t : Tree), Repr s.cells p t → t.height + 1 ≤ n → exactlyOne cfg n p s = .ok t.single s from
    h _ p t hp (by have := hi.ht _ _ hp; unfold fuel1; omega)
  intro n
  induction n with
  | zero => intro p t _ h; omega
  | succ n ih =>
    intro p t hp hn
    unfold exactlyOne
    rw [M.bind_ok (isTop_ok hi hp)]
    by_cases h1 : p = 1
    · simp only [h1, decide_true, if_true]
      subst h1
      cases hp with
      | top => rfl
      | node h2 => omega
    · simp only [h1, decide_false, Bool.false_eq_true, if_false]
      rw [M.bind_ok (isBot_ok hi hp)]
      by_cases h0 : p = 0
      · simp only [h0, decide_true, if_true]
        cases (repr_bot_iff hp).1 h0
        rfl
      · simp only [h0, decide_false, Bool.false_eq_true, if_false]
        have h2 : 2 ≤ p := by omega
        obtain ⟨tl, th, rfl, hl, _, h3, h4⟩ := hp.inv h2
        simp only [Tree.height] at hn
        rw [M.bind_ok (lowOf_congr hi h2 hl rfl), M.bind_ok (highOf_congr hi h2 hl rfl), M.bind_ok (isBot_ok hi h3)]
        unfold Tree.single
        by_cases l0 : (s.cells p).lo = 0
        · rw [if_pos ((repr_bot_iff h3).1 l0)]
          simp only [l0, decide_true, if_true]
          exact ih _ _ h4 (by omega)
        · rw [if_neg (mt (repr_bot_iff h3).2 l0)]
          simp only [l0, decide_false, Bool.false_eq_true, if_false]
          rw [M.bind_ok (isBot_ok hi h4)]
          by_cases r0 : (s.cells p).hi = 0
          · rw [if_pos ((repr_bot_iff h4).1 r0)]
            simp only [r0, decide_true, if_true]
            exact ih _ _ h3 (by omega)
          · rw [if_neg (mt (repr_bot_iff h4).2 r0)]
            simp only [r0, decide_false, Bool.false_eq_true, if_false]
            rfl

theorem slot_ok {α β : Type} {i p : Nat} {m : Nat → M Mgr α} {g : α → β} {k : α} {r : β} {z : Api} (hp : a.hs[i]? = some (some p)) (e : m p a.mgr = .ok k a.mgr)
    (h : (onSlot i m >>= fun b => Pure.pure (g b)) a = .ok r z) : r = g k := by
  rw [slot_map g hp e] at h
  cases h; rfl

/-- A handle that existed before the state grew answers as before. -/
theorem answers_grow (ha : Good cfg u a) (hb : Good cfg u b) (hg : Grow a.mgr b.mgr) (hs : b.hs = a.hs) {q : Query} (hn : q ≠ .nrVariables)
    (hq : q.Admissible cfg b) {r : Answer} (e : q.run cfg a = .ok r a) : q.run cfg b = .ok r b := by
  have get : ∀ {i p : Nat}, b.hs[i]? = some (some p) → a.hs[i]? = some (some p) ∧ a.Holds p ∧ b.Holds p ∧
      ∃ t, Repr a.mgr.cells p t ∧ Repr b.mgr.cells p t := by
    intro i p h
    have h' : a.hs[i]? = some (some p) := by rw [← hs]; exact h
    obtain ⟨t, ht⟩ := ha.any (List.mem_of_getElem? h')
    exact ⟨h', List.mem_of_getElem? h', List.mem_of_getElem? h, t, ht, ht.ext hg.cells⟩
  cases q with
  | nrVariables => exact absurd rfl hn
  | evaluate i x =>
    obtain ⟨⟨p, hp⟩, hx⟩ := hq
    obtain ⟨hpa, _, _, t, h1, h2⟩ := get hp
    have c : ∀ w, t.Mem w → w < x.length := fun w hw => by
      have := ha.mem_lt h1 hw
      have := hg.nvars
      have : b.mgr.nvars ≤ x.length := hx
      omega
    cases slot_ok hpa (evaluateM_ok (evaluate_ok ha h1 x c)) e
    exact slot_map _ hp (evaluateM_ok (evaluate_ok hb h2 x c))
  | equal i j =>
    obtain ⟨h1, h2⟩ := hq
    have e : (M.get >>= fun a : Api => (match a.hs[i]?, a.hs[j]? with
      | some p, some q => pure (Answer.bool (p == q))
      | _, _ => M.ub : M Api Answer)) a = .ok r a := e
    show (M.get >>= fun a : Api => (match a.hs[i]?, a.hs[j]? with
      | some p, some q => pure (Answer.bool (p == q))
      | _, _ => M.ub : M Api Answer)) b = .ok r b
    rw [M.get_bind_apply] at e ⊢
    rw [hs]
    rw [hs] at h1 h2
    rw [List.getElem?_eq_getElem h1, List.getElem?_eq_getElem h2] at e ⊢
    cases e; rfl
  | isBotsink i =>
    obtain ⟨p, hp⟩ := hq
    obtain ⟨hpa, g1, g2, _⟩ := get hp
    cases slot_ok hpa (ha.sinks g1).1 e
    exact slot_map _ hp (hb.sinks g2).1
  | isTopsink i =>
    obtain ⟨p, hp⟩ := hq
    obtain ⟨hpa, g1, g2, _⟩ := get hp
    cases slot_ok hpa (ha.sinks g1).2.1 e
    exact slot_map _ hp (hb.sinks g2).2.1
  | isTerminal i =>
    obtain ⟨p, hp⟩ := hq
    obtain ⟨hpa, g1, g2, _⟩ := get hp
    cases slot_ok hpa (ha.sinks g1).2.2 e
    exact slot_map _ hp (hb.sinks g2).2.2
  | topVariable i =>
    obtain ⟨p, hp⟩ := hq
    obtain ⟨hpa, g1, g2, _⟩ := get hp
    cases slot_ok hpa (nodeVar_same ha g1) e
    rw [show (a.mgr.cells p).index = (b.mgr.cells p).index from (hg.cells p (ha.live g1)).2.2.2.1.symm]
    exact slot_map _ hp (nodeVar_same hb g2)
  | nrNodes i =>
    obtain ⟨p, hp, hk⟩ := hq
    obtain ⟨hpa, g1, g2, t, h1, h2⟩ := get hp
    have hk : p < 2 → SinkOk cfg ∨ 2 ≤ p := fun _ => hk.imp id fun ⟨h0, h1⟩ => by
      have h0' : p ≠ 0 := h0
      have h1' : p ≠ 1 := h1
      omega
    have hk : SinkOk cfg ∨ 2 ≤ p := by
      by_cases c : p < 2
      · exact hk c
      · exact Or.inr (by omega)
    obtain ⟨l, m1, k1⟩ := nrNodes_ok ha h1 (.of ha hk)
    obtain ⟨l', m2, k2⟩ := nrNodes_ok hb h2 (.of hb hk)
    have m3 : Lists b.mgr.cells p l := ⟨m1.nodup, fun q => by
      rw [m1.mem]; exact ⟨fun ⟨x, y⟩ => ⟨x, y.ext hg.cells⟩, fun ⟨x, y⟩ => ⟨x, y.back hg.cells h1⟩⟩⟩
    cases slot_ok hpa k1 e
    rw [m3.length_eq m2]
    exact slot_map _ hp k2
  | variables i =>
    obtain ⟨p, hp⟩ := hq
    obtain ⟨hpa, g1, g2, t, h1, h2⟩ := get hp
    obtain ⟨l, k1, p1, m1⟩ := variables_ok ha h1
    obtain ⟨l', k2, p2, m2⟩ := variables_ok hb h2
    cases slot_ok hpa k1 e
    rw [sorted_unique p1 p2 (fun v => (m1 v).trans (m2 v).symm)]
    exact slot_map _ hp k2
  | exactlyOneSolution i =>
    obtain ⟨p, hp⟩ := hq
    obtain ⟨hpa, g1, g2, t, h1, h2⟩ := get hp
    cases slot_ok hpa (exactlyOneSolution_single ha h1) e
    exact slot_map _ hp (exactlyOneSolution_single hb h2)

/-- **C92** A call that throws leaves the user's handles as they were: the same handles in the same slots, every BDD with its function, and every question about
them, other than for the number of variables, with the answer it had before the call. -/
theorem C92_unharmed (hR : Reachable cfg u a) {f : Fn} {is : List Nat} (hl : Legal cfg u a (.call f is)) (hs : Op.Safe cfg u a (.call f is))
    (e : step cfg (.call f is) a = .throw a') :
    a'.hs = a.hs ∧ a.mgr.nvars ≤ a'.mgr.nvars ∧
    (∀ p F, a.Holds p → Denotes cfg a.mgr p F → Denotes cfg a'.mgr p F) ∧
    ∀ (q : Query) (r : Answer), q ≠ .nrVariables → q.Admissible cfg a' → q.run cfg a = .ok r a → q.run cfg a' = .ok r a' := by
  obtain ⟨h1, h2, tb, h3⟩ := thrown_good hR hl hs e
  have key : ∀ (q : Query) (r : Answer), q ≠ .nrVariables → q.Admissible cfg a' → q.run cfg a = .ok r a → q.run cfg a' = .ok r a' := by
    intro q r hn hq er
    exact (tabled_along a' tb).lift h3.heap_tabled
      (answers_grow (b := a'.tabled tb) hR.good h3 ⟨h2.cells, h2.nvars, h2.rng⟩ h1 hn (by cases q <;> exact hq) er)
  refine ⟨h1, h2.nvars, fun p F hp hd x hx => ?_, key⟩
  obtain ⟨i, hi⟩ := List.mem_iff_getElem?.1 hp
  have hi' : a'.hs[i]? = some (some p) := by rw [h1]; exact hi
  have hxa : Covers a.mgr x := Nat.le_trans h2.nvars hx
  have e1 := key (.evaluate i x) (.bool (F x)) (by intro h; cases h) ⟨⟨p, hi'⟩, hx⟩ (slot_map _ hi (evaluateM_ok (hd x hxa)))
  obtain ⟨b, a1, e2, e3⟩ := bind_ok_inv (m := onSlot i (evaluateM cfg x)) (f := fun b => Pure.pure (Answer.bool b)) e1
  cases e3
  obtain ⟨p', k1, k2, _⟩ := onSlot_inv e2
  rw [hi'] at k1
  cases k1
  show evaluate cfg a'.mgr p x = .ok (F x) ()
  unfold evaluateM at k2
  cases h : evaluate cfg a'.mgr p x with
  | ok b s => rw [h] at k2; cases k2; rfl
  | throw _ => rw [h] at k2; cases k2
  | assertFail => rw [h] at k2; cases k2
  | ub => rw [h] at k2; cases k2
  | hang => rw [h] at k2; cases k2

theorem Alongside.evaluate (h : Alongside b a) (ha : HeapOk a.count a.mgr) {p : Nat} (hp : a.Holds p) (x : List Bool) :
    LBDD.evaluate cfg a.mgr p x = LBDD.evaluate cfg b.mgr p x := by
  have hm := h.mirror ha
  unfold LBDD.evaluate
  rw [fuel1_alike hm]
  exact evaluateAux_alike hm x _ ⟨p, hp, .refl _⟩

theorem handle_nvars {o : Op} (hc : ∀ f is, o ≠ .call f is) (hg : o ≠ .gc) (e : step cfg o a = .ok () a') : a'.mgr.nvars = a.mgr.nvars := by
  have hacq : ∀ (o : Option Nat) {a a' : Api} {r : Unit}, onMgr (optM o acquire) a = .ok r a' → a'.mgr.nvars = a.mgr.nvars := by
    intro o a a' r e; cases o <;> (cases e; rfl)
  have hrel : ∀ (o : Option Nat) {a a' : Api} {r : Unit}, onMgr (optM o releaseNoAssert) a = .ok r a' → a'.mgr.nvars = a.mgr.nvars := by
    intro o a a' r e; cases o <;> (cases e; rfl)
  cases o with
  | call f is => exact absurd rfl (hc f is)
  | gc => exact absurd rfl hg
  | copy i =>
    simp only [LBDD.step] at e
    rw [M.get_bind_apply] at e
    cases h : a.hs[i]? with
    | none => rw [h] at e; cases e
    | some o =>
      rw [h] at e
      obtain ⟨_, a1, e1, e2⟩ := bind_ok_inv e
      cases e2
      exact (show a1.mgr.nvars = _ from hacq o e1)
  | move i =>
    simp only [LBDD.step] at e
    rw [M.get_bind_apply] at e
    cases h : a.hs[i]? with
    | none => rw [h] at e; cases e
    | some o => rw [h] at e; cases e; rfl
  | assign i j =>
    simp only [LBDD.step] at e
    rw [M.get_bind_apply] at e
    cases h : a.hs[i]? with
    | none => rw [h] at e; cases e
    | some oi =>
      cases h' : a.hs[j]? with
      | none => rw [h, h'] at e; cases e
      | some oj =>
        rw [h, h'] at e
        obtain ⟨_, a1, e1, e2⟩ := bind_ok_inv e
        obtain ⟨_, a2, e3, e4⟩ := bind_ok_inv e2
        cases e4
        exact (hacq oj e3).trans (hrel oi e1)
  | drop i =>
    simp only [LBDD.step] at e
    rw [M.get_bind_apply] at e
    cases h : a.hs[i]? with
    | none => rw [h] at e; cases e
    | some o =>
      rw [h] at e
      cases o with
      | none => cases e; rfl
      | some p =>
        obtain ⟨_, a1, e1, e2⟩ := bind_ok_inv e
        cases e2
        obtain ⟨e3, _⟩ := onMgr_ok e1
        have e3 : release cfg p a.mgr = .ok () a1.mgr := e3
        unfold release at e3
        rw [M.get_bind_apply] at e3
        obtain ⟨_, s2, e5, e6⟩ := bind_ok_inv e3
        have : s2 = a.mgr := by
          unfold M.assert at e5
          split at e5
          · cases e5; rfl
          · cases e5
        subst this
        have e6 : Res.ok () _ = Res.ok () a1.mgr := e6
        injection e6 with _ e6
        show a1.mgr.nvars = _
        rw [← e6]

/-- **C92** After an exception the user can go on copying, moving, assigning and destroying handles: this succeeds, and no BDD that is still held changes its function. -/
theorem C92_handle (h : Caught cfg u a) {o : Op} (hc : ∀ f is, o ≠ .call f is) (hg : o ≠ .gc) (hs : o.Safe cfg u a) :
    ∃ a', step cfg o a = .ok () a' ∧ Caught cfg u a' ∧ a'.mgr.nvars = a.mgr.nvars ∧
      ∀ p F, a.Holds p → a'.Holds p → Denotes cfg a.mgr p F → Denotes cfg a'.mgr p F := by
  obtain ⟨tb, hb⟩ := h.good
  have hA := tabled_along a tb
  have hl : Legal cfg u (a.tabled tb) o := by
    cases o with
    | call f is => exact absurd rfl (hc f is)
    | gc => exact absurd rfl hg
    | _ => trivial
  have hs' : o.Safe cfg u (a.tabled tb) := by
    cases o with
    | call f is => exact absurd rfl (hc f is)
    | _ => exact hs
  have he := hb.ends hl hs'
  obtain ⟨a', e, hA'⟩ : ∃ a', step cfg o a = .ok () a' ∧ True := by
    rcases handle_along (cfg := cfg) hA hb.heap_tabled hb.heapOk hc hg with ⟨a', _, e, _⟩ | ⟨_, e⟩
    · exact ⟨a', e, trivial⟩
    · rw [e] at he; exact he.elim
  have e' := handle_tabled tb hc hg e
  obtain ⟨g, x⟩ := step_good hb hl e'
  have hn : a'.mgr.nvars = a.mgr.nvars := handle_nvars hc hg e
  refine ⟨a', e, .handle h hc hg e, hn, fun p F hp hp' hd y hy => ?_⟩
  have hya : Covers a.mgr y := by unfold Covers at *; omega
  have h1 := hd y hya
  unfold EvalsTo at h1 ⊢
  rw [(tabled_along a' tb).evaluate g.heap_tabled hp']
  rw [hA.evaluate hb.heap_tabled hp] at h1
  obtain ⟨t, ht⟩ := hb.any (p := p) hp
  have h2 : Repr (a'.tabled tb).mgr.cells p t := x.repr ht (Or.inr ⟨p, hp, .refl _⟩)
  have h3 : LBDD.evaluate cfg (a.tabled tb).mgr p y = .ok (t.eval (asg y)) () := denotes_repr hb ht y hya
  have h4 : LBDD.evaluate cfg (a'.tabled tb).mgr p y = .ok (t.eval (asg y)) () := denotes_repr g h2 y hy
  rw [h3] at h1
  rw [h4, h1]

end

/-! ## There are such exceptions -/

/-- **C92**, concretely: with any addresses and hash keys some admissible history has an admissible call that throws. -/
theorem C92_concrete (cfg : Cfg) : ∃ a f is a', Reachable cfg .ordered a ∧ Legal cfg .ordered a (.call f is) ∧ Op.Safe cfg .ordered a (.call f is) ∧
    step cfg (.call f is) a = .throw a' ∧ Caught cfg .ordered a' := by
  refine Classical.byContradiction fun hT => ?_
  obtain ⟨a, f, l, hR, _, hnv, hn, hlen, hl⟩ := build_nodes (cfg := cfg) (fun a op a' h1 ho h2 h3 _ => by
    rcases ho with ⟨v, rfl, _⟩ | ⟨is, rfl⟩
    · have hs : Op.Safe cfg .ordered a (.call (.projection v) []) := ⟨[], rfl, rfl, trivial⟩
      exact hT ⟨a, _, _, a', h1, h2, hs, h3, .thrown h1 h2 hs h3⟩
    · have hs : Op.Safe cfg .ordered a (.call (.uniqueFind 0) is) := by
        have e := h3
        simp only [LBDD.step] at e
        rw [M.get_bind_apply] at e
        cases e1 : a.args is with
        | none => rw [e1] at e; cases e
        | some ps =>
          rcases Fn.takes_or (cfg := cfg) (.uniqueFind 0) ps with h | h
          · exact ⟨ps, e1, h, trivial⟩
          · rw [e1] at e
            have e : (onMgr ((Fn.uniqueFind 0).run cfg ps) >>= pushHandles) a = .throw a' := e
            rw [h] at e
            cases e
      exact hT ⟨a, _, _, a', h1, h2, hs, h3, .thrown h1 h2 hs h3⟩) 262146 (Nat.le_refl _)
  have := table_bound hR hnv hn (fun p hp => ⟨(hl p hp).1, (hl p hp).2.1, (hl p hp).2.2.1⟩)
  omega

end LBDD
