import Verif.Proof.Order
import Verif.Spec.Marks
/-! Traversals of a BDD none of whose nodes is marked, whatever the other mark bits are; `unmark` and `mark` from arbitrary mark bits. -/
namespace LBDD
section
variable {cfg : Cfg} {md : Md} {refs : Nat → Nat} {s : Mgr} {p : Nat} {t : Tree} {k : Nat → Bool}

theorem fuel1_marks (s : Mgr) (k : Nat → Bool) : fuel1 { s with marks := k } = fuel1 s := rfl

theorem unmark_clean (hi : Inv cfg md refs s) (hp : Repr s.cells p t) (hk : ∀ q, 2 ≤ q → Reaches s.cells p q → k q = false) {m' : Nat → Bool} {l : List Nat}
    (hm : ∀ q, m' q = if q ∈ l then true else k q) (hl : ∀ q, q ∈ l ↔ 2 ≤ q ∧ Reaches s.cells p q) :
    unmark cfg (fuel1 s) p { s with marks := m' } = .ok () { s with marks := k } := by
  obtain ⟨l2, m'', e, d⟩ := unmark_ok hi (fuel1 s) p t hp (by have := hi.ht _ _ hp; unfold fuel1; omega) m'
  rw [e]
  have h2 := d.mem_iff (fun q q2 hr => by rw [hm, if_pos ((hl q).2 ⟨q2, hr⟩)]; decide)
  have : m'' = k := by
    funext q
    rw [d.marks, hm]
    by_cases hq : q ∈ l
    · have hq' := (hl q).1 hq
      rw [if_pos ((h2 q).2 hq'), hk q hq'.1 hq'.2]
    · rw [if_neg (fun h => hq ((hl q).2 ((h2 q).1 h))), if_neg hq]
  subst this; rfl

theorem visit_clean (hi : Inv cfg md refs s) (post : Bool) (hp : Repr s.cells p t) (hk : ∀ q, 2 ≤ q → Reaches s.cells p q → k q = false) {w : List Nat}
    (hw : Unfolds s.cells post p w) :
    ∃ s1, visit cfg post (fuel1 s) p { s with marks := k } = .ok w.eraseDups s1 ∧ unmark cfg (fuel1 s) p s1 = .ok () { s with marks := k } ∧
      Lists s.cells p w.eraseDups := by
  have hf : t.height + 1 ≤ fuel1 s := by have := hi.ht _ _ hp; unfold fuel1; omega
  obtain ⟨l, m', e, d, _⟩ := visit_ok hi post (fuel1 s) p t hp hf k (fun h2 => hk p h2 (.refl _))
  have hmem := d.mem_iff (fun q q2 hr => by rw [hk q q2 hr]; decide)
  have ho := visit_order hi post (fuel1 s) p t w hp hf hw k (fun h2 => hk p h2 (.refl _))
    (fun q r hr q2 hq _ _ => by rw [hk q q2 hr] at hq; cases hq) l _ e
  have hfi : w.filter (fun q => !k q) = w := by
    rw [List.filter_eq_self]
    intro q hq
    obtain ⟨q2, qr⟩ := hw.reaches hp q hq
    simp [hk q q2 qr]
  rw [hfi] at ho
  subst ho
  exact ⟨_, e, unmark_clean hi hp hk d.marks hmem, ⟨d.nodup, hmem⟩⟩

theorem nrNodes_clean (hi : Inv cfg md refs s) (hp : Repr s.cells p t) (hk : ∀ q, 2 ≤ q → Reaches s.cells p q → k q = false) (p2 : 2 ≤ p)
    {l : List Nat} (hl : Lists s.cells p l) : nrNodes cfg p { s with marks := k } = .ok l.length { s with marks := k } := by
  obtain ⟨w, hw⟩ := Unfolds.exists false hp
  obtain ⟨s1, e1, e2, h⟩ := visit_clean hi false hp hk hw
  unfold nrNodes
  rw [M.get_bind_apply, fuel1_marks, M.bind_ok (getMark_ok { s with marks := k } p), M.assert_bind_apply (by simp [hk p p2 (.refl _)]), M.bind_ok e1, M.bind_ok e2,
    hl.length_eq h]
  rfl

theorem assertCount_clean (hi : Inv cfg md refs s) (hp : Repr s.cells p t) (hk : ∀ q, 2 ≤ q → Reaches s.cells p q → k q = false) (p2 : 2 ≤ p)
    {l : List Nat} (hl : Lists s.cells p l) : assertCount cfg p l.length { s with marks := k } = .ok () { s with marks := k } := by
  unfold assertCount
  split
  · rfl
  · rw [M.bind_ok (nrNodes_clean hi hp hk p2 hl)]
    unfold M.assert
    simp

theorem nodesPostorder_clean (hi : Inv cfg md refs s) (hp : Repr s.cells p t) (hk : ∀ q, 2 ≤ q → Reaches s.cells p q → k q = false) (p2 : 2 ≤ p)
    {w : List Nat} (hw : Unfolds s.cells true p w) : nodesPostorder cfg p { s with marks := k } = .ok w.eraseDups { s with marks := k } := by
  obtain ⟨s1, e1, e2, h⟩ := visit_clean hi true hp hk hw
  unfold nodesPostorder
  rw [M.get_bind_apply, fuel1_marks, M.bind_ok (getMark_ok { s with marks := k } p), M.assert_bind_apply (by simp [hk p p2 (.refl _)]), M.bind_ok e1, M.bind_ok e2,
    M.bind_ok (assertCount_clean hi hp hk p2 h)]
  rfl

theorem variables_clean (hi : Inv cfg md refs s) (hp : Repr s.cells p t) (hk : ∀ q, 2 ≤ q → Reaches s.cells p q → k q = false)
    {w : List Nat} (hw : Unfolds s.cells false p w) :
    variables cfg p { s with marks := k } = .ok (sortUniq (w.eraseDups.map fun q => (s.cells q).index)) { s with marks := k } := by
  obtain ⟨s1, e1, e2, h⟩ := visit_clean hi false hp hk hw
  unfold variables
  rw [M.get_bind_apply, fuel1_marks, M.bind_ok e1, M.bind_ok e2]
  rfl

theorem printArcs_clean (hi : Inv cfg md refs s) (hp : Repr s.cells p t) (hk : ∀ q, 2 ≤ q → Reaches s.cells p q → k q = false)
    {w : List Nat} (hw : Unfolds s.cells false p w) :
    printArcs cfg p { s with marks := k } =
      .ok (w.eraseDups.flatMap fun q => [(q, false, (s.cells q).lo), (q, true, (s.cells q).hi)]) { s with marks := k } := by
  obtain ⟨s1, e1, e2, h⟩ := visit_clean hi false hp hk hw
  unfold printArcs
  rw [M.get_bind_apply, fuel1_marks, M.bind_ok e1, M.bind_ok e2]
  rfl

theorem nodesBfs_clean (hi : Inv cfg md refs s) (hp : Repr s.cells p t) (hk : ∀ q, 2 ≤ q → Reaches s.cells p q → k q = false) (h2 : 2 ≤ p) :
    ∃ l, nodesBfs cfg p { s with marks := k } = .ok l { s with marks := k } ∧ BfsList s.cells p l ∧
      l = (p :: l.flatMap (innerChildren s.cells)).eraseDups := by
  have hl := hi.live_of hp
  have hmp := hk p h2 (.refl _)
  have h0 : Bfs s.cells p k (upd k p true) ([] ++ [p]) (fun _ => 0) := by
    constructor
    · intro q
      by_cases e : q = p
      · subst e; simp
      · rw [upd_ne _ _ e]; simp [e]
    · simp
    · intro q hq; simp only [List.nil_append, List.mem_singleton] at hq; subst hq; exact ⟨h2, hl, hmp⟩
    · exact ⟨[], rfl⟩
    · rfl
    · simp
    · intro q hq; simp only [List.nil_append, List.mem_singleton] at hq; subst hq; exact .refl _
    · intro l1 q l2 e
      cases l1 with
      | nil => simp only [List.nil_append, List.cons.injEq] at e; exact Or.inl e.1.symm
      | cons x l1 => simp at e
  obtain ⟨l, m', d', e, b, hc⟩ := bfsLoop_ok (cfg := cfg) hi hk ((s.pool.pages - 1) * 4096 + s.pool.off + 1) [p] [] _ _ h0 (by simp [Pool.hw])
    (fun _ _ _ _ _ => Nat.zero_le _) (by intro q hq; cases hq)
  have hbl := bfsList_of b hc
  refine ⟨l, ?_, hbl, ?_⟩
  · unfold nodesBfs
    rw [M.get_bind_apply, fuel1_marks, M.bind_ok (getMark_ok { s with marks := k } p), M.assert_bind_apply (by simp [hmp]),
      M.bind_ok (setMark_ok { s with marks := k } p true)]
    rw [M.bind_ok (e : bfsLoop cfg _ [p] [] { s with marks := upd k p true } = _)]
    rw [M.bind_ok (unmark_clean hi hp hk b.marks hbl.lists.mem), M.bind_ok (assertCount_clean hi hp hk h2 hbl.lists)]
    rfl
  · refine bfsLoop_order hi hp _ [p] [] _ _ _ ?_ ?_ (by rfl) e
    · intro q hq
      simp only [List.nil_append, List.mem_singleton] at hq
      subst hq; exact ⟨h2, .refl _⟩
    · intro q q2 ql
      by_cases h : q = p
      · subst h; simp
      · rw [upd_ne _ _ h, hk q q2 ql]; simp [h]

/-! ### clearing and setting flags recursively -/

theorem MarkedPath.mono {c : Nat → Cell} {m m' : Nat → Bool} (h : ∀ q, m q = true → m' q = true) {q : Nat} (hp : MarkedPath c m p q) :
    MarkedPath c m' p q := by
  induction hp with
  | refl h2 hm => exact .refl h2 (h _ hm)
  | lo h2 hm _ ih => exact .lo h2 (h _ hm) ih
  | hi h2 hm _ ih => exact .hi h2 (h _ hm) ih

theorem MarkedPath.left {c : Nat → Cell} {m : Nat → Bool} {q : Nat} (hp : MarkedPath c m p q) : 2 ≤ p ∧ m p = true := by
  cases hp <;> exact ⟨by assumption, by assumption⟩

theorem MarkedPath.right {c : Nat → Cell} {m : Nat → Bool} {q : Nat} (hp : MarkedPath c m p q) : 2 ≤ q ∧ m q = true := by
  induction hp with
  | refl a b => exact ⟨a, b⟩
  | lo _ _ _ ih => exact ih
  | hi _ _ _ ih => exact ih

theorem unmark_path (hi : Inv cfg md refs s) : ∀ (n p : Nat) (t : Tree), Repr s.cells p t → t.height + 1 ≤ n → ∀ m m' : Nat → Bool,
    unmark cfg n p { s with marks := m } = .ok () { s with marks := m' } → ∀ q, m q = true → m' q = false → MarkedPath s.cells m p q := by
  intro n
  induction n with
  | zero => intro p t _ h; omega
  | succ n ih =>
    intro p t hp hn m m' e q hq hq'
    unfold unmark at e
    rw [M.bind_ok (isTerm_ok hi hp (s' := { s with marks := m }) rfl)] at e
    by_cases h2 : p < 2
    · simp only [h2, decide_true, if_true] at e
      have : m = m' := by injection e with _ h; injection h
      rw [this, hq'] at hq; cases hq
    · simp only [h2, decide_false, Bool.false_eq_true, if_false] at e
      have h2' : 2 ≤ p := by omega
      obtain ⟨tl, th, rfl, hl, _, h3, h4⟩ := hp.inv h2'
      simp only [Tree.height] at hn
      rw [M.bind_ok (getMark_ok { s with marks := m } p)] at e
      cases e0 : m p with
      | false =>
        simp only [e0, Bool.false_eq_true, if_false] at e
        have : m = m' := by injection e with _ h; injection h
        rw [this, hq'] at hq; cases hq
      | true =>
        simp only [e0, if_true] at e
        rw [M.bind_ok (setMark_ok { s with marks := m } p false)] at e
        rw [M.bind_ok (lowOf_congr hi h2' hl (s' := { s with marks := upd m p false }) rfl)] at e
        obtain ⟨l1, m2, e1, d1⟩ := unmark_ok hi n _ _ h3 (by omega) (upd m p false)
        rw [M.bind_ok e1] at e
        rw [M.bind_ok (highOf_congr hi h2' hl (s' := { s with marks := m2 }) rfl)] at e
        have le1 : ∀ x, upd m p false x = true → m x = true := by
          intro x hx
          by_cases hxp : x = p
          · subst hxp; simp at hx
          · rwa [upd_ne _ _ hxp] at hx
        have le2 : ∀ x, m2 x = true → upd m p false x = true := by
          intro x hx
          rw [d1.marks] at hx
          split at hx
          · cases hx
          · exact hx
        by_cases hqp : q = p
        · subst hqp; exact .refl h2' e0
        · have hq1 : upd m p false q = true := by rw [upd_ne _ _ hqp]; exact hq
          cases hq2 : m2 q with
          | false => exact .lo h2' e0 ((ih _ _ h3 (by omega) _ _ e1 q hq1 hq2).mono le1)
          | true => exact .hi h2' e0 ((ih _ _ h4 (by omega) _ _ e q hq2 hq').mono (fun x hx => le1 x (le2 x hx)))

/-- `unmark` clears exactly the nodes on paths of marked nodes. -/
theorem unmark_exact (hi : Inv cfg md refs s) (hp : Repr s.cells p t) (k : Nat → Bool) :
    ∃ m', unmark cfg (fuel1 s) p { s with marks := k } = .ok () { s with marks := m' } ∧
      ∀ q, m' q = true ↔ k q = true ∧ ¬ MarkedPath s.cells k p q := by
  have hf : t.height + 1 ≤ fuel1 s := by have := hi.ht _ _ hp; unfold fuel1; omega
  obtain ⟨l, m', e, d⟩ := unmark_ok hi (fuel1 s) p t hp hf k
  refine ⟨m', e, ?_⟩
  have hin : ∀ {x q}, MarkedPath s.cells k x q → (x ∈ l ∨ k x = false) → q ∈ l := by
    intro x q hx
    induction hx with
    | refl h2 hm => intro h; exact h.resolve_right (by rw [hm]; decide)
    | @lo x q h2 hm hx ih =>
      intro h
      have hxl := h.resolve_right (by rw [hm]; decide)
      exact ih (d.closed x hxl _ (Or.inl rfl) hx.left.1)
    | @hi x q h2 hm hx ih =>
      intro h
      have hxl := h.resolve_right (by rw [hm]; decide)
      exact ih (d.closed x hxl _ (Or.inr rfl) hx.left.1)
  intro q
  constructor
  · intro hq
    rw [d.marks] at hq
    split at hq
    · cases hq
    · rename_i hql
      exact ⟨hq, fun h => hql (hin h (d.root h.left.1))⟩
  · rintro ⟨h1, h2⟩
    cases h3 : m' q with
    | true => rfl
    | false => exact absurd (unmark_path hi _ p t hp hf k m' e q h1 h3) h2

theorem markRec_ok (hi : Inv cfg md refs s) : ∀ (n p : Nat) (t : Tree), Repr s.cells p t → t.height + 1 ≤ n →
    ∀ m : Nat → Bool, ∃ l m', markRec cfg n p { s with marks := m } = .ok () { s with marks := m' } ∧
      DfsOut s.cells true m m' p l := by
  intro n
  induction n with
  | zero => intro p t _ h; omega
  | succ n ih =>
    intro p t hp hn m
    unfold markRec
    rw [M.bind_ok (isTerm_ok hi hp (s' := { s with marks := m }) rfl)]
    by_cases h2 : p < 2
    · simp only [h2, decide_true, if_true]
      exact ⟨[], m, rfl, .nil (fun h => absurd h2 (by omega))⟩
    · simp only [h2, decide_false, Bool.false_eq_true, if_false]
      have h2' : 2 ≤ p := by omega
      obtain ⟨tl, th, rfl, hl, _, h3, h4⟩ := hp.inv h2'
      simp only [Tree.height] at hn
      rw [M.bind_ok (getMark_ok { s with marks := m } p)]
      cases e : m p with
      | true => simp only [e, if_true]; exact ⟨[], m, rfl, .nil (fun _ => e)⟩
      | false =>
        simp only [e, Bool.false_eq_true, if_false]
        rw [M.bind_ok (setMark_ok { s with marks := m } p true)]
        rw [M.bind_ok (lowOf_congr hi h2' hl (s' := { s with marks := upd m p true }) rfl)]
        obtain ⟨l1, m2, e1, d1⟩ := ih _ _ h3 (by omega) (upd m p true)
        rw [M.bind_ok e1]
        rw [M.bind_ok (highOf_congr hi h2' hl (s' := { s with marks := m2 }) rfl)]
        obtain ⟨l2, m3, e2, d2⟩ := ih _ _ h4 (by omega) m2
        exact ⟨_, m3, e2, DfsOut.node h2' hl (by simp [e]) d1 d2 (List.Perm.refl _)⟩

end
end LBDD
