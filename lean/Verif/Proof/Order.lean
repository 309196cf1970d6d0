import Verif.Proof.Query
import Verif.Spec.Order
/-! The exact order of the traversals. -/
namespace LBDD

section
variable {cfg : Cfg} {md : Md} {refs : Nat → Nat} {s : Mgr}

theorem Unfolds.reaches {c : Nat → Cell} {post : Bool} {p : Nat} {u : List Nat} {t : Tree} (h : Unfolds c post p u) (hp : Repr c p t) :
    ∀ q ∈ u, 2 ≤ q ∧ Reaches c p q := by
  induction h generalizing t with
  | sink _ => intro q hq; cases hq
  | @node p l h h2 _ _ ih1 ih2 =>
    intro q hq
    obtain ⟨tl, th, _, hl, _, h3, h4⟩ := hp.inv h2
    have : q ∈ l ∨ q ∈ h ∨ q = p := by
      cases post <;> simp at hq <;> rcases hq with hq | hq | hq <;> simp [hq]
    rcases this with hq | hq | rfl
    · exact ⟨(ih1 h3 q hq).1, .lo h2 hl (ih1 h3 q hq).2⟩
    · exact ⟨(ih2 h4 q hq).1, .hi h2 hl (ih2 h4 q hq).2⟩
    · exact ⟨h2, .refl _⟩

theorem Unfolds.exists {c : Nat → Cell} (post : Bool) {p : Nat} {t : Tree} (hp : Repr c p t) : ∃ u, Unfolds c post p u := by
  induction t generalizing p with
  | node v a b iha ihb =>
    by_cases h2 : 2 ≤ p
    · obtain ⟨tl, th, e, hl, _, h3, h4⟩ := hp.inv h2
      cases e
      obtain ⟨u1, e1⟩ := iha h3
      obtain ⟨u2, e2⟩ := ihb h4
      exact ⟨_, .node h2 e1 e2⟩
    · exact ⟨[], .sink (by omega)⟩
  | _ =>
    by_cases h2 : 2 ≤ p
    · obtain ⟨tl, th, e, _⟩ := hp.inv h2
      cases e
    · exact ⟨[], .sink (by omega)⟩

/-- The flagged nodes below `p` are closed under taking children. -/
def DownClosed (c : Nat → Cell) (m : Nat → Bool) (p : Nat) : Prop :=
  ∀ q r, Reaches c p q → 2 ≤ q → m q = true → (r = (c q).lo ∨ r = (c q).hi) → 2 ≤ r → m r = true

theorem DownClosed.all {c : Nat → Cell} {m : Nat → Bool} {p q : Nat} (h : DownClosed c m p) (hm : m p = true) (hr : Reaches c p q) (h2 : 2 ≤ q) :
    2 ≤ p → m q = true := by
  induction hr with
  | refl => exact fun _ => hm
  | @lo p q p2 pl hr ih =>
    intro _
    by_cases l2 : 2 ≤ (c p).lo
    · exact ih (fun a b ha => h a b (.lo p2 pl ha)) (h p _ (.refl _) p2 hm (Or.inl rfl) l2) h2 l2
    · cases hr with
      | refl => exact absurd h2 l2
      | lo a _ _ => exact absurd a l2
      | hi a _ _ => exact absurd a l2
  | @hi p q p2 pl hr ih =>
    intro _
    by_cases l2 : 2 ≤ (c p).hi
    · exact ih (fun a b ha => h a b (.hi p2 pl ha)) (h p _ (.refl _) p2 hm (Or.inr rfl) l2) h2 l2
    · cases hr with
      | refl => exact absurd h2 l2
      | lo a _ _ => exact absurd a l2
      | hi a _ _ => exact absurd a l2

theorem eraseDups_pre {p : Nat} {A B : List Nat} (ha : p ∉ A) (hb : p ∉ B) :
    (p :: (A ++ B)).eraseDups = p :: (A.eraseDups ++ (B.removeAll A).eraseDups) := by
  rw [List.eraseDups_cons]
  have : (A ++ B).filter (fun b => !b == p) = A ++ B := by
    rw [List.filter_eq_self]
    intro x hx
    have : x ≠ p := by
      rintro rfl
      rcases List.mem_append.1 hx with h | h
      · exact ha h
      · exact hb h
    simp [this]
  rw [this, List.eraseDups_append]

theorem eraseDups_post {p : Nat} {A B : List Nat} (ha : p ∉ A) (hb : p ∉ B) :
    (A ++ B ++ [p]).eraseDups = A.eraseDups ++ (B.removeAll A).eraseDups ++ [p] := by
  rw [List.eraseDups_append, List.eraseDups_append]
  have : ([p] : List Nat).removeAll (A ++ B) = [p] := by
    simp [List.removeAll, ha, hb]
  rw [this]
  rfl

theorem visit_order (hi : Inv cfg md refs s) (post : Bool) : ∀ (n p : Nat) (t : Tree) (u : List Nat), Repr s.cells p t → t.height + 1 ≤ n →
    Unfolds s.cells post p u → ∀ m : Nat → Bool, (2 ≤ p → m p = false) → DownClosed s.cells m p → ∀ l s', 
    visit cfg post n p { s with marks := m } = .ok l s' → l = (u.filter (fun q => !m q)).eraseDups := by
  intro n
  induction n with
  | zero => intro p t u _ h; omega
  | succ n ih =>
    intro p t u hp hn hu m hm hd l s' e
    unfold visit at e
    rw [M.bind_ok (isTerm_ok hi hp (s' := { s with marks := m }) rfl)] at e
    by_cases h2 : p < 2
    · simp only [h2, decide_true, if_true] at e
      cases hu with
      | sink _ => cases e; rfl
      | node h _ _ => omega
    · simp only [h2, decide_false, Bool.false_eq_true, if_false] at e
      have h2' : 2 ≤ p := by omega
      obtain ⟨tl, th, rfl, hl, _, h3, h4⟩ := hp.inv h2'
      simp only [Tree.height] at hn
      have hmp := hm h2'
      rw [M.bind_ok (getMark_ok { s with marks := m } p), M.assert_bind_apply (by simp [hmp])] at e
      rw [M.bind_ok (setMark_ok { s with marks := m } p true)] at e
      rw [M.bind_ok (lowOf_congr hi h2' hl (s' := { s with marks := upd m p true }) rfl)] at e
      have sub : ∀ (q : Nat) (tq : Tree) (uq : List Nat), Repr s.cells q tq → tq.height + 1 ≤ n → Unfolds s.cells post q uq → ∀ m, DownClosed s.cells m q → ∃ l m',
          ifUnmarked (visit cfg post n) q { s with marks := m } = .ok l { s with marks := m' } ∧ DfsOut s.cells true m m' q l ∧
          l = (uq.filter (fun q => !m q)).eraseDups := by
        intro q tq uq hq hqn huq m hdm
        unfold ifUnmarked
        rw [M.bind_ok (getMark_ok { s with marks := m } q)]
        cases e : m q with
        | true =>
          simp only [e, if_true]
          refine ⟨[], m, rfl, .nil (fun _ => e), ?_⟩
          have : uq.filter (fun q => !m q) = [] := by
            rw [List.filter_eq_nil_iff]
            intro r hr
            obtain ⟨r2, rr⟩ := huq.reaches hq r hr
            have q2 : 2 ≤ q := by
              rcases Nat.lt_or_ge q 2 with h | h
              · cases huq with
                | sink _ => cases hr
                | node h' _ _ => omega
              · exact h
            simp [hdm.all e rr r2 q2]
          rw [this]; rfl
        | false =>
          simp only [e, Bool.false_eq_true, if_false]
          obtain ⟨l, m', a, b, _⟩ := visit_ok (cfg := cfg) hi post n q tq hq hqn m (fun _ => e)
          exact ⟨l, m', a, b, ih q tq uq hq hqn huq m (fun _ => e) hdm l _ a⟩
      cases hu with
      | sink h => omega
      | @node _ u1 u2 _ hu1 hu2 =>
        have np : ∀ x, (x = (s.cells p).lo ∨ x = (s.cells p).hi) → ∀ q, Reaches s.cells x q → q ≠ p := by
          rintro x hx q hr rfl
          exact hp.acyclic h2' hx hr
        have p1 : p ∉ u1 := fun h => np _ (Or.inl rfl) p (hu1.reaches h3 p h).2 rfl
        have p2 : p ∉ u2 := fun h => np _ (Or.inr rfl) p (hu2.reaches h4 p h).2 rfl
        have dlo : DownClosed s.cells (upd m p true) (s.cells p).lo := by
          intro q r hr q2 hq hrq r2
          rw [upd_ne _ _ (np _ (Or.inl rfl) q hr)] at hq
          have rn : r ≠ p := np _ (Or.inl rfl) r (hr.trans (by
            have ql := hr.live_or hi h3
            rcases hrq with rfl | rfl
            · exact .lo q2 ql (.refl _)
            · exact .hi q2 ql (.refl _)))
          rw [upd_ne _ _ rn]
          exact hd q r (.lo h2' hl hr) q2 hq hrq r2
        obtain ⟨l1, m2, e1, d1, f1⟩ := sub _ _ u1 h3 (by omega) hu1 (upd m p true) dlo
        rw [M.bind_ok e1] at e
        rw [M.bind_ok (highOf_congr hi h2' hl (s' := { s with marks := m2 }) rfl)] at e
        have dhi : DownClosed s.cells m2 (s.cells p).hi := by
          intro q r hr q2 hq hrq r2
          rw [d1.marks] at hq ⊢
          have rn : r ≠ p := np _ (Or.inr rfl) r (hr.trans (by
            have ql := hr.live_or hi h4
            rcases hrq with rfl | rfl
            · exact .lo q2 ql (.refl _)
            · exact .hi q2 ql (.refl _)))
          by_cases rl : r ∈ l1
          · rw [if_pos rl]
          · rw [if_neg rl]
            by_cases ql : q ∈ l1
            · exact (d1.closed q ql r hrq r2).resolve_left rl
            · rw [if_neg ql, upd_ne _ _ (np _ (Or.inr rfl) q hr)] at hq
              rw [upd_ne _ _ rn]
              exact hd q r (.hi h2' hl hr) q2 hq hrq r2
        obtain ⟨l2, m3, e2, d2, f2⟩ := sub _ _ u2 h4 (by omega) hu2 m2 dhi
        rw [M.bind_ok e2] at e
        have e3 : (if post then l1 ++ l2 ++ [p] else p :: (l1 ++ l2)) = l := by cases e; rfl
        have g1 : u1.filter (fun q => !upd m p true q) = u1.filter (fun q => !m q) := by
          refine List.filter_congr ?_
          intro x hx
          have xp : x ≠ p := fun h => p1 (h ▸ hx)
          rw [upd_ne _ _ xp]
        rw [g1] at f1
        have g2 : u2.filter (fun q => !m2 q) = (u2.filter (fun q => !m q)).removeAll (u1.filter (fun q => !m q)) := by
          unfold List.removeAll
          rw [List.filter_filter]
          refine List.filter_congr ?_
          intro x hx
          have xp : x ≠ p := fun e => p2 (e ▸ hx)
          rw [d1.marks, upd_ne _ _ xp]
          have : x ∈ l1 ↔ x ∈ u1.filter (fun q => !m q) := by rw [f1, List.mem_eraseDups]
          by_cases h : x ∈ l1
          · have h' := this.1 h
            simp only [if_pos h]
            have : (u1.filter (fun q => !m q)).elem x = true := by simpa using h'
            rw [this]; rfl
          · have h' : x ∉ u1.filter (fun q => !m q) := fun hh => h (this.2 hh)
            simp only [if_neg h]
            have : (u1.filter (fun q => !m q)).elem x = false := by simpa using h'
            rw [this]; simp
        rw [g2] at f2
        have q1 : p ∉ u1.filter (fun q => !m q) := fun h => p1 (List.mem_filter.1 h).1
        have q2 : p ∉ u2.filter (fun q => !m q) := fun h => p2 (List.mem_filter.1 h).1
        rw [← e3, f1, f2]
        cases post with
        | true =>
          simp only [if_true, List.filter_append]
          rw [show [p].filter (fun q => !m q) = [p] by simp [hmp], eraseDups_post q1 q2]
        | false =>
          simp only [Bool.false_eq_true, if_false]
          rw [List.filter_cons, if_pos (by simp [hmp]), List.filter_append, eraseDups_pre q1 q2]

/-! ### breadth first -/

theorem bfsPush_order (hi : Inv cfg md refs s) {root r : Nat} {t : Tree} (hr : Repr s.cells r t) (rl : Reaches s.cells root r) {m : Nat → Bool} {L dq dq' : List Nat} {s' : Mgr}
    (hm : ∀ q, 2 ≤ q → Reaches s.cells root q → (m q = true ↔ q ∈ L)) (e : bfsPush cfg r dq { s with marks := m } = .ok dq' s') :
    ∃ m', s' = { s with marks := m' } ∧ dq' = dq ++ (([r].filter (2 ≤ ·)).removeAll L) ∧
      ∀ q, 2 ≤ q → Reaches s.cells root q → (m' q = true ↔ q ∈ L ++ (([r].filter (2 ≤ ·)).removeAll L)) := by
  unfold bfsPush at e
  rw [M.bind_ok (isTerm_ok hi hr (s' := { s with marks := m }) rfl)] at e
  by_cases r2 : r < 2
  · simp only [r2, decide_true, if_true] at e
    have : [r].filter (2 ≤ ·) = [] := by simp; omega
    rw [this]
    cases e
    exact ⟨m, rfl, by simp [List.removeAll], by simpa [List.removeAll] using hm⟩
  · simp only [r2, decide_false, Bool.false_eq_true, if_false] at e
    rw [M.bind_ok (getMark_ok { s with marks := m } r)] at e
    have hf : [r].filter (2 ≤ ·) = [r] := by simp; omega
    rw [hf]
    cases e1 : m r with
    | true =>
      simp only [e1, if_true] at e
      have hrL := (hm r (by omega) rl).1 e1
      have : [r].removeAll L = [] := by simp [List.removeAll, hrL]
      rw [this]
      cases e
      exact ⟨m, rfl, by simp, by simpa using hm⟩
    | false =>
      simp only [e1, Bool.false_eq_true, if_false] at e
      rw [M.bind_ok (setMark_ok { s with marks := m } r true)] at e
      have hrL : r ∉ L := fun h => by rw [(hm r (by omega) rl).2 h] at e1; cases e1
      have : [r].removeAll L = [r] := by simp [List.removeAll, hrL]
      rw [this]
      cases e
      refine ⟨_, rfl, rfl, ?_⟩
      intro q q2 ql
      by_cases h : q = r
      · subst h; simp
      · rw [upd_ne _ _ h, hm q q2 ql]; simp [h]

theorem bfsLoop_order (hi : Inv cfg md refs s) {root : Nat} {t0 : Tree} (h0 : Repr s.cells root t0) : ∀ (n : Nat) (dq acc : List Nat) (m : Nat → Bool) (l : List Nat) (s' : Mgr),
    (∀ q ∈ acc ++ dq, 2 ≤ q ∧ Reaches s.cells root q) →
    (∀ q, 2 ≤ q → Reaches s.cells root q → (m q = true ↔ q ∈ acc ++ dq)) →
    acc ++ dq = (root :: acc.flatMap (innerChildren s.cells)).eraseDups →
    bfsLoop cfg n dq acc { s with marks := m } = .ok l s' → l = (root :: l.flatMap (innerChildren s.cells)).eraseDups := by
  intro n
  induction n with
  | zero =>
    intro dq acc m l s' hl hm hq e
    cases dq with
    | nil => unfold bfsLoop at e; cases e; simpa using hq
    | cons p dq => unfold bfsLoop at e; cases e
  | succ n ih =>
    intro dq acc m l s' hl hm hq e
    cases dq with
    | nil => unfold bfsLoop at e; cases e; simpa using hq
    | cons p dq =>
      unfold bfsLoop at e
      obtain ⟨p2, pr⟩ := hl p (by simp)
      have pl := pr.live_or hi h0
      have rlo : Reaches s.cells root (s.cells p).lo := pr.trans (.lo p2 pl (.refl _))
      have rhi : Reaches s.cells root (s.cells p).hi := pr.trans (.hi p2 pl (.refl _))
      rw [M.bind_ok (getMark_ok { s with marks := m } p)] at e
      rw [M.assert_bind_apply ((hm p p2 pr).2 (by simp))] at e
      rw [M.bind_ok (lowOf_congr hi p2 pl (s' := { s with marks := m }) rfl)] at e
      obtain ⟨tl, htl⟩ := hi.repr (hi.lo_live p2 pl)
      obtain ⟨th, hth⟩ := hi.repr (hi.hi_live p2 pl)
      obtain ⟨dq1, s1, e1, e⟩ := bind_ok_inv e
      obtain ⟨m1, es1, ed1, hm1⟩ := bfsPush_order hi htl rlo hm e1
      rw [es1] at e
      rw [M.bind_ok (highOf_congr hi p2 pl (s' := { s with marks := m1 }) rfl)] at e
      obtain ⟨dq2, s2, e2, e⟩ := bind_ok_inv e
      obtain ⟨m2, es2, ed2, hm2⟩ := bfsPush_order hi hth rhi hm1 e2
      rw [es2] at e
      have key : (acc ++ [p]) ++ dq2 = (root :: (acc ++ [p]).flatMap (innerChildren s.cells)).eraseDups := by
        have h1 : (acc ++ [p]) ++ dq2 = ((acc ++ p :: dq) ++ ([(s.cells p).lo].filter (2 ≤ ·)).removeAll (acc ++ p :: dq)) ++
            ([(s.cells p).hi].filter (2 ≤ ·)).removeAll ((acc ++ p :: dq) ++ ([(s.cells p).lo].filter (2 ≤ ·)).removeAll (acc ++ p :: dq)) := by
          rw [ed2, ed1]; simp
        have snoc : ∀ (X : List Nat) (r : Nat), (X ++ [r].filter (2 ≤ ·)).eraseDups = X.eraseDups ++ ([r].filter (2 ≤ ·)).removeAll X.eraseDups := by
          intro X r
          rw [List.eraseDups_append]
          congr 1
          by_cases h : 2 ≤ r
          · rw [show [r].filter (2 ≤ ·) = [r] by simp [h]]
            by_cases hx : r ∈ X <;> simp [List.removeAll, hx, List.eraseDups_cons]
          · rw [show [r].filter (2 ≤ ·) = [] by simp; omega]; rfl
        rw [h1, hq, ← snoc, ← snoc]
        congr 1
        simp only [List.flatMap_append, List.flatMap_cons, List.flatMap_nil, List.append_nil, List.cons_append, innerChildren, List.append_assoc]
        rw [show [(s.cells p).lo, (s.cells p).hi] = [(s.cells p).lo] ++ [(s.cells p).hi] from rfl, List.filter_append]
      refine ih dq2 (acc ++ [p]) m2 l s' ?_ ?_ key e
      · intro q hq'
        have hq2 : q ∈ (acc ++ p :: dq) ∨ (q = (s.cells p).lo ∧ 2 ≤ q) ∨ (q = (s.cells p).hi ∧ 2 ≤ q) := by
          rw [ed2, ed1] at hq'
          simp only [List.mem_append, List.removeAll, List.mem_filter, List.mem_cons, List.not_mem_nil, or_false, decide_eq_true_eq] at hq' ⊢
          rcases hq' with (h | h) | (h | h) | h
          · exact Or.inl (Or.inl h)
          · exact Or.inl (Or.inr (Or.inl h))
          · exact Or.inl (Or.inr (Or.inr h))
          · exact Or.inr (Or.inl h.1)
          · exact Or.inr (Or.inr h.1)
        rcases hq2 with h | ⟨h, h'⟩ | ⟨h, h'⟩
        · exact hl q h
        · exact ⟨h', h ▸ rlo⟩
        · exact ⟨h', h ▸ rhi⟩
      · intro q q2 ql
        rw [hm2 q q2 ql, ed2, ed1]
        simp

end
end LBDD
