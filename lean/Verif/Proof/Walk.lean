import Verif.Model.Walk
import Verif.Proof.Vars
/-! Mark-based traversals: every query leaves the manager exactly as it was. -/
namespace LBDD
section
variable {cfg : Cfg} {md : Md} {refs : Nat → Nat} {s : Mgr}

theorem isBot_congr {s' : Mgr} {p : Nat} {b : Bool} (hc : s'.cells = s.cells) (h : isBot cfg p s = .ok b s) :
    isBot cfg p s' = .ok b s' := by
  unfold isBot at *
  rw [M.get_bind_apply] at *
  simp only [hc] at *
  change M.bind _ _ _ = _ at h
  change M.bind _ _ _ = _
  unfold M.bind M.assert at *
  split at h <;> rename_i h1 <;> split at h1 <;> simp_all
  · injection h with h2 _; subst h2; rfl

theorem isTop_congr {s' : Mgr} {p : Nat} {b : Bool} (hc : s'.cells = s.cells) (h : isTop cfg p s = .ok b s) :
    isTop cfg p s' = .ok b s' := by
  unfold isTop at *
  rw [M.get_bind_apply] at *
  simp only [hc] at *
  change M.bind _ _ _ = _ at h
  change M.bind _ _ _ = _
  unfold M.bind M.assert at *
  split at h <;> rename_i h1 <;> split at h1 <;> simp_all
  · injection h with h2 _; subst h2; rfl

theorem isTerm_ok (hi : Inv cfg md refs s) {p : Nat} {t : Tree} (h : Repr s.cells p t) {s' : Mgr} (hc : s'.cells = s.cells) :
    isTerm cfg p s' = .ok (decide (p < 2)) s' := by
  unfold isTerm
  rw [M.bind_ok (isTop_congr hc (isTop_ok hi h))]
  by_cases h1 : p = 1
  · subst h1; rfl
  · simp only [h1, decide_false, Bool.false_eq_true, if_false]
    rw [isBot_congr hc (isBot_ok hi h)]
    by_cases h0 : p = 0
    · subst h0; rfl
    · have : ¬ p < 2 := by omega
      simp [h0, this]

/-! ### depth-first search -/

/-- Outcome of a depth-first search from `p` that flips flags to `b`: `l` is the list of nodes flipped. -/
structure DfsOut (c : Nat → Cell) (b : Bool) (m m' : Nat → Bool) (p : Nat) (l : List Nat) : Prop where
  marks : ∀ q, m' q = if q ∈ l then b else m q
  new : ∀ q ∈ l, 2 ≤ q ∧ (c q).live = true ∧ m q ≠ b ∧ Reaches c p q
  nodup : l.Nodup
  root : 2 ≤ p → p ∈ l ∨ m p = b
  closed : ∀ q ∈ l, ∀ r, (r = (c q).lo ∨ r = (c q).hi) → 2 ≤ r → r ∈ l ∨ m r = b

theorem DfsOut.nil {c : Nat → Cell} {b : Bool} {m : Nat → Bool} {p : Nat} (h : 2 ≤ p → m p = b) : DfsOut c b m m p [] where
  marks q := by simp
  new q h := by simp at h
  nodup := List.nodup_nil
  root h2 := Or.inr (h h2)
  closed q h := by simp at h

theorem DfsOut.node {c : Nat → Cell} {b : Bool} {m m2 m3 : Nat → Bool} {p : Nat} {l1 l2 l : List Nat}
    (h2 : 2 ≤ p) (hl : (c p).live = true) (hm : m p ≠ b)
    (h1 : DfsOut c b (upd m p b) m2 (c p).lo l1) (h3 : DfsOut c b m2 m3 (c p).hi l2)
    (hp : l.Perm (p :: (l1 ++ l2))) : DfsOut c b m m3 p l := by
  have mem : ∀ q, q ∈ l ↔ q = p ∨ q ∈ l1 ∨ q ∈ l2 := by
    intro q; rw [hp.mem_iff]; simp
  have hm2 : ∀ q, m2 q = if q ∈ l1 ∨ q = p then b else m q := by
    intro q
    rw [h1.marks]
    by_cases e : q = p
    · subst e; by_cases e1 : q ∈ l1 <;> simp [e1]
    · rw [upd_ne _ _ e]; simp [e]
  have p1 : p ∉ l1 := fun h => (h1.new p h).2.2.1 (by simp)
  have p2 : p ∉ l2 := fun h => (h3.new p h).2.2.1 (by rw [hm2]; simp)
  have d12 : ∀ q, q ∈ l1 → q ∉ l2 := fun q h h' => (h3.new q h').2.2.1 (by rw [hm2]; simp [h])
  constructor
  · intro q
    rw [h3.marks, hm2]
    by_cases a : q ∈ l2 <;> by_cases b' : q ∈ l1 <;> by_cases e : q = p <;> simp [mem, a, b', e]
  · intro q hq
    rcases (mem q).1 hq with rfl | h | h
    · exact ⟨h2, hl, hm, .refl _⟩
    · obtain ⟨a, b', c', d⟩ := h1.new q h
      have e : q ≠ p := fun e => p1 (e ▸ h)
      rw [upd_ne _ _ e] at c'
      exact ⟨a, b', c', .lo h2 hl d⟩
    · obtain ⟨a, b', c', d⟩ := h3.new q h
      have e : q ≠ p := fun e => p2 (e ▸ h)
      have e1 : q ∉ l1 := fun e => d12 q e h
      rw [hm2] at c'
      simp only [e, e1, or_self, if_false] at c'
      exact ⟨a, b', c', .hi h2 hl d⟩
  · rw [hp.nodup_iff, List.nodup_cons, List.nodup_append]
    refine ⟨by simp [p1, p2], h1.nodup, h3.nodup, ?_⟩
    intro a ha b' hb e
    subst e; exact d12 a ha hb
  · intro _; exact Or.inl ((mem p).2 (Or.inl rfl))
  · intro q hq r hr r2
    have lift : ∀ r, r ∈ l2 ∨ m2 r = b → r ∈ l ∨ m r = b := by
      intro r h
      rcases h with h | h
      · exact Or.inl ((mem r).2 (Or.inr (Or.inr h)))
      · rw [hm2] at h
        split at h
        · rename_i h'
          rcases h' with h' | h'
          · exact Or.inl ((mem r).2 (Or.inr (Or.inl h')))
          · exact Or.inl ((mem r).2 (Or.inl h'))
        · exact Or.inr h
    have lift1 : ∀ r, r ∈ l1 ∨ upd m p b r = b → r ∈ l ∨ m r = b := by
      intro r h
      rcases h with h | h
      · exact Or.inl ((mem r).2 (Or.inr (Or.inl h)))
      · by_cases e : r = p
        · exact Or.inl ((mem r).2 (Or.inl e))
        · rw [upd_ne _ _ e] at h; exact Or.inr h
    rcases (mem q).1 hq with rfl | h | h
    · rcases hr with rfl | rfl
      · exact lift1 _ (h1.root r2)
      · exact lift _ (h3.root r2)
    · exact lift1 _ (h1.closed q h r hr r2)
    · exact lift _ (h3.closed q h r hr r2)

/-- The search visits exactly the unflagged nodes when nothing reachable is flagged. -/
theorem DfsOut.mem_iff {c : Nat → Cell} {b : Bool} {m m' : Nat → Bool} {p : Nat} {l : List Nat} (h : DfsOut c b m m' p l)
    (hm : ∀ q, 2 ≤ q → Reaches c p q → m q ≠ b) (q : Nat) : q ∈ l ↔ 2 ≤ q ∧ Reaches c p q := by
  constructor
  · intro hq; obtain ⟨a, _, _, d⟩ := h.new q hq; exact ⟨a, d⟩
  · rintro ⟨h2, hr⟩
    have key : ∀ a q, Reaches c a q → 2 ≤ q → (2 ≤ a → a ∈ l) → Reaches c p a → q ∈ l := by
      intro a q hr
      induction hr with
      | refl => intro h2 ha _; exact ha h2
      | @lo a q a2 al hr ih =>
        intro h2 ha hpa
        have hpl := hpa.trans (.lo a2 al (.refl _))
        exact ih h2 (fun h' => (h.closed a (ha a2) _ (Or.inl rfl) h').resolve_right (hm _ h' hpl)) hpl
      | @hi a q a2 al hr ih =>
        intro h2 ha hpa
        have hpl := hpa.trans (.hi a2 al (.refl _))
        exact ih h2 (fun h' => (h.closed a (ha a2) _ (Or.inr rfl) h').resolve_right (hm _ h' hpl)) hpl
    exact key p q hr h2 (fun hp => (h.root hp).resolve_right (hm p hp (.refl _))) (.refl _)

theorem Reaches.height {c : Nat → Cell} {p q : Nat} (h : Reaches c p q) : ∀ {tp : Tree}, Repr c p tp →
    ∃ tq, Repr c q tq ∧ tq.height ≤ tp.height := by
  induction h with
  | refl => intro tp h; exact ⟨tp, h, Nat.le_refl _⟩
  | lo h2 hl _ ih =>
    intro tp h
    obtain ⟨tl, th, rfl, _, _, h3, _⟩ := h.inv h2
    obtain ⟨tq, a, b⟩ := ih h3
    exact ⟨tq, a, by simp only [Tree.height]; omega⟩
  | hi h2 hl _ ih =>
    intro tp h
    obtain ⟨tl, th, rfl, _, _, _, h3⟩ := h.inv h2
    obtain ⟨tq, a, b⟩ := ih h3
    exact ⟨tq, a, by simp only [Tree.height]; omega⟩

/-- Arcs never lead back. -/
theorem Repr.acyclic {c : Nat → Cell} {p q : Nat} {t : Tree} (h : Repr c p t) (h2 : 2 ≤ p) (hq : q = (c p).lo ∨ q = (c p).hi)
    (hr : Reaches c q p) : False := by
  obtain ⟨tl, th, rfl, _, _, h3, h4⟩ := h.inv h2
  rcases hq with rfl | rfl
  · obtain ⟨t', a, b⟩ := hr.height h3
    rw [a.fn h] at b; simp only [Tree.height] at b; omega
  · obtain ⟨t', a, b⟩ := hr.height h4
    rw [a.fn h] at b; simp only [Tree.height] at b; omega

/-- Children come before parents in `l`, where the nodes in `S` are already there. -/
def PostOk (c : Nat → Cell) : (Nat → Prop) → List Nat → Prop
  | _, [] => True
  | S, q :: l => (∀ r, (r = (c q).lo ∨ r = (c q).hi) → 2 ≤ r → S r) ∧ PostOk c (fun r => S r ∨ r = q) l

theorem PostOk.mono {c : Nat → Cell} : ∀ {l : List Nat} {S S' : Nat → Prop}, PostOk c S l → 
    (∀ r, 2 ≤ r → S r → (∃ q ∈ l, r = (c q).lo ∨ r = (c q).hi) → S' r) → PostOk c S' l := by
  intro l
  induction l with
  | nil => intros; trivial
  | cons q l ih =>
    intro S S' h hs
    refine ⟨fun r hr h2 => hs r h2 (h.1 r hr h2) ⟨q, by simp, hr⟩, ih h.2 ?_⟩
    rintro r r2 (h1 | h1) ⟨q', hq, hr⟩
    · exact Or.inl (hs r r2 h1 ⟨q', by simp [hq], hr⟩)
    · exact Or.inr h1

theorem PostOk.append {c : Nat → Cell} : ∀ {a b : List Nat} {S : Nat → Prop}, PostOk c S a →
    PostOk c (fun r => S r ∨ r ∈ a) b → PostOk c S (a ++ b) := by
  intro a
  induction a with
  | nil => intro b S _ h; exact h.mono (by intro r _ h _; simpa using h)
  | cons q a ih =>
    intro b S h1 h2
    refine ⟨h1.1, ih h1.2 (h2.mono ?_)⟩
    intro r _ h _
    simp only [List.mem_cons] at h
    exact or_assoc.2 h

theorem PostOk.split {c : Nat → Cell} : ∀ {a b : List Nat} {q : Nat} {S : Nat → Prop}, PostOk c S (a ++ q :: b) →
    ∀ r, (r = (c q).lo ∨ r = (c q).hi) → 2 ≤ r → S r ∨ r ∈ a := by
  intro a
  induction a with
  | nil => intro b q S h r hr h2; exact Or.inl (h.1 r hr h2)
  | cons x a ih =>
    intro b q S h r hr h2
    have := ih h.2 r hr h2
    simp only [List.mem_cons]
    exact or_assoc.1 this

theorem setMark_ok (s : Mgr) (p : Nat) (b : Bool) : setMark p b s = .ok () { s with marks := upd s.marks p b } := rfl
theorem getMark_ok (s : Mgr) (p : Nat) : getMark p s = .ok (s.marks p) s := rfl

theorem lowOf_congr (hi : Inv cfg md refs s) {p : Nat} (h2 : 2 ≤ p) (hl : (s.cells p).live = true) {s' : Mgr} (hc : s'.cells = s.cells) :
    lowOf p s' = .ok (s.cells p).lo s' := by
  have := (hi.node p h2 hl).1
  have := hi.nv
  unfold lowOf
  rw [M.get_bind_apply, hc]
  simp only [hl, Bool.not_true, Bool.false_or, decide_eq_true_eq]
  rw [if_neg (by omega)]; rfl

theorem highOf_congr (hi : Inv cfg md refs s) {p : Nat} (h2 : 2 ≤ p) (hl : (s.cells p).live = true) {s' : Mgr} (hc : s'.cells = s.cells) :
    highOf p s' = .ok (s.cells p).hi s' := by
  have := (hi.node p h2 hl).1
  have := hi.nv
  unfold highOf
  rw [M.get_bind_apply, hc]
  simp only [hl, Bool.not_true, Bool.false_or, decide_eq_true_eq]
  rw [if_neg (by omega)]; rfl

theorem visit_ok (hi : Inv cfg md refs s) (post : Bool) : ∀ (n p : Nat) (t : Tree), Repr s.cells p t → t.height + 1 ≤ n →
    ∀ m : Nat → Bool, (2 ≤ p → m p = false) → ∃ l m', visit cfg post n p { s with marks := m } = .ok l { s with marks := m' } ∧
      DfsOut s.cells true m m' p l ∧
      (post = true → PostOk s.cells (fun r => m r = true) l ∧ (2 ≤ p → ∃ l', l = l' ++ [p])) ∧
      (post = false → 2 ≤ p → ∃ l', l = p :: l') := by
  intro n
  induction n with
  | zero => intro p t _ h; omega
  | succ n ih =>
    intro p t hp hn m hm
    unfold visit
    rw [M.bind_ok (isTerm_ok hi hp (s' := { s with marks := m }) rfl)]
    by_cases h2 : p < 2
    · simp only [h2, decide_true, if_true]
      exact ⟨[], m, rfl, .nil (fun h => absurd h2 (by omega)), fun _ => ⟨trivial, fun h => absurd h2 (by omega)⟩, fun _ h => absurd h2 (by omega)⟩
    · simp only [h2, decide_false, Bool.false_eq_true, if_false]
      have h2' : 2 ≤ p := by omega
      obtain ⟨tl, th, rfl, hl, _, h3, h4⟩ := hp.inv h2'
      simp only [Tree.height] at hn
      have hmp := hm h2'
      rw [M.bind_ok (getMark_ok { s with marks := m } p), M.assert_bind_apply (by simp [hmp])]
      rw [M.bind_ok (setMark_ok { s with marks := m } p true)]
      rw [M.bind_ok (lowOf_congr hi h2' hl (s' := { s with marks := upd m p true }) rfl)]
      have sub : ∀ (q : Nat) (tq : Tree), Repr s.cells q tq → tq.height + 1 ≤ n → ∀ m, ∃ l m',
          ifUnmarked (visit cfg post n) q { s with marks := m } = .ok l { s with marks := m' } ∧ DfsOut s.cells true m m' q l ∧
          (post = true → PostOk s.cells (fun r => m r = true) l) := by
        intro q tq hq hqn m
        unfold ifUnmarked
        rw [M.bind_ok (getMark_ok { s with marks := m } q)]
        cases e : m q with
        | true => simp only [e, if_true]; exact ⟨[], m, rfl, .nil (fun _ => e), fun _ => trivial⟩
        | false =>
          simp only [e, Bool.false_eq_true, if_false]
          obtain ⟨l, m', a, b, c, _⟩ := ih q tq hq hqn m (fun _ => e)
          exact ⟨l, m', a, b, fun h => (c h).1⟩
      obtain ⟨l1, m2, e1, d1, p1⟩ := sub _ _ h3 (by omega) (upd m p true)
      rw [M.bind_ok e1]
      rw [M.bind_ok (highOf_congr hi h2' hl (s' := { s with marks := m2 }) rfl)]
      obtain ⟨l2, m3, e2, d2, p2⟩ := sub _ _ h4 (by omega) m2
      rw [M.bind_ok e2]
      refine ⟨_, m3, rfl, ?_, ?_, ?_⟩
      · refine DfsOut.node h2' hl (by simp [hmp]) d1 d2 ?_
        cases post with
        | true => simp only [if_true]; exact (List.perm_append_singleton p (l1 ++ l2))
        | false => exact List.Perm.refl _
      · intro hpost
        subst hpost
        simp only [if_true]
        refine ⟨?_, fun _ => ⟨_, rfl⟩⟩
        have no : ∀ q, q ∈ l1 ∨ q ∈ l2 → ∀ r, (r = (s.cells q).lo ∨ r = (s.cells q).hi) → r ≠ p := by
          rintro q hq r hr rfl
          have : ∃ x, (x = (s.cells r).lo ∨ x = (s.cells r).hi) ∧ Reaches s.cells x q ∧ 2 ≤ q ∧ (s.cells q).live = true := by
            rcases hq with hq | hq
            · obtain ⟨a, b, _, d⟩ := d1.new q hq
              exact ⟨_, Or.inl rfl, d, a, b⟩
            · obtain ⟨a, b, _, d⟩ := d2.new q hq
              exact ⟨_, Or.inr rfl, d, a, b⟩
          obtain ⟨x, hx, hxq, q2, ql⟩ := this
          refine hp.acyclic h2' hx (hxq.trans ?_)
          rcases hr with e | e
          · exact .lo q2 ql (e ▸ .refl _)
          · exact .hi q2 ql (e ▸ .refl _)
        have m2d : ∀ r, m2 r = true → r ≠ p → m r = true ∨ r ∈ l1 := by
          intro r hr hne
          rw [d1.marks] at hr
          split at hr
          · right; assumption
          · rw [upd_ne _ _ hne] at hr; exact Or.inl hr
        refine ((p1 rfl).mono ?_).append ((p2 rfl).mono ?_) |>.append ?_
        · rintro r _ hr ⟨q, hq, hrq⟩
          rw [upd_ne _ _ (no q (Or.inl hq) r hrq)] at hr
          exact hr
        · rintro r _ hr ⟨q, hq, hrq⟩
          exact m2d r hr (no q (Or.inr hq) r hrq)
        · refine ⟨?_, trivial⟩
          intro r hr r2
          have rp : r ≠ p := by
            rintro rfl
            exact hp.acyclic h2' hr (.refl _)
          rw [List.mem_append]
          rcases hr with rfl | rfl
          · rcases d1.root r2 with h | h
            · exact Or.inr (Or.inl h)
            · rw [upd_ne _ _ rp] at h; exact Or.inl h
          · rcases d2.root r2 with h | h
            · exact Or.inr (Or.inr h)
            · rcases m2d _ h rp with h | h
              · exact Or.inl h
              · exact Or.inr (Or.inl h)
      · intro hpost _
        subst hpost
        exact ⟨_, rfl⟩

theorem unmark_ok (hi : Inv cfg md refs s) : ∀ (n p : Nat) (t : Tree), Repr s.cells p t → t.height + 1 ≤ n →
    ∀ m : Nat → Bool, ∃ l m', unmark cfg n p { s with marks := m } = .ok () { s with marks := m' } ∧
      DfsOut s.cells false m m' p l := by
  intro n
  induction n with
  | zero => intro p t _ h; omega
  | succ n ih =>
    intro p t hp hn m
    unfold unmark
    rw [M.bind_ok (isTerm_ok hi hp (s' := { s with marks := m }) rfl)]
    by_cases h2 : p < 2
    · simp only [h2, decide_true, if_true]
      exact ⟨[], m, rfl, .nil (fun h => absurd h2 (by omega))⟩
    · simp only [h2, decide_false, Bool.false_eq_true, if_false]
      have h2' : 2 ≤ p := by omega
      obtain ⟨tl, th, rfl, hl, _, h3, h4⟩ := hp.inv h2'
      simp only [Tree.height] at hn
      rw [M.bind_ok (getMark_ok { s with marks := m } p)]
      cases e : m p with
      | false => simp only [e, Bool.false_eq_true, if_false]; exact ⟨[], m, rfl, .nil (fun _ => e)⟩
      | true =>
        simp only [e, if_true]
        rw [M.bind_ok (setMark_ok { s with marks := m } p false)]
        rw [M.bind_ok (lowOf_congr hi h2' hl (s' := { s with marks := upd m p false }) rfl)]
        obtain ⟨l1, m2, e1, d1⟩ := ih _ _ h3 (by omega) (upd m p false)
        rw [M.bind_ok e1]
        rw [M.bind_ok (highOf_congr hi h2' hl (s' := { s with marks := m2 }) rfl)]
        obtain ⟨l2, m3, e2, d2⟩ := ih _ _ h4 (by omega) m2
        exact ⟨_, m3, e2, DfsOut.node h2' hl (by simp [e]) d1 d2 (List.Perm.refl _)⟩

/-- `l` lists the inner nodes of the BDD `p`, each once. -/
structure Lists (c : Nat → Cell) (p : Nat) (l : List Nat) : Prop where
  nodup : l.Nodup
  mem : ∀ q, q ∈ l ↔ 2 ≤ q ∧ Reaches c p q

theorem Reaches.live_or (hi : Inv cfg md refs s) {p q : Nat} {t : Tree} (h : Reaches s.cells p q) (hp : Repr s.cells p t) :
    (s.cells q).live = true := by
  obtain ⟨tq, a, _⟩ := h.height hp
  exact hi.live_of a

/-- Clearing the flags of a fully flagged BDD restores the state. -/
theorem unmark_restores (hi : Inv cfg md refs s) {p : Nat} {t : Tree} (hp : Repr s.cells p t) {m' : Nat → Bool} {l : List Nat}
    (hm : ∀ q, m' q = if q ∈ l then true else s.marks q) (hl : ∀ q, q ∈ l ↔ 2 ≤ q ∧ Reaches s.cells p q) :
    unmark cfg (fuel1 s) p { s with marks := m' } = .ok () s := by
  obtain ⟨l2, m'', e, d⟩ := unmark_ok hi (fuel1 s) p t hp (by have := hi.ht _ _ hp; unfold fuel1; omega) m'
  rw [e]
  have h2 := d.mem_iff (fun q q2 hr => by rw [hm, if_pos ((hl q).2 ⟨q2, hr⟩)]; decide)
  have : m'' = s.marks := by
    funext q
    rw [d.marks, hm]
    by_cases hq : q ∈ l
    · have hq' := (hl q).1 hq
      rw [if_pos ((h2 q).2 hq'), hi.mark q hq'.1 (hq'.2.live_or hi hp)]
    · rw [if_neg (fun h => hq ((hl q).2 ((h2 q).1 h))), if_neg hq]
  subst this; rfl

/-- A visit followed by `unmark` leaves the state as it was and lists all inner nodes once. -/
theorem visit_unmark (hi : Inv cfg md refs s) (post : Bool) {p : Nat} {t : Tree} (hp : Repr s.cells p t) :
    ∃ l s1, visit cfg post (fuel1 s) p s = .ok l s1 ∧ unmark cfg (fuel1 s) p s1 = .ok () s ∧ Lists s.cells p l ∧
      (post = true → PostOk s.cells (fun _ => False) l ∧ (2 ≤ p → ∃ l', l = l' ++ [p])) ∧
      (post = false → 2 ≤ p → ∃ l', l = p :: l') := by
  have hlv : ∀ q, 2 ≤ q → Reaches s.cells p q → s.marks q = false := fun q h2 hr => hi.mark q h2 (hr.live_or hi hp)
  obtain ⟨l, m', e, d, hpo, hpr⟩ := visit_ok hi post (fuel1 s) p t hp (by have := hi.ht _ _ hp; unfold fuel1; omega) s.marks
    (fun h2 => hlv p h2 (.refl _))
  have hmem := d.mem_iff (fun q q2 hr => by rw [hlv q q2 hr]; decide)
  refine ⟨l, _, e, unmark_restores hi hp d.marks hmem, ⟨d.nodup, hmem⟩, ?_, hpr⟩
  intro hpost
  refine ⟨(hpo hpost).1.mono ?_, (hpo hpost).2⟩
  rintro r r2 hr ⟨q, hq, hrq⟩
  obtain ⟨a, b, _, e⟩ := d.new q hq
  have : Reaches s.cells p r := by
    refine e.trans ?_
    rcases hrq with rfl | rfl
    · exact .lo a b (.refl _)
    · exact .hi a b (.refl _)
  rw [hlv r r2 this] at hr
  exact absurd hr (by decide)

end
end LBDD
