import Verif.Proof.Query
import Verif.Proof.Det
/-! The traversals list the nodes in an order that depends on the shape of the BDD only. -/
namespace LBDD

/-- The nodes `l` unfold to the trees `ts`. -/
def Reprs (c : Nat → Cell) : List Nat → List Tree → Prop
  | [], [] => True
  | p :: l, t :: ts => Repr c p t ∧ Reprs c l ts
  | _, _ => False

theorem Reprs.length {c : Nat → Cell} : ∀ {l : List Nat} {ts : List Tree}, Reprs c l ts → l.length = ts.length
  | [], [], _ => rfl
  | _ :: _, _ :: _, h => by simp [Reprs.length h.2]
  | [], _ :: _, h => h.elim
  | _ :: _, [], h => h.elim

theorem Reprs.ext {c c' : Nat → Cell} (hx : CellsExt c c') : ∀ {l : List Nat} {ts : List Tree}, Reprs c l ts → Reprs c' l ts
  | [], [], _ => trivial
  | _ :: _, _ :: _, h => ⟨h.1.ext hx, Reprs.ext hx h.2⟩
  | [], _ :: _, h => h.elim
  | _ :: _, [], h => h.elim

theorem Reprs.append {c : Nat → Cell} : ∀ {l l' : List Nat} {ts ts' : List Tree}, Reprs c l ts → Reprs c l' ts' → Reprs c (l ++ l') (ts ++ ts')
  | [], _, [], _, _, h' => h'
  | _ :: _, _, _ :: _, _, h, h' => ⟨h.1, Reprs.append h.2 h'⟩
  | [], _, _ :: _, _, h, _ => h.elim
  | _ :: _, _, [], _, h, _ => h.elim

theorem Reprs.one {c : Nat → Cell} {p : Nat} {t : Tree} (h : Repr c p t) : Reprs c [p] [t] := ⟨h, trivial⟩

/-- The visiting order of the depth-first traversals as a function of the tree; `S` are the trees seen before. -/
def visT (post : Bool) : Tree → List Tree → List Tree
  | .bot, _ => []
  | .top, _ => []
  | .node v l h, S =>
    let a := if l ∈ Tree.node v l h :: S then [] else visT post l (Tree.node v l h :: S)
    let b := if h ∈ a ++ Tree.node v l h :: S then [] else visT post h (a ++ Tree.node v l h :: S)
    if post then a ++ b ++ [.node v l h] else .node v l h :: (a ++ b)

/-- Exactly the nodes with trees in `S` are marked. -/
def MarkS (c : Nat → Cell) (m : Nat → Bool) (S : List Tree) : Prop := ∀ q u, 2 ≤ q → Repr c q u → (m q = true ↔ u ∈ S)

section
variable {cfg : Cfg} {md : Md} {refs : Nat → Nat} {s : Mgr}

theorem MarkS.cons (hi : Inv cfg md refs s) {m : Nat → Bool} {S : List Tree} (h : MarkS s.cells m S) {p : Nat} {t : Tree}
    (hp : Repr s.cells p t) : MarkS s.cells (upd m p true) (t :: S) := by
  intro q u q2 hq
  by_cases e : q = p
  · subst e
    rw [upd_same]
    simp [hq.fn hp]
  · rw [upd_ne _ _ e, h q u q2 hq, List.mem_cons]
    constructor
    · exact Or.inr
    · rintro (rfl | h)
      · exact absurd (hi.repr_inj hq hp) e
      · exact h

theorem MarkS.congr {c : Nat → Cell} {m : Nat → Bool} {S S' : List Tree} (h : MarkS c m S) (e : ∀ u, u ∈ S ↔ u ∈ S') : MarkS c m S' :=
  fun q u q2 hq => (h q u q2 hq).trans (e u)

theorem visT_two {post : Bool} {p : Nat} {t : Tree} {c : Nat → Cell} (hp : Repr c p t) (h2 : p < 2) (S : List Tree) : visT post t S = [] := by
  cases hp with
  | bot => rfl
  | top => rfl
  | node h => omega

theorem visit_det (hi : Inv cfg md refs s) (post : Bool) : ∀ (n p : Nat) (t : Tree), Repr s.cells p t → t.height + 1 ≤ n →
    ∀ (m : Nat → Bool) (S : List Tree), MarkS s.cells m S → (2 ≤ p → t ∉ S) →
    ∃ l m', visit cfg post n p { s with marks := m } = .ok l { s with marks := m' } ∧ Reprs s.cells l (visT post t S) ∧
      MarkS s.cells m' (visT post t S ++ S) := by
  intro n
  induction n with
  | zero => intro p t _ h; omega
  | succ n ih =>
    intro p t hp hn m S hm hS
    unfold visit
    rw [M.bind_ok (isTerm_ok hi hp (s' := { s with marks := m }) rfl)]
    by_cases h2 : p < 2
    · simp only [h2, decide_true, if_true]
      rw [visT_two hp h2]
      exact ⟨[], m, rfl, trivial, hm⟩
    · simp only [h2, decide_false, Bool.false_eq_true, if_false]
      have h2' : 2 ≤ p := by omega
      have hp0 := hp
      obtain ⟨tl, th, rfl, hl, _, h3, h4⟩ := hp.inv h2'
      simp only [Tree.height] at hn
      have hmp : m p = false := by
        cases e : m p with
        | false => rfl
        | true => exact absurd ((hm p _ h2' hp0).1 e) (hS h2')
      rw [M.bind_ok (getMark_ok { s with marks := m } p), M.assert_bind_apply (by simp [hmp])]
      rw [M.bind_ok (setMark_ok { s with marks := m } p true)]
      rw [M.bind_ok (lowOf_congr hi h2' hl (s' := { s with marks := upd m p true }) rfl)]
      have sub : ∀ (q : Nat) (tq : Tree), Repr s.cells q tq → tq.height + 1 ≤ n → ∀ m S, MarkS s.cells m S → ∃ l m',
          ifUnmarked (visit cfg post n) q { s with marks := m } = .ok l { s with marks := m' } ∧
          Reprs s.cells l (if tq ∈ S then [] else visT post tq S) ∧
          MarkS s.cells m' ((if tq ∈ S then [] else visT post tq S) ++ S) := by
        intro q tq hq hqn m S hm
        unfold ifUnmarked
        rw [M.bind_ok (getMark_ok { s with marks := m } q)]
        by_cases q2 : q < 2
        · have e0 : (if tq ∈ S then [] else visT post tq S) = [] := by rw [visT_two hq q2]; split <;> rfl
          rw [e0]
          cases e : m q with
          | true => simp only [e, if_true]; exact ⟨[], m, rfl, trivial, hm⟩
          | false =>
            simp only [e, Bool.false_eq_true, if_false]
            cases n with
            | zero => omega
            | succ n =>
              unfold visit
              rw [M.bind_ok (isTerm_ok hi hq (s' := { s with marks := m }) rfl)]
              simp only [q2, decide_true, if_true]
              exact ⟨[], m, rfl, trivial, hm⟩
        · have q2' : 2 ≤ q := by omega
          cases e : m q with
          | true =>
            simp only [e, if_true]
            rw [if_pos ((hm q tq q2' hq).1 e)]
            exact ⟨[], m, rfl, trivial, hm⟩
          | false =>
            simp only [e, Bool.false_eq_true, if_false]
            have hn' : tq ∉ S := fun h => by rw [(hm q tq q2' hq).2 h] at e; cases e
            rw [if_neg hn']
            exact ih q tq hq hqn m S hm (fun _ => hn')
      obtain ⟨l1, m2, e1, r1, k1⟩ := sub _ _ h3 (by omega) _ _ (hm.cons hi hp0)
      rw [M.bind_ok e1]
      rw [M.bind_ok (highOf_congr hi h2' hl (s' := { s with marks := m2 }) rfl)]
      obtain ⟨l2, m3, e2, r2, k2⟩ := sub _ _ h4 (by omega) _ _ k1
      rw [M.bind_ok e2]
      refine ⟨_, m3, rfl, ?_, ?_⟩
      · simp only [visT]
        cases post with
        | true => exact (r1.append r2).append ⟨hp0, trivial⟩
        | false => exact ⟨hp0, r1.append r2⟩
      · refine k2.congr ?_
        intro u
        simp only [visT]
        cases post with
        | true =>
          simp only [List.mem_append, List.mem_cons, if_true, List.not_mem_nil, or_false]
          constructor
          · rintro (h | h | h | h)
            · exact Or.inl (Or.inl (Or.inr h))
            · exact Or.inl (Or.inl (Or.inl h))
            · exact Or.inl (Or.inr h)
            · exact Or.inr h
          · rintro (((h | h) | h) | h)
            · exact Or.inr (Or.inl h)
            · exact Or.inl h
            · exact Or.inr (Or.inr (Or.inl h))
            · exact Or.inr (Or.inr (Or.inr h))
        | false =>
          simp only [List.mem_append, List.mem_cons, Bool.false_eq_true, if_false]
          constructor
          · rintro (h | h | h | h)
            · exact Or.inl (Or.inr (Or.inr h))
            · exact Or.inl (Or.inr (Or.inl h))
            · exact Or.inl (Or.inl h)
            · exact Or.inr h
          · rintro ((h | h | h) | h)
            · exact Or.inr (Or.inr (Or.inl h))
            · exact Or.inr (Or.inl h)
            · exact Or.inl h
            · exact Or.inr (Or.inr (Or.inr h))

theorem MarkS.start (hi : Inv cfg md refs s) : MarkS s.cells s.marks [] := by
  intro q u q2 hq
  rw [hi.mark q q2 (hi.live_of hq)]
  simp

/-- `nodes_postorder` lists the nodes in an order determined by the tree. -/
theorem nodesPostorder_det (hi : Inv cfg md refs s) {p : Nat} {t : Tree} (hp : Repr s.cells p t) (hm : MarkOk cfg s p) :
    ∃ l, nodesPostorder cfg p s = .ok l s ∧ Reprs s.cells l (visT true t []) := by
  obtain ⟨l, e, _⟩ := nodesPostorder_ok hi hp hm
  refine ⟨l, e, ?_⟩
  obtain ⟨l1, m', e1, h1, _⟩ := visit_det (cfg := cfg) hi true (fuel1 s) p t hp (by have := hi.ht _ _ hp; unfold fuel1; omega) s.marks [] (.start hi)
    (fun _ h => by cases h)
  have : l = l1 := by
    unfold nodesPostorder at e
    rw [M.get_bind_apply, M.bind_ok (getMark_ok s p), markAssert hi hp hm] at e
    obtain ⟨l2, s2, a1, a2⟩ := bind_ok_inv e
    rw [show visit cfg true (fuel1 s) p s = .ok l1 { s with marks := m' } from e1] at a1
    cases a1
    obtain ⟨_, s3, _, a2⟩ := bind_ok_inv a2
    obtain ⟨_, s4, _, a2⟩ := bind_ok_inv a2
    cases a2; rfl
  rw [this]; exact h1

/-- Queue operation of the breadth-first traversal on trees: trees already in `S` and sinks are not queued. -/
def pushT (t : Tree) (dS : List Tree × List Tree) : List Tree × List Tree :=
  match t with
  | .bot => dS
  | .top => dS
  | .node v l h => if Tree.node v l h ∈ dS.2 then dS else (dS.1 ++ [.node v l h], .node v l h :: dS.2)

/-- The breadth-first traversal on trees. -/
def bfsT : Nat → List Tree → List Tree → List Tree → Option (List Tree)
  | _, [], _, acc => some acc
  | 0, _ :: _, _, _ => none
  | n + 1, t :: dq, S, acc =>
    match t with
    | .node _ l h =>
      let d2 := pushT h (pushT l (dq, S))
      bfsT n d2.1 d2.2 (acc ++ [t])
    | _ => none

theorem bfsT_mono : ∀ (n : Nat) {k : Nat} {dq S acc r : List Tree}, bfsT n dq S acc = some r → n ≤ k → bfsT k dq S acc = some r := by
  intro n
  induction n with
  | zero =>
    intro k dq S acc r h _
    cases dq with
    | nil => cases k <;> exact h
    | cons t dq => cases h
  | succ n ih =>
    intro k dq S acc r h hk
    cases dq with
    | nil => cases k <;> exact h
    | cons t dq =>
      cases k with
      | zero => omega
      | succ k =>
        cases t with
        | bot => cases h
        | top => cases h
        | node v l h' =>
          simp only [bfsT] at h ⊢
          exact ih h (by omega)

theorem bfsPush_det (hi : Inv cfg md refs s) {q : Nat} {t : Tree} (hq : Repr s.cells q t) {m : Nat → Bool} {dq : List Nat} {dS : List Tree × List Tree}
    (hm : MarkS s.cells m dS.2) (hd : Reprs s.cells dq dS.1) :
    ∃ dq' m', bfsPush cfg q dq { s with marks := m } = .ok dq' { s with marks := m' } ∧ MarkS s.cells m' (pushT t dS).2 ∧
      Reprs s.cells dq' (pushT t dS).1 := by
  unfold bfsPush
  rw [M.bind_ok (isTerm_ok hi hq (s' := { s with marks := m }) rfl)]
  by_cases h2 : q < 2
  · simp only [h2, decide_true, if_true]
    refine ⟨dq, m, rfl, ?_⟩
    have : pushT t dS = dS := by
      cases hq with
      | bot => rfl
      | top => rfl
      | node h => omega
    rw [this]; exact ⟨hm, hd⟩
  · simp only [h2, decide_false, Bool.false_eq_true, if_false]
    have h2' : 2 ≤ q := by omega
    rw [M.bind_ok (getMark_ok { s with marks := m } q)]
    have hq0 := hq
    obtain ⟨tl, th, rfl, _⟩ := hq.inv h2'
    have hk := hm q _ h2' hq0
    simp only [pushT]
    by_cases e : m q = true
    · rw [if_pos e, if_pos (hk.1 e)]
      exact ⟨dq, m, rfl, hm, hd⟩
    · rw [if_neg e, if_neg (fun h => e (hk.2 h))]
      exact ⟨dq ++ [q], upd m q true, rfl, hm.cons hi hq0, hd.append (.one hq0)⟩

theorem bfsLoop_det (hi : Inv cfg md refs s) : ∀ (n : Nat) (dq acc : List Nat) (dT S accT : List Tree) (m : Nat → Bool) (l : List Nat) (s' : Mgr),
    MarkS s.cells m S → Reprs s.cells dq dT → Reprs s.cells acc accT → (∀ q ∈ dq, 2 ≤ q) →
    bfsLoop cfg n dq acc { s with marks := m } = .ok l s' → ∃ lT, bfsT n dT S accT = some lT ∧ Reprs s.cells l lT := by
  intro n
  induction n with
  | zero =>
    intro dq acc dT S accT m l s' hm hd ha h2 e
    match dq, dT, hd with
    | [], [], _ => cases e; exact ⟨accT, rfl, ha⟩
    | _ :: _, _ :: _, _ => cases e
    | [], _ :: _, hd => exact hd.elim
    | _ :: _, [], hd => exact hd.elim
  | succ n ih =>
    intro dq acc dT S accT m l s' hm hd ha h2 e
    match dq, dT, hd with
    | [], [], _ => cases e; exact ⟨accT, rfl, ha⟩
    | [], _ :: _, hd => exact hd.elim
    | _ :: _, [], hd => exact hd.elim
    | p :: dq, t :: dT, hd =>
      have p2 := h2 p (by simp)
      obtain ⟨tl, th, rfl, hl, _, h3, h4⟩ := hd.1.inv p2
      unfold bfsLoop at e
      rw [M.bind_ok (getMark_ok { s with marks := m } p)] at e
      obtain ⟨_, s1, e1, e⟩ := bind_ok_inv e
      obtain rfl : { s with marks := m } = s1 := by
        unfold M.assert at e1
        split at e1
        · cases e1; rfl
        · cases e1
      rw [M.bind_ok (lowOf_congr hi p2 hl (s' := { s with marks := m }) rfl)] at e
      obtain ⟨dq1, m1, a1, a2, a3⟩ := bfsPush_det (cfg := cfg) hi h3 (dS := (dT, S)) hm hd.2
      rw [M.bind_ok a1, M.bind_ok (highOf_congr hi p2 hl (s' := { s with marks := m1 }) rfl)] at e
      obtain ⟨dq2, m2, b1, b2, b3⟩ := bfsPush_det (cfg := cfg) hi h4 a2 a3
      rw [M.bind_ok b1] at e
      have big : ∀ {q : Nat} {t : Tree} {m m' : Nat → Bool} {dq dq' : List Nat}, Repr s.cells q t → (∀ x ∈ dq, 2 ≤ x) →
          bfsPush cfg q dq { s with marks := m } = .ok dq' { s with marks := m' } → ∀ x ∈ dq', 2 ≤ x := by
        intro q t m m' dq dq' hq hdq e
        unfold bfsPush at e
        rw [M.bind_ok (isTerm_ok hi hq (s' := { s with marks := m }) rfl)] at e
        by_cases h2 : q < 2
        · simp only [h2, decide_true, if_true] at e
          cases e; exact hdq
        · simp only [h2, decide_false, Bool.false_eq_true, if_false] at e
          rw [M.bind_ok (getMark_ok { s with marks := m } q)] at e
          cases e1 : m q with
          | true => simp only [e1, if_true] at e; cases e; exact hdq
          | false =>
            simp only [e1, Bool.false_eq_true, if_false] at e
            cases e
            intro x hx
            rcases List.mem_append.1 hx with hx | hx
            · exact hdq x hx
            · simp only [List.mem_singleton] at hx; omega
      exact ih dq2 (acc ++ [p]) _ _ _ m2 l s' b2 b3 (ha.append (.one hd.1)) (big h4 (big h3 (fun q hq => h2 q (by simp [hq])) a1) b1) e

/-- The breadth-first listing of the nodes of a tree. -/
def BfsT (t : Tree) (l : List Tree) : Prop := ∃ n, bfsT n [t] [t] [] = some l

theorem BfsT.fn {t : Tree} {l l' : List Tree} (h : BfsT t l) (h' : BfsT t l') : l = l' := by
  obtain ⟨n, a⟩ := h
  obtain ⟨k, b⟩ := h'
  have a := bfsT_mono n a (Nat.le_max_left n k)
  have b := bfsT_mono k b (Nat.le_max_right n k)
  rw [a] at b; injection b

theorem nodesBfs_det (hi : Inv cfg md refs s) {p : Nat} {t : Tree} (hp : Repr s.cells p t) (h2 : 2 ≤ p) :
    ∃ l lT, nodesBfs cfg p s = .ok l s ∧ BfsT t lT ∧ Reprs s.cells l lT := by
  obtain ⟨l, e, _⟩ := nodesBfs_ok hi hp h2
  have e0 := e
  unfold nodesBfs at e
  rw [M.get_bind_apply, M.bind_ok (getMark_ok s p), markAssert hi hp (Or.inl h2), M.bind_ok (setMark_ok s p true)] at e
  obtain ⟨l1, s1, e1, e⟩ := bind_ok_inv e
  obtain ⟨_, s2, _, e⟩ := bind_ok_inv e
  obtain ⟨_, s3, _, e⟩ := bind_ok_inv e
  have : l1 = l := by cases e; rfl
  subst this
  obtain ⟨lT, a, b⟩ := bfsLoop_det (cfg := cfg) hi _ [p] [] [t] [t] [] _ l1 s1 ((MarkS.start hi).cons hi hp) (.one hp) trivial
    (fun q hq => by simp only [List.mem_singleton] at hq; omega) e1
  exact ⟨l1, lT, e0, ⟨_, a⟩, b⟩
end
end LBDD
