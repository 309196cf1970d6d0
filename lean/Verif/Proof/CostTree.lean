import Verif.Proof.Cost
import Verif.Proof.Det
import Verif.Proof.Query
import Verif.Proof.Size
/-! Trees of parity functions (their unfolding is exponential, their DAG is linear), and the calls of the traversals. -/
namespace LBDD

/-- `parity` on assignments. -/
def parityF : List Nat → Assign → Bool
  | [], _ => false
  | v :: vs, x => x v ^^ parityF vs x

theorem parity_eq (x : List Bool) : ∀ vs, parity vs x = parityF vs (asg x)
  | [] => rfl
  | v :: vs => by unfold parity parityF; rw [parity_eq x vs]; rfl

theorem parityF_congr {x y : Assign} : ∀ {vs : List Nat}, (∀ v ∈ vs, x v = y v) → parityF vs x = parityF vs y
  | [], _ => rfl
  | v :: vs, h => by
    unfold parityF
    rw [h v (by simp), parityF_congr (fun w hw => h w (by simp [hw]))]

theorem parityF_erase {x : Assign} {v : Nat} : ∀ {vs : List Nat}, v ∈ vs → parityF vs x = (x v ^^ parityF (vs.erase v) x)
  | w :: vs, h => by
    by_cases e : w = v
    · subst e; simp [parityF]
    · have h : v ∈ vs := by
        rcases List.mem_cons.1 h with h | h
        · exact absurd h.symm e
        · exact h
      rw [List.erase_cons_tail (by simpa using e)]
      simp only [parityF]
      rw [parityF_erase h]
      cases x w <;> cases x v <;> simp

theorem parityF_set {x : Assign} {v : Nat} {b : Bool} {vs : List Nat} (h : v ∉ vs) : parityF vs (Tree.set x v b) = parityF vs x :=
  parityF_congr fun w hw => by
    unfold Tree.set
    rw [if_neg]
    intro he; subst he; exact h hw

theorem negTree_ordered {t : Tree} (h : t.Ordered) : (negTree t).Ordered := by
  induction t with
  | bot => exact trivial
  | top => exact trivial
  | node v l r ihl ihr =>
    exact ⟨fun w hw => h.1 w ((negTree_mem _ _).1 hw), fun w hw => h.2.1 w ((negTree_mem _ _).1 hw), ihl h.2.2.1, ihr h.2.2.2⟩

theorem negTree_reduced {t : Tree} (h : t.Reduced) : (negTree t).Reduced := by
  induction t with
  | bot => exact trivial
  | top => exact trivial
  | node v l r ihl ihr => exact ⟨fun e => h.1 (negTree_inj e), ihl h.2.1, ihr h.2.2⟩

/-- The root of a parity tree: one of the variables; the children are the parity of the others and its negation. -/
theorem parity_node {v : Nat} {l h : Tree} {c : Bool} {vs : List Nat} (ho : (Tree.node v l h).Ordered) (hr : (Tree.node v l h).Reduced) (hn : vs.Nodup)
    (he : ∀ x, (Tree.node v l h).eval x = (c ^^ parityF vs x)) :
    v ∈ vs ∧ (∀ x, l.eval x = (c ^^ parityF (vs.erase v) x)) ∧ ∀ x, h.eval x = ((!c) ^^ parityF (vs.erase v) x) := by
  have hl : ∀ x, l.eval x = (c ^^ parityF vs (Tree.set x v false)) := by
    intro x
    have := he (Tree.set x v false)
    simp only [Tree.eval, Tree.set_same, Bool.false_eq_true, if_false] at this
    rwa [Tree.eval_set_of_not_mem (Tree.not_mem_lo ho)] at this
  have hh : ∀ x, h.eval x = (c ^^ parityF vs (Tree.set x v true)) := by
    intro x
    have := he (Tree.set x v true)
    simp only [Tree.eval, Tree.set_same, if_true] at this
    rwa [Tree.eval_set_of_not_mem (Tree.not_mem_hi ho)] at this
  by_cases hm : v ∈ vs
  · have hv : v ∉ vs.erase v := fun h => by
      have := hn.mem_erase_iff.1 h
      exact this.1 rfl
    refine ⟨hm, fun x => ?_, fun x => ?_⟩
    · rw [hl, parityF_erase hm, parityF_set hv]; simp
    · rw [hh, parityF_erase hm, parityF_set hv]; simp
  · refine absurd (Tree.eq_of_eval ho.2.2.1 ho.2.2.2 hr.2.1 hr.2.2 fun x => ?_) hr.1
    rw [hl, hh, parityF_set hm, parityF_set hm]

theorem parity_leaf {t : Tree} {c : Bool} {vs : List Nat} (hn : vs.Nodup) (he : ∀ x, t.eval x = (c ^^ parityF vs x)) (ht : t.size = 0) : vs = [] := by
  cases vs with
  | nil => rfl
  | cons v vs =>
    exfalso
    have hv := (List.nodup_cons.1 hn).1
    have h0 := he (Tree.set (fun _ => false) v false)
    have h1 := he (Tree.set (fun _ => false) v true)
    simp only [parityF, Tree.set_same, parityF_set hv] at h0 h1
    have hc : t.eval (Tree.set (fun _ => false) v false) = t.eval (Tree.set (fun _ => false) v true) := by
      cases t with
      | bot => rfl
      | top => rfl
      | node _ _ _ => simp only [Tree.size] at ht; omega
    rw [h0, h1] at hc
    revert hc
    cases c <;> cases parityF vs (fun _ => false) <;> simp

/-- The canonical tree of a parity of `n` variables has `2^n - 1` inner nodes. -/
theorem parity_size : ∀ (n : Nat) (t : Tree) (c : Bool) (vs : List Nat), vs.length = n → t.Ordered → t.Reduced → vs.Nodup →
    (∀ x, t.eval x = (c ^^ parityF vs x)) → t.size + 1 = 2 ^ n := by
  intro n
  induction n with
  | zero =>
    intro t c vs hl ho hr hn he
    cases t with
    | bot => rfl
    | top => rfl
    | node v l h =>
      have := (parity_node ho hr hn he).1
      have h0 : vs = [] := List.length_eq_zero_iff.1 hl
      rw [h0] at this; cases this
  | succ n ih =>
    intro t c vs hl ho hr hn he
    have hc : t.size ≠ 0 := fun h => by
      have := parity_leaf hn he h
      rw [this] at hl; cases hl
    cases t with
    | bot => exact absurd rfl hc
    | top => exact absurd rfl hc
    | node v l h =>
      obtain ⟨hm, h1, h2⟩ := parity_node ho hr hn he
      have hle : (vs.erase v).length = n := by rw [List.length_erase_of_mem hm, hl]; rfl
      have a := ih l c _ hle ho.2.2.1 hr.2.1 (hn.erase v) h1
      have b := ih h (!c) _ hle ho.2.2.2 hr.2.2 (hn.erase v) h2
      simp only [Tree.size]
      rw [Nat.pow_succ]
      omega

/-- A parity and its negation: together at most `2n` distinct subtrees. -/
theorem parity_subs : ∀ (n : Nat) (t0 t1 : Tree) (c : Bool) (vs : List Nat), vs.length = n → t0.Ordered → t0.Reduced → t1.Ordered → t1.Reduced →
    vs.Nodup → (∀ x, t0.eval x = (c ^^ parityF vs x)) → (∀ x, t1.eval x = ((!c) ^^ parityF vs x)) →
    ∃ m : List Tree, m.length ≤ 2 * n ∧ ∀ u, t0.Sub u ∨ t1.Sub u → u ∈ m := by
  intro n
  induction n with
  | zero =>
    intro t0 t1 c vs hl o0 r0 o1 r1 hn e0 e1
    have h0 : vs = [] := List.length_eq_zero_iff.1 hl
    subst h0
    have q0 := parity_size 0 t0 c [] rfl o0 r0 hn e0
    have q1 := parity_size 0 t1 _ [] rfl o1 r1 hn e1
    refine ⟨[], by simp, fun u hu => ?_⟩
    cases t0 <;> cases t1 <;> simp only [Tree.size] at q0 q1 <;> first | omega | (rcases hu with h | h <;> exact h.elim)
  | succ n ih =>
    intro t0 t1 c vs hl o0 r0 o1 r1 hn e0 e1
    have hc : t0.size ≠ 0 := fun h => by
      have := parity_leaf hn e0 h
      rw [this] at hl; cases hl
    cases t0 with
    | bot => exact absurd rfl hc
    | top => exact absurd rfl hc
    | node v l h =>
      obtain ⟨hm, h1, h2⟩ := parity_node o0 r0 hn e0
      have hle : (vs.erase v).length = n := by rw [List.length_erase_of_mem hm, hl]; rfl
      obtain ⟨m, q1, q2⟩ := ih l h c _ hle o0.2.2.1 r0.2.1 o0.2.2.2 r0.2.2 (hn.erase v) h1 h2
      have ht1 : t1 = negTree (.node v l h) := Tree.eq_of_eval o1 (negTree_ordered o0) r1 (negTree_reduced r0) fun x => by
        rw [e1, negTree_eval, e0]; cases c <;> simp
      have hh : h = negTree l := Tree.eq_of_eval o0.2.2.2 (negTree_ordered o0.2.2.1) r0.2.2 (negTree_reduced r0.2.1) fun x => by
        rw [h2, negTree_eval, h1]; cases c <;> simp
      have ht : t1 = .node v h l := by
        rw [ht1, negTree, ← hh]
        rw [hh, negTree_negTree]
      refine ⟨.node v l h :: t1 :: m, by simp; omega, fun u hu => ?_⟩
      rw [ht] at hu ⊢
      simp only [Tree.Sub] at hu
      rcases hu with (h' | h' | h') | (h' | h' | h')
      · simp [h']
      · simp [q2 u (Or.inl h')]
      · simp [q2 u (Or.inr h')]
      · simp [h']
      · simp [q2 u (Or.inr h')]
      · simp [q2 u (Or.inl h')]

/-- A parity of `n ≥ 1` variables has at most `2n - 1` distinct subtrees. -/
theorem parity_subs1 {t : Tree} {c : Bool} {v0 : Nat} {vs : List Nat} (ho : t.Ordered) (hr : t.Reduced) (hn : (v0 :: vs).Nodup)
    (he : ∀ x, t.eval x = (c ^^ parityF (v0 :: vs) x)) : ∃ m : List Tree, m.length ≤ 2 * vs.length + 1 ∧ ∀ u, t.Sub u → u ∈ m := by
  have hc : t.size ≠ 0 := fun h => by cases parity_leaf hn he h
  cases t with
  | bot => exact absurd rfl hc
  | top => exact absurd rfl hc
  | node v l h =>
    obtain ⟨hm, h1, h2⟩ := parity_node ho hr hn he
    have hle : ((v0 :: vs).erase v).length = vs.length := by rw [List.length_erase_of_mem hm]; rfl
    obtain ⟨m, q1, q2⟩ := parity_subs _ l h c _ hle ho.2.2.1 hr.2.1 ho.2.2.2 hr.2.2 (hn.erase v) h1 h2
    refine ⟨.node v l h :: m, by simp; omega, fun u hu => ?_⟩
    simp only [Tree.Sub] at hu
    rcases hu with h' | h' | h'
    · simp [h']
    · simp [q2 u (Or.inl h')]
    · simp [q2 u (Or.inr h')]

/-! ## Unfolding -/

theorem Unfolded.of_repr {c : Nat → Cell} {p : Nat} {t : Tree} (h : Repr c p t) : Unfolded c p (2 * t.size + 1) := by
  induction h with
  | bot => exact .sink (by omega)
  | top => exact .sink (by omega)
  | node h2 _ _ _ _ ih1 ih2 =>
    rename_i tl th _ _ _ _
    have h := Unfolded.node h2 ih1 ih2
    simp only [Tree.size]
    rwa [show 1 + (2 * tl.size + 1) + (2 * th.size + 1) = 2 * (tl.size + th.size + 1) + 1 by omega] at h

theorem Unfolded.unique {c : Nat → Cell} {p k l : Nat} (h : Unfolded c p k) (h' : Unfolded c p l) : k = l := by
  induction h generalizing l with
  | sink h2 =>
    cases h' with
    | sink _ => rfl
    | node h _ _ => omega
  | node h2 _ _ ih1 ih2 =>
    cases h' with
    | sink _ => omega
    | node _ a b => rw [ih1 a, ih2 b]

/-! ## Calls of `unmark` -/
section
variable {cfg : Cfg}

theorem isTerm_same {p : Nat} {s s' : Mgr} {b : Bool} (h : isTerm cfg p s = .ok b s') : s' = s := by
  have key : ∀ {s s' : Mgr} {b : Bool}, isBot cfg p s = .ok b s' → s' = s := by
    intro s s' b h
    unfold isBot at h
    rw [M.get_bind_apply] at h
    obtain ⟨_, s1, e1, e2⟩ := bind_ok_inv h
    unfold M.assert at e1
    split at e1
    · cases e1; cases e2; rfl
    · cases e1
  unfold isTerm at h
  obtain ⟨b1, s1, e1, e2⟩ := bind_ok_inv h
  have h1 : s1 = s := by
    unfold isTop at e1
    rw [M.get_bind_apply] at e1
    obtain ⟨_, s1, e3, e4⟩ := bind_ok_inv e1
    unfold M.assert at e3
    split at e3
    · cases e3; cases e4; rfl
    · cases e3
  subst h1
  split at e2
  · cases e2; rfl
  · exact key e2

theorem lowOf_same {p l : Nat} {s s' : Mgr} (h : lowOf p s = .ok l s') : s' = s := by
  unfold lowOf at h
  rw [M.get_bind_apply] at h
  split at h <;> cases h <;> rfl
theorem highOf_same {p l : Nat} {s s' : Mgr} (h : highOf p s = .ok l s') : s' = s := by
  unfold highOf at h
  rw [M.get_bind_apply] at h
  split at h <;> cases h <;> rfl

/-- `unmark` makes at most two calls per mark it clears, plus one. -/
theorem unmarkK_calls : ∀ (n p : Nat) (s s' : Mgr), unmark cfg n p s = .ok () s' →
    ∃ l : List Nat, l.Nodup ∧ (∀ q ∈ l, s.marks q = true ∧ s'.marks q = false) ∧ (∀ q, s'.marks q = true → s.marks q = true) ∧
      (unmarkK cfg n p).calls s ≤ 2 * l.length + 1 := by
  intro n
  induction n with
  | zero => intro p s s' e; cases e
  | succ n ih =>
    intro p s s' e0
    unfold unmarkK
    unfold unmark at e0
    rw [calls_tick]
    obtain ⟨b, s1, e1, e⟩ := bind_ok_inv e0
    clear e0
    rw [calls_of_bind e1]
    obtain rfl := isTerm_same e1
    split at e
    · rename_i hb
      rw [if_pos hb, calls_pure]
      cases e
      exact ⟨[], List.nodup_nil, by simp, fun _ h => h, by simp⟩
    · rename_i hb
      rw [if_neg hb]
      rw [M.bind_ok (getMark_ok _ _)] at e
      rw [calls_of_bind (getMark_ok _ _)]
      by_cases hm : s1.marks p = true
      · rw [if_pos hm] at e ⊢
        obtain ⟨_, s2, e2, f2⟩ := bind_ok_inv e
        obtain ⟨lo, s3, e3, f3⟩ := bind_ok_inv f2
        obtain ⟨_, s4, e4, f4⟩ := bind_ok_inv f3
        obtain ⟨hi, s5, e5, f5⟩ := bind_ok_inv f4
        clear e f2 f3 f4
        rw [calls_of_bind e2, calls_of_bind e3, calls_bind ((unmarkK_counts n _).run e4), calls_of_bind e5]
        have h2 : s2 = { s1 with marks := upd s1.marks p false } := by cases e2; rfl
        obtain rfl := lowOf_same e3
        obtain rfl := highOf_same e5
        obtain ⟨l1, a1, a2, a3, a4⟩ := ih _ _ _ e4
        obtain ⟨l2, b1, b2, b3, b4⟩ := ih _ _ _ f5
        have hf : ∀ q, s5.marks q = false → s'.marks q = false := fun q h => by
          cases h' : s'.marks q with
          | false => rfl
          | true => rw [b3 q h'] at h; cases h
        have hp : s3.marks p = false := by rw [h2]; exact upd_same ..
        have hs : ∀ q, s3.marks q = true → s1.marks q = true ∧ q ≠ p := fun q h => by
          have hne : q ≠ p := fun e => by rw [e, hp] at h; cases h
          rw [h2] at h
          have h : upd s1.marks p false q = true := h
          rw [upd_ne _ _ hne] at h
          exact ⟨h, hne⟩
        refine ⟨p :: (l1 ++ l2), List.nodup_cons.2 ⟨?_, List.nodup_append.2 ⟨a1, b1, ?_⟩⟩, ?_, ?_, ?_⟩
        · intro h
          rcases List.mem_append.1 h with h | h
          · exact (hs p (a2 p h).1).2 rfl
          · exact (hs p (a3 p (b2 p h).1)).2 rfl
        · intro x hx y hy e
          subst e
          have := (a2 x hx).2
          rw [(b2 x hy).1] at this; cases this
        · intro q hq
          rcases List.mem_cons.1 hq with h | h
          · rw [h]
            refine ⟨hm, hf _ ?_⟩
            cases h' : s5.marks p with
            | false => rfl
            | true => rw [a3 p h'] at hp; cases hp
          · rcases List.mem_append.1 h with h | h
            · exact ⟨(hs q (a2 q h).1).1, hf q (a2 q h).2⟩
            · exact ⟨(hs q (a3 q (b2 q h).1)).1, (b2 q h).2⟩
        · intro q h; exact (hs q (a3 q (b3 q h))).1
        · simp only [List.length_cons, List.length_append]; omega
      · rw [if_neg hm] at e ⊢
        cases e
        exact ⟨[], List.nodup_nil, by simp, fun _ h => h, by rw [calls_pure]; simp⟩

/-! ## Calls of the traversals -/

theorem assert_keep {nd b : Bool} {s s' : Mgr} {x : Unit} (h : M.assert nd b s = .ok x s') : s' = s := by
  unfold M.assert at h
  split at h
  · cases h; rfl
  · cases h
theorem getMark_same {p : Nat} {s s' : Mgr} {b : Bool} (h : getMark p s = .ok b s') : s' = s := by cases h; rfl
theorem setMark_same {p : Nat} {s s' : Mgr} {b : Bool} {x : Unit} (h : setMark p b s = .ok x s') : s'.marks = upd s.marks p b := by cases h; rfl

/-- A traversal marks only what it lists. -/
theorem visit_marks {post : Bool} : ∀ (n p : Nat) (s : Mgr) (l : List Nat) (s' : Mgr), visit cfg post n p s = .ok l s' →
    ∀ q, s'.marks q = true → s.marks q = true ∨ q ∈ l := by
  intro n
  induction n with
  | zero => intro p s l s' e; cases e
  | succ n ih =>
    intro p s l s' e0 q hq
    unfold visit at e0
    obtain ⟨b, s1, e1, f1⟩ := bind_ok_inv e0
    have g1 := isTerm_same e1
    split at f1
    · cases f1; rw [g1] at hq; exact Or.inl hq
    · obtain ⟨m, s2, e2, f2⟩ := bind_ok_inv f1
      obtain ⟨_, s3, e3, f3⟩ := bind_ok_inv f2
      obtain ⟨_, s4, e4, f4⟩ := bind_ok_inv f3
      obtain ⟨lo, s5, e5, f5⟩ := bind_ok_inv f4
      obtain ⟨a, s6, e6, f6⟩ := bind_ok_inv f5
      obtain ⟨hi, s7, e7, f7⟩ := bind_ok_inv f6
      obtain ⟨b, s8, e8, f8⟩ := bind_ok_inv f7
      have hu : ∀ (r : Nat) (s : Mgr) (l : List Nat) (s' : Mgr), ifUnmarked (visit cfg post n) r s = .ok l s' →
          ∀ q, s'.marks q = true → s.marks q = true ∨ q ∈ l := by
        intro r s l s' e0 q hq
        unfold ifUnmarked at e0
        obtain ⟨b, s1, e1, f1⟩ := bind_ok_inv e0
        have g1 := getMark_same e1
        split at f1
        · cases f1; rw [g1] at hq; exact Or.inl hq
        · have := ih r s1 l s' f1 q hq
          rwa [g1] at this
      have hs : s8 = s' := by cases f8; rfl
      have hl : ∀ q, q ∈ l ↔ q = p ∨ q ∈ a ∨ q ∈ b := by
        intro q
        cases f8
        split <;> simp [or_comm, or_left_comm]
      rw [hl]
      rw [← hs] at hq
      rcases hu _ _ _ _ e8 q hq with h | h
      · rw [highOf_same e7] at h
        rcases hu _ _ _ _ e6 q h with h | h
        · rw [lowOf_same e5, setMark_same e4] at h
          by_cases hqp : q = p
          · exact Or.inr (Or.inl hqp)
          · rw [upd_ne _ _ hqp, assert_keep e3, getMark_same e2, g1] at h
            exact Or.inl h
        · exact Or.inr (Or.inr (Or.inl h))
      · exact Or.inr (Or.inr (Or.inr h))

theorem length_le_of_sub {l l2 : List Nat} (h1 : l2.Nodup) (h : ∀ q ∈ l2, q ∈ l) : l2.length ≤ l.length :=
  pigeon (fun x y => x = y) h1 (fun x hx => ⟨x, h x hx, rfl⟩) (fun _ _ _ _ _ h h' => h.trans h'.symm)

/-- Calls of a traversal followed by `unmark` that restores the marks. -/
theorem walk_calls {post : Bool} {n m p : Nat} {s s1 s2 : Mgr} {l : List Nat} (e1 : visit cfg post n p s = .ok l s1) (e2 : unmark cfg m p s1 = .ok () s2)
    (h : s2.marks = s.marks) : (visitK cfg post n p).calls s + (unmarkK cfg m p).calls s1 ≤ 4 * l.length + 2 := by
  have h1 := visitK_calls n p s l s1 e1
  obtain ⟨l2, a1, a2, _, a4⟩ := unmarkK_calls m p s1 s2 e2
  have : l2.length ≤ l.length := length_le_of_sub a1 fun q hq => by
    obtain ⟨b1, b2⟩ := a2 q hq
    rcases visit_marks n p s l s1 e1 q b1 with h' | h'
    · rw [h, h'] at b2; cases b2
    · exact h'
  omega

theorem nrNodesK_calls {p k : Nat} {s s' : Mgr} (e : nrNodes cfg p s = .ok k s') (h : s'.marks = s.marks) : (nrNodesK cfg p).calls s ≤ 4 * k + 2 := by
  unfold nrNodes at e
  rw [M.get_bind_apply] at e
  obtain ⟨m, s1, e1, f1⟩ := bind_ok_inv e
  obtain ⟨_, s2, e2, f2⟩ := bind_ok_inv f1
  obtain ⟨l, s3, e3, f3⟩ := bind_ok_inv f2
  obtain ⟨_, s4, e4, f4⟩ := bind_ok_inv f3
  unfold nrNodesK
  rw [calls_of_bind (m := M.get) (s' := s) (a := s) rfl, calls_of_bind e1, calls_of_bind e2, calls_bind ((visitK_counts _ _).run e3),
    calls_bind ((unmarkK_counts _ _).run e4), calls_pure]
  have hk : l.length = k ∧ s4 = s' := by cases f4; exact ⟨rfl, rfl⟩
  have h2 : s2 = s := (assert_keep e2).trans (getMark_same e1)
  subst h2
  have := walk_calls e3 e4 (by rw [hk.2, h])
  omega

theorem assertCountK_counts (p k : Nat) : Counts (assertCountK cfg p k) (assertCount cfg p k) :=
  .ite (.pure _) (.bind (nrNodesK_counts p) fun _ => .of _)

theorem nodesPostorderK_counts (p : Nat) : Counts (nodesPostorderK cfg p) (nodesPostorder cfg p) :=
  .bind (.of _) fun _ => .bind (.of _) fun _ => .bind (.of _) fun _ => .bind (visitK_counts _ _) fun _ => .bind (unmarkK_counts _ _) fun _ =>
    .bind (assertCountK_counts _ _) fun _ => .pure _

theorem variablesK_counts (p : Nat) : Counts (variablesK cfg p) (variables cfg p) :=
  .bind (.of _) fun _ => .bind (visitK_counts _ _) fun _ => .bind (unmarkK_counts _ _) fun _ => .pure _

theorem bfsLoopK_counts : ∀ n dq acc, Counts (bfsLoopK cfg n dq acc) (bfsLoop cfg n dq acc)
  | 0, [], _ => .pure _
  | _ + 1, [], _ => .pure _
  | 0, _ :: _, _ => .of _
  | n + 1, _ :: _, _ => .tick (.bind (.of _) fun _ => .bind (.of _) fun _ => .bind (.of _) fun _ => .bind (.of _) fun _ => .bind (.of _) fun _ =>
      .bind (.of _) fun _ => bfsLoopK_counts n _ _)

theorem nodesBfsK_counts (p : Nat) : Counts (nodesBfsK cfg p) (nodesBfs cfg p) :=
  .bind (.of _) fun _ => .bind (.of _) fun _ => .bind (.of _) fun _ => .bind (.of _) fun _ => .bind (bfsLoopK_counts _ _ _) fun _ =>
    .bind (unmarkK_counts _ _) fun _ => .bind (assertCountK_counts _ _) fun _ => .pure _

theorem bfsPush_marks {q : Nat} {dq dq' : List Nat} {s s' : Mgr} (h : bfsPush cfg q dq s = .ok dq' s') :
    (∀ r ∈ dq, r ∈ dq') ∧ ∀ r, s'.marks r = true → s.marks r = true ∨ r ∈ dq' := by
  unfold bfsPush at h
  obtain ⟨b, s1, e1, f1⟩ := bind_ok_inv h
  have g1 := isTerm_same e1
  split at f1
  · cases f1; rw [g1]; exact ⟨fun _ h => h, fun _ h => Or.inl h⟩
  · obtain ⟨m, s2, e2, f2⟩ := bind_ok_inv f1
    have g2 := getMark_same e2
    split at f2
    · cases f2; rw [g2, g1]; exact ⟨fun _ h => h, fun _ h => Or.inl h⟩
    · obtain ⟨_, s3, e3, f3⟩ := bind_ok_inv f2
      have g3 := setMark_same e3
      cases f3
      refine ⟨fun r h => by simp [h], fun r h => ?_⟩
      by_cases hr : r = q
      · exact Or.inr (by simp [hr])
      · rw [g3, upd_ne _ _ hr, g2, g1] at h; exact Or.inl h

theorem bfsLoopK_calls : ∀ (n : Nat) (dq acc : List Nat) (s : Mgr) (l : List Nat) (s' : Mgr), bfsLoop cfg n dq acc s = .ok l s' →
    (bfsLoopK cfg n dq acc).calls s + acc.length = l.length ∧ (∀ q, q ∈ acc ∨ q ∈ dq → q ∈ l) ∧
      ∀ q, s'.marks q = true → s.marks q = true ∨ q ∈ l := by
  intro n
  induction n with
  | zero =>
    intro dq acc s l s' e
    cases dq with
    | nil => cases e; exact ⟨by unfold bfsLoopK; rw [calls_pure]; omega, fun q h => h.elim id (fun h => by cases h), fun _ h => Or.inl h⟩
    | cons p dq => cases e
  | succ n ih =>
    intro dq acc s l s' e
    cases dq with
    | nil => cases e; exact ⟨by unfold bfsLoopK; rw [calls_pure]; omega, fun q h => h.elim id (fun h => by cases h), fun _ h => Or.inl h⟩
    | cons p dq =>
      unfold bfsLoop at e
      obtain ⟨m, s1, e1, f1⟩ := bind_ok_inv e
      obtain ⟨_, s2, e2, f2⟩ := bind_ok_inv f1
      obtain ⟨lo, s3, e3, f3⟩ := bind_ok_inv f2
      obtain ⟨dq1, s4, e4, f4⟩ := bind_ok_inv f3
      obtain ⟨hi, s5, e5, f5⟩ := bind_ok_inv f4
      obtain ⟨dq2, s6, e6, f6⟩ := bind_ok_inv f5
      obtain ⟨c1, c2, c3⟩ := ih _ _ _ _ _ f6
      obtain ⟨a1, a2⟩ := bfsPush_marks e4
      obtain ⟨b1, b2⟩ := bfsPush_marks e6
      unfold bfsLoopK
      rw [calls_tick, calls_of_bind e1, calls_of_bind e2, calls_of_bind e3, calls_of_bind e4, calls_of_bind e5, calls_of_bind e6]
      refine ⟨?_, ?_, ?_⟩
      · rw [List.length_append, List.length_singleton] at c1; omega
      · rintro q (h | h)
        · exact c2 q (Or.inl (by simp [h]))
        · rcases List.mem_cons.1 h with h | h
          · exact c2 q (Or.inl (by simp [h]))
          · exact c2 q (Or.inr (b1 q (a1 q h)))
      · intro q hq
        rcases c3 q hq with h | h
        · rcases b2 q h with h | h
          · rw [highOf_same e5] at h
            rcases a2 q h with h | h
            · rw [lowOf_same e3, assert_keep e2, getMark_same e1] at h
              exact Or.inl h
            · exact Or.inr (c2 q (Or.inr (b1 q h)))
          · exact Or.inr (c2 q (Or.inr h))
        · exact Or.inr h

/-- Calls made by the closing assert. -/
theorem assertCountK_calls {p k : Nat} {s s' : Mgr} (e : assertCount cfg p k s = .ok () s') (h : s'.marks = s.marks) :
    (assertCountK cfg p k).calls s ≤ if cfg.ndebug then 0 else 4 * k + 2 := by
  unfold assertCount at e
  unfold assertCountK
  split at e
  · rename_i hd; rw [if_pos hd, if_pos hd, calls_pure]; exact Nat.le_refl _
  · rename_i hd
    rw [if_neg hd, if_neg hd]
    obtain ⟨m, s1, e1, f1⟩ := bind_ok_inv e
    rw [calls_bind ((nrNodesK_counts p).run e1), calls_of]
    have g := assert_keep f1
    have hm : k = m := by
      unfold M.assert at f1
      split at f1
      · rename_i hh; simpa [hd] using hh
      · cases f1
    rw [hm]
    have := nrNodesK_calls e1 (by rw [← g, h])
    omega


theorem markAssert_ok {md : Md} {refs : Nat → Nat} {s : Mgr} (hi : Inv cfg md refs s) {p : Nat} {t : Tree} (hp : Repr s.cells p t) (hm : MarkOk cfg s p) :
    M.assert cfg.ndebug (!s.marks p) s = .ok () s := by
  unfold M.assert
  rcases hm with h | h | h
  · rw [hi.mark p h (hi.live_of hp)]; simp
  · simp [h]
  · simp [h]

theorem nodesPostorderK_calls {md : Md} {refs : Nat → Nat} {s : Mgr} (hi : Inv cfg md refs s) {p : Nat} {t : Tree} (hp : Repr s.cells p t) (hm : MarkOk cfg s p)
    {l : List Nat} (e : nodesPostorder cfg p s = .ok l s) :
    (nodesPostorderK cfg p).calls s ≤ 4 * l.length + 2 + if cfg.ndebug then 0 else 4 * l.length + 2 := by
  obtain ⟨l', s1, e1, e2, h, _⟩ := visit_unmark (cfg := cfg) hi true hp
  have e3 := assertCount_ok hi hp hm h
  have hl : l' = l := by
    unfold nodesPostorder at e
    rw [M.get_bind_apply, M.bind_ok (getMark_ok s p), markAssert hi hp hm, M.bind_ok e1, M.bind_ok e2, M.bind_ok e3] at e
    cases e; rfl
  subst hl
  unfold nodesPostorderK
  rw [calls_of_bind (m := M.get) (s' := s) (a := s) rfl, calls_of_bind (getMark_ok s p), calls_of_bind (markAssert_ok hi hp hm), calls_bind ((visitK_counts _ _).run e1),
    calls_bind ((unmarkK_counts _ _).run e2), calls_bind ((assertCountK_counts _ _).run e3), calls_pure]
  have h1 := walk_calls e1 e2 rfl
  have h2 := assertCountK_calls e3 rfl
  omega

theorem variablesK_calls {md : Md} {refs : Nat → Nat} {s : Mgr} (hi : Inv cfg md refs s) {p : Nat} {t : Tree} (hp : Repr s.cells p t) :
    ∃ l, Lists s.cells p l ∧ (variablesK cfg p).calls s ≤ 4 * l.length + 2 := by
  obtain ⟨l, s1, e1, e2, h, _⟩ := visit_unmark (cfg := cfg) hi false hp
  refine ⟨l, h, ?_⟩
  unfold variablesK
  rw [calls_of_bind (m := M.get) (s' := s) (a := s) rfl, calls_bind ((visitK_counts _ _).run e1), calls_bind ((unmarkK_counts _ _).run e2), calls_pure]
  have h1 := walk_calls e1 e2 rfl
  omega

theorem nodesBfsK_calls {md : Md} {refs : Nat → Nat} {s : Mgr} (hi : Inv cfg md refs s) {p : Nat} {t : Tree} (hp : Repr s.cells p t) (p2 : 2 ≤ p)
    {l : List Nat} (e : nodesBfs cfg p s = .ok l s) :
    (nodesBfsK cfg p).calls s ≤ 3 * l.length + 1 + if cfg.ndebug then 0 else 4 * l.length + 2 := by
  obtain ⟨l', s1, e1, e2, h⟩ := nodesBfs_run (cfg := cfg) hi hp p2
  have e3 := assertCount_ok (cfg := cfg) hi hp (Or.inl p2) h.lists
  have hl : l' = l := by
    unfold nodesBfs at e
    rw [M.get_bind_apply, M.bind_ok (getMark_ok s p), markAssert hi hp (Or.inl p2), M.bind_ok (setMark_ok s p true), M.bind_ok e1, M.bind_ok e2, M.bind_ok e3] at e
    cases e; rfl
  subst hl
  unfold nodesBfsK
  rw [calls_of_bind (m := M.get) (s' := s) (a := s) rfl, calls_of_bind (getMark_ok s p), calls_of_bind (markAssert_ok hi hp (Or.inl p2)),
    calls_of_bind (setMark_ok s p true), calls_bind ((bfsLoopK_counts _ _ _).run e1),
    calls_bind ((unmarkK_counts _ _).run e2), calls_bind ((assertCountK_counts _ _).run e3), calls_pure]
  obtain ⟨c1, c2, c3⟩ := bfsLoopK_calls _ _ _ _ _ _ e1
  obtain ⟨l2, a1, a2, _, a4⟩ := unmarkK_calls _ _ _ _ e2
  have hle : l2.length ≤ l'.length := length_le_of_sub a1 fun q hq => by
    obtain ⟨b1, b2⟩ := a2 q hq
    rcases c3 q b1 with h' | h'
    · by_cases hqp : q = p
      · exact c2 q (Or.inr (by simp [hqp]))
      · have h' : upd s.marks p true q = true := h'
        rw [upd_ne _ _ hqp, b2] at h'; cases h'
    · exact h'
  have h2 := assertCountK_calls e3 rfl
  simp only [List.length_nil] at c1
  omega
end
end LBDD
