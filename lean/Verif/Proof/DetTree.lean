import Verif.Proof.WalkT
import Verif.Proof.Hist
/-! The composite operations compute fixed functions of the operands' decision trees and add a fixed set of nodes, in every history that does not mix
disjunctions and exclusive ors. -/
namespace LBDD

section
variable {ι κ α β τ σ : Type} {md : Md}

/-- If `m` returns on inputs satisfying `H`, the result is related by `Q` to an abstract value, and the added nodes are a set of trees; neither depends on the
environment, the state or the inputs' addresses. -/
def DetL (md : Md) (H : (Nat → Cell) → ι → Prop) (m : Cfg → ι → M Mgr α) (Q : τ → α → (Nat → Cell) → Prop) : Prop :=
  ∃ (o : τ) (N : Tree → Prop), ∀ (cfg : Cfg) (refs : Nat → Nat) (s : Mgr) (i : ι), Inv cfg md refs s → H s.cells i →
    Lib cfg md refs (m cfg i) s (fun a s' => Q o a s'.cells ∧ s'.nvars = s.nvars ∧ Adds s s' N)

/-- The abstract value of a node is its tree. -/
def IsTree (t : Tree) (p : Nat) (c : Nat → Cell) : Prop := Repr c p t
/-- The abstract value of a list of nodes is the list of their trees. -/
def AreTrees (ts : List Tree) (l : List Nat) (c : Nat → Cell) : Prop := Reprs c l ts

theorem Reprs.pers {ts : List Tree} : Pers (fun c l => Reprs c l ts) := fun _ _ _ h r => r.ext h

theorem DetL.bind {H : (Nat → Cell) → ι → Prop} {m : Cfg → ι → M Mgr α} {Q : τ → α → (Nat → Cell) → Prop} {k : Cfg → α → ι → M Mgr β}
    {R : σ → β → (Nat → Cell) → Prop} (hH : Pers H) (h1 : DetL md H m Q)
    (h2 : ∀ o, DetL md (fun c (p : α × ι) => Q o p.1 c ∧ H c p.2) (fun cfg p => k cfg p.1 p.2) R) :
    DetL md H (fun cfg i => m cfg i >>= fun a => k cfg a i) R := by
  obtain ⟨o1, N1, h1⟩ := h1
  obtain ⟨o2, N2, h2⟩ := h2 o1
  refine ⟨o2, fun u => N1 u ∨ N2 u, ?_⟩
  intro cfg refs s i hi hh
  refine Lib.bind (h1 cfg refs s i hi hh) ?_
  rintro a s1 x1 hi1 ⟨q1, e1, n1⟩
  refine (h2 cfg refs s1 (a, i) hi1 ⟨q1, hH _ _ _ x1.cells hh⟩).mono ?_
  rintro b s2 ⟨q2, e2, n2⟩
  exact ⟨q2, e2.trans e1, n1.trans n2⟩

theorem DetL.map {H : (Nat → Cell) → ι → Prop} {H' : (Nat → Cell) → κ → Prop} {m : Cfg → ι → M Mgr α} {Q : τ → α → (Nat → Cell) → Prop}
    (h : DetL md H m Q) (f : κ → ι) (hf : ∀ c i, H' c i → H c (f i)) : DetL md H' (fun cfg i => m cfg (f i)) Q := by
  obtain ⟨o, N, h⟩ := h
  exact ⟨o, N, fun cfg refs s i hi hh => h cfg refs s (f i) hi (hf _ _ hh)⟩

theorem DetL.prog {H : (Nat → Cell) → ι → Prop} {m m' : Cfg → ι → M Mgr α} {Q : τ → α → (Nat → Cell) → Prop}
    (h : DetL md H m Q) (e : ∀ cfg c i, H c i → m' cfg i = m cfg i) : DetL md H m' Q := by
  obtain ⟨o, N, h⟩ := h
  exact ⟨o, N, fun cfg refs s i hi hh => by rw [e cfg _ i hh]; exact h cfg refs s i hi hh⟩

theorem DetL.pure {H : (Nat → Cell) → ι → Prop} {f : ι → α} {Q : τ → α → (Nat → Cell) → Prop} (o : τ)
    (h : ∀ c i, H c i → Q o (f i) c) : DetL md H (fun _ i => Pure.pure (f i)) Q :=
  ⟨o, fun _ => False, fun _ _ _ i hi hh => Lib.pure hi ⟨h _ i hh, rfl, .refl⟩⟩

theorem DetL.assert {H : (Nat → Cell) → ι → Prop} {m : Cfg → ι → M Mgr α} {Q : τ → α → (Nat → Cell) → Prop} {b : ι → Bool}
    (h : DetL md H m Q) : DetL md H (fun cfg i => M.assert cfg.ndebug (b i) >>= fun _ => m cfg i) Q := by
  obtain ⟨o, N, h⟩ := h
  exact ⟨o, N, fun cfg refs s i hi hh => Lib.assert_bind (h cfg refs s i hi hh)⟩

theorem DetL.hang {H : (Nat → Cell) → ι → Prop} {Q : τ → α → (Nat → Cell) → Prop} (o : τ) : DetL md H (fun _ _ => (M.hang : M Mgr α)) Q :=
  ⟨o, fun _ => False, fun _ _ _ _ _ _ _ _ e => by cases e⟩

theorem DetL.args2 {H : (Nat → Cell) → ι → Prop} {m1 m2 : Cfg → ι → M Mgr Nat} (hH : Pers H) (h1 : DetL md H m1 IsTree) (h2 : DetL md H m2 IsTree) :
    DetL md H (fun cfg i => LBDD.args2 cfg (m1 cfg i) (m2 cfg i)) (fun (o : Tree × Tree) r c => Repr c r.1 o.1 ∧ Repr c r.2 o.2) := by
  obtain ⟨o1, N1, h1⟩ := h1
  obtain ⟨o2, N2, h2⟩ := h2
  refine ⟨(o1, o2), fun u => N1 u ∨ N2 u, ?_⟩
  intro cfg refs s i hi hh
  show Lib cfg md refs (LBDD.args2 cfg (m1 cfg i) (m2 cfg i)) s _
  unfold LBDD.args2
  split
  · refine Lib.bind (h2 cfg refs s i hi hh) ?_
    rintro b s1 x1 hi1 ⟨q1, e1, n1⟩
    refine Lib.bind (h1 cfg refs s1 i hi1 (hH _ _ _ x1.cells hh)) ?_
    rintro a s2 x2 hi2 ⟨q2, e2, n2⟩
    exact Lib.pure hi2 ⟨⟨q2, Repr.ext x2.cells q1⟩, e2.trans e1, (n1.trans n2).congr (fun u => or_comm)⟩
  · refine Lib.bind (h1 cfg refs s i hi hh) ?_
    rintro b s1 x1 hi1 ⟨q1, e1, n1⟩
    refine Lib.bind (h2 cfg refs s1 i hi1 (hH _ _ _ x1.cells hh)) ?_
    rintro a s2 x2 hi2 ⟨q2, e2, n2⟩
    exact Lib.pure hi2 ⟨⟨Repr.ext x2.cells q1, q2⟩, e2.trans e1, n1.trans n2⟩

theorem DetL.args3 {H : (Nat → Cell) → ι → Prop} {m1 m2 m3 : Cfg → ι → M Mgr Nat} (hH : Pers H) (h1 : DetL md H m1 IsTree) (h2 : DetL md H m2 IsTree)
    (h3 : DetL md H m3 IsTree) :
    DetL md H (fun cfg i => LBDD.args3 cfg (m1 cfg i) (m2 cfg i) (m3 cfg i))
      (fun (o : Tree × Tree × Tree) r c => Repr c r.1 o.1 ∧ Repr c r.2.1 o.2.1 ∧ Repr c r.2.2 o.2.2) := by
  obtain ⟨o1, N1, h1⟩ := h1
  obtain ⟨o2, N2, h2⟩ := h2
  obtain ⟨o3, N3, h3⟩ := h3
  refine ⟨(o1, o2, o3), fun u => (N1 u ∨ N2 u) ∨ N3 u, ?_⟩
  intro cfg refs s i hi hh
  show Lib cfg md refs (LBDD.args3 cfg (m1 cfg i) (m2 cfg i) (m3 cfg i)) s _
  unfold LBDD.args3
  split
  · refine Lib.bind (h3 cfg refs s i hi hh) ?_
    rintro b s1 x1 hi1 ⟨q1, e1, n1⟩
    refine Lib.bind (h2 cfg refs s1 i hi1 (hH _ _ _ x1.cells hh)) ?_
    rintro a s2 x2 hi2 ⟨q2, e2, n2⟩
    refine Lib.bind (h1 cfg refs s2 i hi2 (hH _ _ _ (x1.cells.trans x2.cells) hh)) ?_
    rintro d s3 x3 hi3 ⟨q3, e3, n3⟩
    exact Lib.pure hi3 ⟨⟨q3, Repr.ext x3.cells q2, Repr.ext (x2.cells.trans x3.cells) q1⟩, e3.trans (e2.trans e1),
      ((n1.trans n2).trans n3).congr (fun u => by
        constructor
        · rintro ((h | h) | h); exact Or.inr h; exact Or.inl (Or.inr h); exact Or.inl (Or.inl h)
        · rintro ((h | h) | h); exact Or.inr h; exact Or.inl (Or.inr h); exact Or.inl (Or.inl h))⟩
  · refine Lib.bind (h1 cfg refs s i hi hh) ?_
    rintro b s1 x1 hi1 ⟨q1, e1, n1⟩
    refine Lib.bind (h2 cfg refs s1 i hi1 (hH _ _ _ x1.cells hh)) ?_
    rintro a s2 x2 hi2 ⟨q2, e2, n2⟩
    refine Lib.bind (h3 cfg refs s2 i hi2 (hH _ _ _ (x1.cells.trans x2.cells) hh)) ?_
    rintro d s3 x3 hi3 ⟨q3, e3, n3⟩
    exact Lib.pure hi3 ⟨⟨Repr.ext (x2.cells.trans x3.cells) q1, Repr.ext x3.cells q2, q3⟩, e3.trans (e2.trans e1), (n1.trans n2).trans n3⟩
end

/-! ### the primitive operations -/

/-- A pair of nodes with the given trees. -/
def Pair (t u : Tree) (c : Nat → Cell) (p : Nat × Nat) : Prop := Repr c p.1 t ∧ Repr c p.2 u

theorem Pair.pers {t u : Tree} : Pers (Pair t u) := fun _ _ _ h r => ⟨r.1.ext h, r.2.ext h⟩
theorem IsTree.pers {t : Tree} : Pers (fun c p => Repr c p t) := fun _ _ _ h r => r.ext h

/-- The tree of the result of a binary operation is a function of the operands' trees. -/
def TreeOp (md : Md) (op : Cfg → Nat → Nat → M Mgr Nat) : Prop :=
  ∀ t u, DetL md (Pair t u) (fun cfg p => op cfg p.1 p.2) IsTree

section
variable {md : Md}

/-- From a specification that says which BDD is returned and that only its nodes are new. -/
theorem detL_new {ι : Type} {H : (Nat → Cell) → ι → Prop} {m : Cfg → ι → M Mgr Nat} {t : Tree}
    (h : ∀ (cfg : Cfg) (refs : Nat → Nat) (s : Mgr) (i : ι), Inv cfg md refs s → H s.cells i →
      Lib cfg md refs (m cfg i) s (fun r s' => Repr s'.cells r t ∧ s'.nvars = s.nvars ∧ New s s' r)) : DetL md H m IsTree := by
  refine ⟨t, fun u => t.Sub u, ?_⟩
  intro cfg refs s i hi hh r s1 e
  obtain ⟨a, b, d, f, g⟩ := h cfg refs s i hi hh r s1 e
  exact ⟨a, b, d, f, g.adds hi b a.cells d⟩

theorem Spec.libN {α : Type} {cfg : Cfg} {refs : Nat → Nat} {s : Mgr} {m : M Mgr α} {P : α → Mgr → Prop} (h : Spec cfg md refs m s P) :
    Lib cfg md refs m s (fun r s' => P r s' ∧ s'.nvars = s.nvars) := by
  intro a s' e
  unfold Spec M.Sat at h
  rw [e] at h
  exact ⟨h.1.grow, h.2.1, h.2.2, h.1.nvars⟩

theorem SpecB.libN {α : Type} {bad : Prop} {cfg : Cfg} {refs : Nat → Nat} {s : Mgr} {m : M Mgr α} {P : α → Mgr → Prop} (h : SpecB bad cfg md refs m s P) :
    Lib cfg md refs m s (fun r s' => P r s' ∧ s'.nvars = s.nvars) := by
  intro a s' e
  unfold SpecB at h
  rw [e] at h
  exact ⟨h.1.grow, h.2.1, h.2.2, h.1.nvars⟩

theorem treeOp_and : TreeOp md andOp := fun _ _ => detL_new fun _ _ _ _ hi hh =>
  (andOp_tree hi hh.1 hh.2).libN.mono fun _ _ h => ⟨h.1.1, h.2, h.1.2⟩

theorem treeOp_or (hm : OrMode md) : TreeOp md orOp := by
  refine fun t u => detL_new (t := tOr t u) fun _ _ _ _ hi hh => (orOp_okT hm.semIte.toSemOr hi hh.1 hh.2).libN.mono ?_
  rintro r s' ⟨⟨tr, h1, _, _, h4, h5⟩, h6⟩
  rw [hm.rel] at h4
  exact ⟨h4 ▸ h1, h6, h5⟩

theorem treeOp_xor (hm : XorMode md) : TreeOp md xorOp := by
  refine fun t u => detL_new (t := tXor t u) fun _ _ _ _ hi hh => (xorOp_okT hm.semXor hm.unord hi hh.1 hh.2).libN.mono ?_
  rintro r s' ⟨⟨tr, h1, _, _, h4, h5⟩, h6⟩
  rw [hm.rel] at h4
  exact ⟨h4 ▸ h1, h6, h5⟩

theorem TreeOp.swap {op : Cfg → Nat → Nat → M Mgr Nat} (h : TreeOp md op) : TreeOp md (fun cfg a b => op cfg b a) :=
  fun t u => (h u t).map (fun p : Nat × Nat => (p.2, p.1)) fun _ _ h => ⟨h.2, h.1⟩

theorem detL_neg (t : Tree) : DetL md (fun c p => Repr c p t) (fun cfg p => negateOp cfg p) IsTree := detL_new fun _ _ _ _ hi hh =>
  (negateOp_tree hi hh).libN.mono fun _ _ h => ⟨h.1.1, h.2, h.1.2⟩

/-! ### ranges -/

theorem Reprs.take {c : Nat → Cell} : ∀ {l : List Nat} {ts : List Tree} (n : Nat), Reprs c l ts → Reprs c (l.take n) (ts.take n)
  | [], [], _, _ => by simp [Reprs]
  | _ :: _, _ :: _, 0, _ => trivial
  | _ :: _, _ :: _, n + 1, h => ⟨h.1, Reprs.take n h.2⟩
  | [], _ :: _, _, h => h.elim
  | _ :: _, [], _, h => h.elim

theorem Reprs.drop {c : Nat → Cell} : ∀ {l : List Nat} {ts : List Tree} (n : Nat), Reprs c l ts → Reprs c (l.drop n) (ts.drop n)
  | [], [], _, _ => by simp [Reprs]
  | _ :: _, _ :: _, 0, h => h
  | _ :: _, _ :: _, n + 1, h => Reprs.drop n h.2
  | [], _ :: _, _, h => h.elim
  | _ :: _, [], _, h => h.elim

/-- Operation on the results of two computations on the same inputs, one after the other. -/
theorem DetL.seq2 {ι : Type} {H : (Nat → Cell) → ι → Prop} (hH : Pers H) {op : Cfg → Nat → Nat → M Mgr Nat} (hop : TreeOp md op) {m1 m2 : Cfg → ι → M Mgr Nat}
    (h1 : DetL md H m1 IsTree) (h2 : DetL md H m2 IsTree) :
    DetL md H (fun cfg i => m1 cfg i >>= fun a => m2 cfg i >>= fun b => op cfg a b) IsTree := by
  refine DetL.bind (k := fun cfg a i => m2 cfg i >>= fun b => op cfg a b) hH h1 fun t => ?_
  refine DetL.bind (m := fun cfg (p : Nat × ι) => m2 cfg p.2) (k := fun cfg b (p : Nat × ι) => op cfg p.1 b) ?_ (h2.map _ fun c i h => h.2) fun u => ?_
  · exact fun c c' i hx h => ⟨Repr.ext hx h.1, hH _ _ _ hx h.2⟩
  · exact (hop t u).map (fun p : Nat × Nat × ι => (p.2.1, p.1)) fun c p h => ⟨h.2.1, h.1⟩

/-- Operation on two arguments evaluated in unspecified order. -/
theorem DetL.on2 {ι : Type} {H : (Nat → Cell) → ι → Prop} (hH : Pers H) {op : Cfg → Nat → Nat → M Mgr Nat} (hop : TreeOp md op) {m1 m2 : Cfg → ι → M Mgr Nat}
    (h1 : DetL md H m1 IsTree) (h2 : DetL md H m2 IsTree) :
    DetL md H (fun cfg i => LBDD.args2 cfg (m1 cfg i) (m2 cfg i) >>= fun r => op cfg r.1 r.2) IsTree := by
  refine DetL.bind (k := fun cfg (r : Nat × Nat) _ => op cfg r.1 r.2) hH (DetL.args2 hH h1 h2) fun o => ?_
  exact (hop o.1 o.2).map (fun p : (Nat × Nat) × ι => p.1) fun c p h => h.1

/-- One cell of a list. -/
theorem detL_get {ts : List Tree} {f : List Nat → Nat} (t : Tree) (h : ∀ c l, Reprs c l ts → Repr c (f l) t) :
    DetL md (fun c l => Reprs c l ts) (fun _ l => Pure.pure (f l)) IsTree := DetL.pure t h

theorem rangeRec_tree {op : Cfg → Nat → Nat → M Mgr Nat} (hop : TreeOp md op) : ∀ (n : Nat) (ts : List Tree),
    DetL md (fun c l => Reprs c l ts) (fun cfg l => rangeRec cfg (op cfg) n l) IsTree := by
  intro n
  induction n with
  | zero => exact fun ts => DetL.hang .bot
  | succ n ih =>
    intro ts
    have big : DetL md (fun c l => Reprs c l ts) (fun cfg l => rangeRec cfg (op cfg) n (l.take (l.length / 2)) >>= fun a =>
        rangeRec cfg (op cfg) n (l.drop (l.length / 2)) >>= fun b => op cfg a b) IsTree := by
      refine DetL.seq2 Reprs.pers hop ?_ ?_
      · refine ((ih (ts.take (ts.length / 2))).map (fun l : List Nat => l.take (l.length / 2)) fun c l h => ?_)
        rw [h.length]; exact h.take _
      · refine ((ih (ts.drop (ts.length / 2))).map (fun l : List Nat => l.drop (l.length / 2)) fun c l h => ?_)
        rw [h.length]; exact h.drop _
    have key : DetL md (fun c l => Reprs c l ts) (fun cfg l => match l with
        | [a, b] => op cfg a b
        | [a, b, c] => do
          let r ← op cfg b c
          op cfg a r
        | l => do
          let a1 ← rangeRec cfg (op cfg) n (l.take (l.length / 2))
          let a2 ← rangeRec cfg (op cfg) n (l.drop (l.length / 2))
          op cfg a1 a2) IsTree := by
      match ts with
      | [t, u] =>
        refine ((hop t u).map (fun l => (l.headD 0, (l.drop 1).headD 0)) (H' := fun c l => Reprs c l [t, u]) ?_).prog ?_
        · intro c l h; match l, h with | [_, _], h => exact ⟨h.1, h.2.1⟩
        · intro cfg c l h; match l, h with | [_, _], h => rfl
      | [t, u, v] =>
        refine (DetL.seq2 (H := fun c l => Reprs c l [t, u, v]) Reprs.pers hop.swap
          ((hop u v).map (fun l => ((l.drop 1).headD 0, (l.drop 2).headD 0)) ?_) (detL_get (f := fun l => l.headD 0) t ?_)).prog ?_
        · intro c l h; match l, h with | [_, _, _], h => exact ⟨h.2.1, h.2.2.1⟩
        · intro c l h; match l, h with | [_, _, _], h => exact h.1
        · intro cfg c l h
          match l, h with
          | [a, b, c], h => rfl
      | [] =>
        refine big.prog ?_
        intro cfg c l h; match l, h with | [], _ => rfl
      | [_] =>
        refine big.prog ?_
        intro cfg c l h; match l, h with | [_], _ => rfl
      | _ :: _ :: _ :: _ :: _ =>
        refine big.prog ?_
        intro cfg c l h; match l, h with | _ :: _ :: _ :: _ :: _, _ => rfl
    exact (DetL.assert (b := fun l : List Nat => 2 ≤ l.length) key).prog fun cfg c l h => rfl

theorem variadic_tree {op : Cfg → Nat → Nat → M Mgr Nat} (hop : TreeOp md op) : ∀ (ts : List Tree),
    DetL md (fun c l => Reprs c l ts) (fun cfg l => variadic (op cfg) l) IsTree := by
  intro ts
  induction ts with
  | nil => exact (DetL.hang .bot).prog fun cfg c l h => by match l, h with | [], _ => rfl
  | cons t ts ih =>
    match ts, ih with
    | [], _ => exact (DetL.hang .bot).prog fun cfg c l h => by match l, h with | [_], _ => rfl
    | [u], _ =>
      refine ((hop t u).map (fun l : List Nat => (l.headD 0, (l.drop 1).headD 0)) (H' := fun c l => Reprs c l [t, u]) ?_).prog ?_
      · intro c l h; match l, h with | [_, _], h => exact ⟨h.1, h.2.1⟩
      · intro cfg c l h; match l, h with | [_, _], h => rfl
    | u :: v :: ts, ih =>
      refine (DetL.seq2 (H := fun c l => Reprs c l (t :: u :: v :: ts)) Reprs.pers hop.swap (ih.map (fun l : List Nat => l.drop 1) ?_)
        (detL_get (f := fun l => l.headD 0) t ?_)).prog ?_
      · intro c l h; match l, h with | _ :: _ :: _ :: _, h => exact h.2
      · intro c l h; match l, h with | _ :: _ :: _ :: _, h => exact h.1
      · intro cfg c l h; match l, h with | _ :: _ :: _ :: _, h => rfl

/-- `negate` of the `k`-th element. -/
theorem detL_neg_nth {ts : List Tree} (k : Nat) (hk : k < ts.length) :
    DetL md (fun c l => Reprs c l ts) (fun cfg l => negateOp cfg ((l.drop k).headD 0)) IsTree := by
  refine (detL_neg (ts[k])).map (fun l : List Nat => (l.drop k).headD 0) ?_
  intro c l h
  have hd := h.drop k
  rw [List.drop_eq_getElem_cons hk] at hd
  match l.drop k, hd with
  | _ :: _, hd => exact hd.1

theorem detL_take {m : Cfg → List Nat → M Mgr Nat} {ts : List Tree} (ih : DetL md (fun c l => Reprs c l (ts.take (ts.length / 2))) m IsTree) :
    DetL md (fun c l => Reprs c l ts) (fun cfg l => m cfg (l.take (l.length / 2))) IsTree := by
  refine (ih.map (fun l : List Nat => l.take (l.length / 2)) fun c l h => ?_)
  rw [h.length]; exact h.take _

theorem detL_drop {m : Cfg → List Nat → M Mgr Nat} {ts : List Tree} (ih : DetL md (fun c l => Reprs c l (ts.drop (ts.length / 2))) m IsTree) :
    DetL md (fun c l => Reprs c l ts) (fun cfg l => m cfg (l.drop (l.length / 2))) IsTree := by
  refine (ih.map (fun l : List Nat => l.drop (l.length / 2)) fun c l h => ?_)
  rw [h.length]; exact h.drop _

theorem allFalseRec_tree : ∀ (n : Nat) (ts : List Tree), DetL md (fun c l => Reprs c l ts) (fun cfg l => allFalseRec cfg n l) IsTree := by
  intro n
  induction n with
  | zero => exact fun ts => DetL.hang .bot
  | succ n ih =>
    intro ts
    have big := DetL.on2 (H := fun c l => Reprs c l ts) Reprs.pers treeOp_and (detL_take (ih _)) (detL_drop (ih _))
    have key : DetL md (fun c l => Reprs c l ts) (fun cfg l => match l with
        | [a] => negateOp cfg a
        | [a, b] => do
          let r ← LBDD.args2 cfg (negateOp cfg a) (negateOp cfg b)
          andOp cfg r.1 r.2
        | l => do
          let r ← LBDD.args2 cfg (allFalseRec cfg n (l.take (l.length / 2))) (allFalseRec cfg n (l.drop (l.length / 2)))
          andOp cfg r.1 r.2) IsTree := by
      match ts with
      | [t] => exact (detL_neg_nth (ts := [t]) 0 (by simp)).prog fun cfg c l h => by match l, h with | [_], h => rfl
      | [t, u] =>
        exact (DetL.on2 (H := fun c l => Reprs c l [t, u]) Reprs.pers treeOp_and (detL_neg_nth 0 (by simp)) (detL_neg_nth 1 (by simp))).prog
          fun cfg c l h => by match l, h with | [_, _], h => rfl
      | [] => exact big.prog fun cfg c l h => by match l, h with | [], _ => rfl
      | _ :: _ :: _ :: _ => exact big.prog fun cfg c l h => by match l, h with | _ :: _ :: _ :: _, _ => rfl
    exact (DetL.assert (b := fun l : List Nat => 0 < l.length) key).prog fun cfg c l h => rfl

theorem allFalse_tree (ts : List Tree) : DetL md (fun c l => Reprs c l ts) (fun cfg l => allFalse cfg l) IsTree :=
  (allFalseRec_tree (ts.length + 1) ts).prog fun cfg c l h => by unfold allFalse; rw [h.length]

theorem orNeg_tree (hm : OrMode md) {ts : List Tree} (j k : Nat) (hj : j < ts.length) (hk : k < ts.length) :
    DetL md (fun c l => Reprs c l ts) (fun cfg l => orNeg cfg ((l.drop j).headD 0) ((l.drop k).headD 0)) IsTree :=
  DetL.on2 (H := fun c l => Reprs c l ts) Reprs.pers (treeOp_or hm) (detL_neg_nth j hj) (detL_neg_nth k hk)

theorem atMostOneRec_tree (hm : OrMode md) : ∀ (n : Nat) (ts : List Tree), DetL md (fun c l => Reprs c l ts) (fun cfg l => atMostOneRec cfg n l) IsTree := by
  intro n
  induction n with
  | zero => exact fun ts => DetL.hang .bot
  | succ n ih =>
    intro ts
    have big : DetL md (fun c l => Reprs c l ts) (fun cfg l => do
      let a1 ← atMostOneRec cfg n (l.take (l.length / 2))
      let f1 ← allFalse cfg (l.take (l.length / 2))
      let a2 ← atMostOneRec cfg n (l.drop (l.length / 2))
      let f2 ← allFalse cfg (l.drop (l.length / 2))
      let r ← LBDD.args2 cfg (andOp cfg a1 f2) (andOp cfg a2 f1)
      orOp cfg r.1 r.2) IsTree := by
      have P1 : Pers (fun c l => Reprs c l ts) := Reprs.pers
      refine DetL.bind (k := fun cfg a1 l => allFalse cfg (l.take (l.length / 2)) >>= fun f1 => atMostOneRec cfg n (l.drop (l.length / 2)) >>= fun a2 =>
        allFalse cfg (l.drop (l.length / 2)) >>= fun f2 => LBDD.args2 cfg (andOp cfg a1 f2) (andOp cfg a2 f1) >>= fun r => orOp cfg r.1 r.2) P1
        (detL_take (ih _)) fun t1 => ?_
      have P2 : Pers (fun c (p : Nat × List Nat) => IsTree t1 p.1 c ∧ Reprs c p.2 ts) := fun c c' i hx h => ⟨Repr.ext hx h.1, h.2.ext hx⟩
      refine DetL.bind (k := fun cfg f1 (p : Nat × List Nat) => atMostOneRec cfg n (p.2.drop (p.2.length / 2)) >>= fun a2 =>
        allFalse cfg (p.2.drop (p.2.length / 2)) >>= fun f2 => LBDD.args2 cfg (andOp cfg p.1 f2) (andOp cfg a2 f1) >>= fun r => orOp cfg r.1 r.2) P2
        ((detL_take (allFalse_tree (ts.take (ts.length / 2)))).map _ fun c p h => h.2) fun t2 => ?_
      have P3 : Pers (fun c (p : Nat × Nat × List Nat) => IsTree t2 p.1 c ∧ IsTree t1 p.2.1 c ∧ Reprs c p.2.2 ts) :=
        fun c c' i hx h => ⟨Repr.ext hx h.1, Repr.ext hx h.2.1, h.2.2.ext hx⟩
      refine DetL.bind (k := fun cfg a2 (p : Nat × Nat × List Nat) => 
        allFalse cfg (p.2.2.drop (p.2.2.length / 2)) >>= fun f2 => LBDD.args2 cfg (andOp cfg p.2.1 f2) (andOp cfg a2 p.1) >>= fun r => orOp cfg r.1 r.2) P3
        ((detL_drop (ih (ts.drop (ts.length / 2)))).map _ fun c p h => h.2.2) fun t3 => ?_
      have P4 : Pers (fun c (p : Nat × Nat × Nat × List Nat) => IsTree t3 p.1 c ∧ IsTree t2 p.2.1 c ∧ IsTree t1 p.2.2.1 c ∧ Reprs c p.2.2.2 ts) :=
        fun c c' i hx h => ⟨Repr.ext hx h.1, Repr.ext hx h.2.1, Repr.ext hx h.2.2.1, h.2.2.2.ext hx⟩
      refine DetL.bind (k := fun cfg f2 (p : Nat × Nat × Nat × List Nat) => 
        LBDD.args2 cfg (andOp cfg p.2.2.1 f2) (andOp cfg p.1 p.2.1) >>= fun r => orOp cfg r.1 r.2) P4
        ((detL_drop (allFalse_tree (ts.drop (ts.length / 2)))).map _ fun c p h => h.2.2.2) fun t4 => ?_
      refine DetL.on2 (m1 := fun cfg (p : Nat × Nat × Nat × Nat × List Nat) => andOp cfg p.2.2.2.1 p.1)
        (m2 := fun cfg (p : Nat × Nat × Nat × Nat × List Nat) => andOp cfg p.2.1 p.2.2.1) ?_ (treeOp_or hm)
        ((treeOp_and t1 t4).map (fun p : Nat × Nat × Nat × Nat × List Nat => (p.2.2.2.1, p.1)) fun c p h => ⟨h.2.2.2.1, h.1⟩)
        ((treeOp_and t3 t2).map (fun p : Nat × Nat × Nat × Nat × List Nat => (p.2.1, p.2.2.1)) fun c p h => ⟨h.2.1, h.2.2.1⟩)
      exact fun c c' i hx h => ⟨Repr.ext hx h.1, Repr.ext hx h.2.1, Repr.ext hx h.2.2.1, Repr.ext hx h.2.2.2.1, h.2.2.2.2.ext hx⟩
    have key : DetL md (fun c l => Reprs c l ts) (fun cfg l => match l with
        | [_] => Pure.pure topId
        | [a, b] => orNeg cfg a b
        | [a, b, c] => do
          let r ← LBDD.args3 cfg (orNeg cfg a b) (orNeg cfg a c) (orNeg cfg b c)
          variadic (andOp cfg) [r.1, r.2.1, r.2.2]
        | l => do
          let a1 ← atMostOneRec cfg n (l.take (l.length / 2))
          let f1 ← allFalse cfg (l.take (l.length / 2))
          let a2 ← atMostOneRec cfg n (l.drop (l.length / 2))
          let f2 ← allFalse cfg (l.drop (l.length / 2))
          let r ← LBDD.args2 cfg (andOp cfg a1 f2) (andOp cfg a2 f1)
          orOp cfg r.1 r.2) IsTree := by
      match ts with
      | [t] => exact (DetL.pure (H := fun c l => Reprs c l [t]) (f := fun _ => topId) .top fun c l h => .top).prog fun cfg c l h => by match l, h with | [_], h => rfl
      | [t, u] => exact (orNeg_tree hm (ts := [t, u]) 0 1 (by simp) (by simp)).prog fun cfg c l h => by match l, h with | [_, _], h => rfl
      | [t, u, v] =>
        refine (DetL.bind (H := fun c l => Reprs c l [t, u, v]) (k := fun cfg (r : Nat × Nat × Nat) (_ : List Nat) => variadic (andOp cfg) [r.1, r.2.1, r.2.2]) Reprs.pers
          (DetL.args3 Reprs.pers (orNeg_tree hm 0 1 (by simp) (by simp)) (orNeg_tree hm 0 2 (by simp) (by simp)) (orNeg_tree hm 1 2 (by simp) (by simp)))
          fun o => ?_).prog fun cfg c l h => by match l, h with | [_, _, _], h => rfl
        exact (variadic_tree treeOp_and [o.1, o.2.1, o.2.2]).map (fun p : (Nat × Nat × Nat) × List Nat => [p.1.1, p.1.2.1, p.1.2.2])
          fun c p h => ⟨h.1.1, h.1.2.1, h.1.2.2, trivial⟩
      | [] => exact big.prog fun cfg c l h => by match l, h with | [], _ => rfl
      | _ :: _ :: _ :: _ :: _ => exact big.prog fun cfg c l h => by match l, h with | _ :: _ :: _ :: _ :: _, _ => rfl
    exact (DetL.assert (b := fun l : List Nat => 0 < l.length) key).prog fun cfg c l h => rfl

theorem atMostOne_tree (hm : OrMode md) (ts : List Tree) : DetL md (fun c l => Reprs c l ts) (fun cfg l => atMostOne cfg l) IsTree :=
  (atMostOneRec_tree hm (ts.length + 1) ts).prog fun cfg c l h => by unfold atMostOne; rw [h.length]

theorem andRange_tree (ts : List Tree) : DetL md (fun c l => Reprs c l ts) (fun cfg l => andRange cfg l) IsTree :=
  (rangeRec_tree treeOp_and (ts.length + 1) ts).prog fun cfg c l h => by unfold andRange; rw [h.length]
theorem orRange_tree (hm : OrMode md) (ts : List Tree) : DetL md (fun c l => Reprs c l ts) (fun cfg l => orRange cfg l) IsTree :=
  (rangeRec_tree (treeOp_or hm) (ts.length + 1) ts).prog fun cfg c l h => by unfold orRange; rw [h.length]
theorem xorRange_tree (hm : XorMode md) (ts : List Tree) : DetL md (fun c l => Reprs c l ts) (fun cfg l => xorRange cfg l) IsTree :=
  (rangeRec_tree (treeOp_xor hm) (ts.length + 1) ts).prog fun cfg c l h => by unfold xorRange; rw [h.length]

theorem simplex_tree (hm : OrMode md) (ts : List Tree) : DetL md (fun c l => Reprs c l ts) (fun cfg l => simplex cfg l) IsTree := by
  have big := DetL.seq2 (H := fun c l => Reprs c l ts) Reprs.pers treeOp_and (orRange_tree hm ts) (atMostOne_tree hm ts)
  have key : DetL md (fun c l => Reprs c l ts) (fun cfg l => match l with
      | [a] => Pure.pure a
      | l => do
        let alo ← orRange cfg l
        let amo ← atMostOne cfg l
        andOp cfg alo amo) IsTree := by
    match ts with
    | [t] =>
      exact (detL_get (ts := [t]) (f := fun l => l.headD 0) t fun c l h => by match l, h with | [_], h => exact h.1).prog
        fun cfg c l h => by match l, h with | [_], h => rfl
    | [] => exact big.prog fun cfg c l h => by match l, h with | [], _ => rfl
    | _ :: _ :: _ => exact big.prog fun cfg c l h => by match l, h with | _ :: _ :: _, _ => rfl
  exact (DetL.assert (b := fun l : List Nat => 0 < l.length) key).prog fun cfg c l h => rfl

theorem atLeastOne_tree (ts : List Tree) : DetL md (fun c l => Reprs c l ts) (fun cfg l => atLeastOne cfg l) IsTree :=
  DetL.bind (H := fun c l => Reprs c l ts) (k := fun cfg a (_ : List Nat) => negateOp cfg a) Reprs.pers (allFalse_tree ts) fun t =>
    (detL_neg t).map (fun p : Nat × List Nat => p.1) fun _ _ h => h.1

/-- A loop of deterministic steps. -/
theorem mapM'_tree {ι κ : Type} {H : (Nat → Cell) → ι → Prop} (hH : Pers H) {f : Cfg → ι → κ → M Mgr Nat} : ∀ (ks : List κ),
    (∀ k ∈ ks, DetL md H (fun cfg i => f cfg i k) IsTree) → DetL md H (fun cfg i => mapM' (f cfg i) ks) AreTrees
  | [], _ => DetL.pure [] fun _ _ _ => trivial
  | k :: ks, h => by
    refine DetL.bind (k := fun cfg r i => mapM' (f cfg i) ks >>= fun rs => Pure.pure (r :: rs)) hH (h k (by simp)) fun t => ?_
    refine DetL.bind (m := fun cfg (p : Nat × ι) => mapM' (f cfg p.2) ks) (k := fun cfg rs (p : Nat × ι) => Pure.pure (p.1 :: rs))
      (fun c c' i hx h => ⟨Repr.ext hx h.1, hH _ _ _ hx h.2⟩) ((mapM'_tree hH ks fun k hk => h k (by simp [hk])).map _ fun c p h => h.2) fun ts => ?_
    exact DetL.pure (t :: ts) fun c p h => ⟨h.2.1, h.1⟩

/-- The operands of a loop of binary operations. -/
def ReprPairs (c : Nat → Cell) : List (Nat × Nat) → List (Tree × Tree) → Prop
  | [], [] => True
  | p :: l, t :: ts => Pair t.1 t.2 c p ∧ ReprPairs c l ts
  | _, _ => False

theorem ReprPairs.ext {c c' : Nat → Cell} (hx : CellsExt c c') : ∀ {l : List (Nat × Nat)} {ts : List (Tree × Tree)}, ReprPairs c l ts → ReprPairs c' l ts
  | [], [], _ => trivial
  | _ :: _, _ :: _, h => ⟨Pair.pers _ _ _ hx h.1, ReprPairs.ext hx h.2⟩
  | [], _ :: _, h => h.elim
  | _ :: _, [], h => h.elim

theorem Reprs.zip {c : Nat → Cell} : ∀ {l m : List Nat} {ts us : List Tree}, Reprs c l ts → Reprs c m us → ReprPairs c (l.zip m) (ts.zip us)
  | [], _, [], _, _, _ => by simp [ReprPairs]
  | _ :: _, [], _ :: _, [], _, _ => trivial
  | _ :: _, _ :: _, _ :: _, _ :: _, h, h' => ⟨⟨h.1, h'.1⟩, Reprs.zip h.2 h'.2⟩
  | [], _, _ :: _, _, h, _ => h.elim
  | _ :: _, _, [], _, h, _ => h.elim
  | _ :: _, [], _ :: _, _ :: _, _, h => h.elim
  | _ :: _, _ :: _, _ :: _, [], _, h => h.elim

theorem Reprs.reverse {c : Nat → Cell} : ∀ {l : List Nat} {ts : List Tree}, Reprs c l ts → Reprs c l.reverse ts.reverse
  | [], [], _ => trivial
  | p :: l, t :: ts, h => by
    rw [List.reverse_cons, List.reverse_cons]
    exact (Reprs.reverse h.2).append ⟨h.1, trivial⟩
  | [], _ :: _, h => h.elim
  | _ :: _, [], h => h.elim

theorem mapPairs_tree {op : Cfg → Nat → Nat → M Mgr Nat} (hop : TreeOp md op) : ∀ (ts : List (Tree × Tree)),
    DetL md (fun c l => ReprPairs c l ts) (fun cfg l => mapM' (fun p : Nat × Nat => op cfg p.1 p.2) l) AreTrees
  | [] => (DetL.pure (f := fun _ => []) [] fun _ _ _ => trivial).prog fun cfg c l h => by match l, h with | [], _ => rfl
  | t :: ts => by
    have hP : Pers (fun c l => ReprPairs c l (t :: ts)) := fun _ _ _ hx h => h.ext hx
    have key : DetL md (fun c l => ReprPairs c l (t :: ts)) (fun cfg l => op cfg (l.headD (0, 0)).1 (l.headD (0, 0)).2 >>= fun r =>
        mapM' (fun p : Nat × Nat => op cfg p.1 p.2) l.tail >>= fun rs => Pure.pure (r :: rs)) AreTrees := by
      refine DetL.bind (k := fun cfg r (l : List (Nat × Nat)) => mapM' (fun p : Nat × Nat => op cfg p.1 p.2) l.tail >>= fun rs => Pure.pure (r :: rs)) hP
        ((hop t.1 t.2).map (fun l : List (Nat × Nat) => l.headD (0, 0)) fun c l h => by match l, h with | _ :: _, h => exact h.1) fun t0 => ?_
      refine DetL.bind (m := fun cfg (p : Nat × List (Nat × Nat)) => mapM' (fun p : Nat × Nat => op cfg p.1 p.2) p.2.tail)
        (k := fun cfg rs (p : Nat × List (Nat × Nat)) => Pure.pure (p.1 :: rs)) (fun c c' i hx h => ⟨Repr.ext hx h.1, h.2.ext hx⟩)
        ((mapPairs_tree hop ts).map (fun p : Nat × List (Nat × Nat) => p.2.tail) fun c p h => by
          obtain ⟨_, h⟩ := h
          match p.2, h with | _ :: _, h => exact h.2) fun us => ?_
      exact DetL.pure (t0 :: us) fun c p h => ⟨h.2.1, h.1⟩
    exact key.prog fun cfg c l h => by match l, h with | _ :: _, _ => rfl

/-- What the early returns of the counting templates must satisfy. -/
def LeafTree (md : Md) (leaf : Cfg → List Nat → Nat → Option (M Mgr Nat)) : Prop :=
  ∀ (ts : List Tree) (b : Nat), (∀ cfg c l, Reprs c l ts → leaf cfg l b = none) ∨
    ∃ m : Cfg → List Nat → M Mgr Nat, (∀ cfg c l, Reprs c l ts → leaf cfg l b = some (m cfg l)) ∧ DetL md (fun c l => Reprs c l ts) m IsTree

theorem countRec_tree (hm : OrMode md) {leaf : Cfg → List Nat → Nat → Option (M Mgr Nat)} (hl : LeafTree md leaf) : ∀ (n : Nat) (ts : List Tree) (b : Nat),
    DetL md (fun c l => Reprs c l ts) (fun cfg l => countRec cfg (leaf cfg) n l b) IsTree := by
  intro n
  induction n with
  | zero => exact fun ts b => DetL.hang .bot
  | succ n ih =>
    intro ts b
    rcases hl ts b with hn | ⟨m, hs, hd⟩
    · have big : DetL md (fun c l => Reprs c l ts) (fun cfg l => do
        let left ← mapM' (fun i => countRec cfg (leaf cfg) n (l.take (l.length / 2)) i) (List.range (b + 1))
        let right ← mapM' (fun i => countRec cfg (leaf cfg) n (l.drop (l.length / 2)) i) (List.range (b + 1))
        let combine ← mapM' (fun p : Nat × Nat => andOp cfg p.1 p.2) (left.zip right.reverse)
        orRange cfg combine) IsTree := by
        refine DetL.bind (k := fun cfg left (l : List Nat) => mapM' (fun i => countRec cfg (leaf cfg) n (l.drop (l.length / 2)) i) (List.range (b + 1)) >>= fun right =>
          mapM' (fun p : Nat × Nat => andOp cfg p.1 p.2) (left.zip right.reverse) >>= fun combine => orRange cfg combine) Reprs.pers
          (mapM'_tree Reprs.pers (List.range (b + 1)) fun i _ => detL_take (m := fun cfg l => countRec cfg (leaf cfg) n l i) (ih _ i)) fun t1 => ?_
        refine DetL.bind (m := fun cfg (p : List Nat × List Nat) => mapM' (fun i => countRec cfg (leaf cfg) n (p.2.drop (p.2.length / 2)) i) (List.range (b + 1)))
          (k := fun cfg right (p : List Nat × List Nat) =>
          mapM' (fun p : Nat × Nat => andOp cfg p.1 p.2) (p.1.zip right.reverse) >>= fun combine => orRange cfg combine)
          (fun c c' i hx h => ⟨Reprs.ext hx h.1, h.2.ext hx⟩)
          ((mapM'_tree (H := fun c l => Reprs c l ts) Reprs.pers (List.range (b + 1)) fun i _ =>
            detL_drop (m := fun cfg l => countRec cfg (leaf cfg) n l i) (ih _ i)).map (fun p : List Nat × List Nat => p.2) fun c p h => h.2) fun t2 => ?_
        refine DetL.bind (m := fun cfg (p : List Nat × List Nat × List Nat) => mapM' (fun p : Nat × Nat => andOp cfg p.1 p.2) (p.2.1.zip p.1.reverse))
          (k := fun cfg combine (_ : List Nat × List Nat × List Nat) => orRange cfg combine)
          (fun c c' i hx h => ⟨Reprs.ext hx h.1, Reprs.ext hx h.2.1, h.2.2.ext hx⟩)
          ((mapPairs_tree treeOp_and (t1.zip t2.reverse)).map (fun p : List Nat × List Nat × List Nat => p.2.1.zip p.1.reverse)
            fun c p h => Reprs.zip h.2.1 (Reprs.reverse h.1)) fun t3 => ?_
        exact (orRange_tree hm t3).map (fun p : List Nat × List Nat × List Nat × List Nat => p.1) fun c p h => h.1
      refine ((DetL.assert (b := fun l : List Nat => 0 < l.length) big).prog fun cfg c l h => ?_)
      rw [countRec, hn cfg c l h]
    · refine ((DetL.assert (b := fun l : List Nat => 0 < l.length) hd).prog fun cfg c l h => ?_)
      rw [countRec, hs cfg c l h]

theorem leaf_of {ts : List Tree} {leaf : Cfg → List Nat → Nat → Option (M Mgr Nat)} {b : Nat} (m : Cfg → List Nat → M Mgr Nat)
    (h : ∀ cfg c l, Reprs c l ts → leaf cfg l b = some (m cfg l)) (hd : DetL md (fun c l => Reprs c l ts) m IsTree) :
    (∀ cfg c l, Reprs c l ts → leaf cfg l b = none) ∨
    ∃ m : Cfg → List Nat → M Mgr Nat, (∀ cfg c l, Reprs c l ts → leaf cfg l b = some (m cfg l)) ∧ DetL md (fun c l => Reprs c l ts) m IsTree :=
  Or.inr ⟨m, h, hd⟩

theorem detL_head {ts : List Tree} (h1 : ts.length = 1) : DetL md (fun c l => Reprs c l ts) (fun _ l => Pure.pure (l.headD 0)) IsTree := by
  match ts, h1 with
  | [t], _ => exact detL_get t fun c l h => by match l, h with | [_], h => exact h.1
theorem detL_negHead {ts : List Tree} (h1 : ts.length = 1) : DetL md (fun c l => Reprs c l ts) (fun cfg l => negateOp cfg (l.headD 0)) IsTree :=
  (detL_neg_nth 0 (by omega)).prog fun _ _ _ _ => rfl
theorem detL_bot {ts : List Tree} : DetL md (fun c l => Reprs c l ts) (fun _ _ => Pure.pure botId) IsTree := detL_get .bot fun _ _ _ => .bot
theorem detL_top {ts : List Tree} : DetL md (fun c l => Reprs c l ts) (fun _ _ => Pure.pure topId) IsTree := detL_get .top fun _ _ _ => .top

theorem atLeastLeaf_tree : LeafTree md (fun _ => atLeastLeaf) := by
  intro ts b
  by_cases h1 : ts.length < b
  · exact leaf_of _ (fun cfg c l h => by unfold atLeastLeaf; rw [h.length, if_pos h1]) detL_bot
  by_cases h2 : ts.length = 1 ∧ b = 1
  · exact leaf_of _ (fun cfg c l h => by unfold atLeastLeaf; rw [h.length, if_neg h1, if_pos h2]) (detL_head h2.1)
  by_cases h3 : b = 0
  · exact leaf_of _ (fun cfg c l h => by unfold atLeastLeaf; rw [h.length, if_neg h1, if_neg h2, if_pos h3]) detL_top
  · exact Or.inl fun cfg c l h => by show atLeastLeaf l b = none; unfold atLeastLeaf; rw [h.length, if_neg h1, if_neg h2, if_neg h3]

theorem atMostLeaf_tree : LeafTree md atMostLeaf := by
  intro ts b
  by_cases h1 : ts.length < b
  · exact leaf_of _ (fun cfg c l h => by unfold atMostLeaf; rw [h.length, if_pos h1]) detL_bot
  by_cases h2 : ts.length = 1 ∧ b = 1
  · exact leaf_of _ (fun cfg c l h => by unfold atMostLeaf; rw [h.length, if_neg h1, if_pos h2]) detL_top
  by_cases h3 : ts.length = 1 ∧ b = 0
  · exact leaf_of _ (fun cfg c l h => by unfold atMostLeaf; rw [h.length, if_neg h1, if_neg h2, if_pos h3]) (detL_negHead h3.1)
  by_cases h4 : b = 0
  · exact leaf_of _ (fun cfg c l h => by unfold atMostLeaf; rw [h.length, if_neg h1, if_neg h2, if_neg h3, if_pos h4]) (allFalse_tree ts)
  · exact Or.inl fun cfg c l h => by unfold atMostLeaf; rw [h.length, if_neg h1, if_neg h2, if_neg h3, if_neg h4]

theorem cardLeaf_tree : LeafTree md cardLeaf := by
  intro ts b
  by_cases h1 : ts.length < b
  · exact leaf_of _ (fun cfg c l h => by unfold cardLeaf; rw [h.length, if_pos h1]) detL_bot
  by_cases h2 : ts.length = 1 ∧ b = 1
  · exact leaf_of _ (fun cfg c l h => by unfold cardLeaf; rw [h.length, if_neg h1, if_pos h2]) (detL_head h2.1)
  by_cases h3 : ts.length = 1 ∧ b = 0
  · exact leaf_of _ (fun cfg c l h => by unfold cardLeaf; rw [h.length, if_neg h1, if_neg h2, if_pos h3]) (detL_negHead h3.1)
  by_cases h4 : b = 0
  · exact leaf_of _ (fun cfg c l h => by unfold cardLeaf; rw [h.length, if_neg h1, if_neg h2, if_neg h3, if_pos h4]) (allFalse_tree ts)
  · exact Or.inl fun cfg c l h => by unfold cardLeaf; rw [h.length, if_neg h1, if_neg h2, if_neg h3, if_neg h4]

theorem atLeast_tree (hm : OrMode md) (ts : List Tree) (b : Nat) : DetL md (fun c l => Reprs c l ts) (fun cfg l => atLeast cfg l b) IsTree :=
  (countRec_tree hm atLeastLeaf_tree (ts.length + 1) ts b).prog fun cfg c l h => by unfold atLeast; rw [h.length]
theorem atMost_tree (hm : OrMode md) (ts : List Tree) (b : Nat) : DetL md (fun c l => Reprs c l ts) (fun cfg l => atMost cfg l b) IsTree :=
  (countRec_tree hm atMostLeaf_tree (ts.length + 1) ts b).prog fun cfg c l h => by unfold atMost; rw [h.length]
theorem cardinality_tree (hm : OrMode md) (ts : List Tree) (b : Nat) : DetL md (fun c l => Reprs c l ts) (fun cfg l => cardinality cfg l b) IsTree :=
  (countRec_tree hm cardLeaf_tree (ts.length + 1) ts b).prog fun cfg c l h => by unfold cardinality; rw [h.length]
end
end LBDD
