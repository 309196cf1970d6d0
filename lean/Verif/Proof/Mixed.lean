import Verif.Proof.Build
/-! Disjunctions of functions that exclude each other: right even where memo entries of `or_rec` and `xor_rec` are mixed up. -/
namespace LBDD

/-- The shared tag stands for disjunction wherever the operands are not both true. -/
def SemMode (md : Md) : Prop := SemIte md

theorem SemIte.disj {md : Md} (h : SemIte md) {a b c : Bool} (hr : md.sem a b c) (hn : (a && b) = false) : c = (a || b) := by
  cases a with
  | false => rw [h.exact0 _ _ hr]; simp
  | true =>
    cases b with
    | false => rw [h.exact1 _ hr]; rfl
    | true => cases hn

theorem det_or_disj (F G : BFun) (hd : ∀ x, (F x && G x) = false) :
    DetE SemMode (Rep2 F G) (fun cfg p => orOp cfg p.1 p.2) (fun r c => Rep c r (fun x => F x || G x)) := by
  refine ⟨SubsOf (fun x => F x || G x), ?_⟩
  rintro cfg md refs s ⟨a, b⟩ hP hi ⟨⟨ta, ha, ea⟩, ⟨tb, hb, eb⟩⟩
  refine (orOp_ok (SemIte.toSemOr hP) hi ha hb).mono ?_
  rintro r s' x hi' ⟨tr, h1, h2, _, h4⟩
  exact outc_of hi x hi' h1 (fun x => by
    have := hP.disj (h2 x) (by rw [ea, eb]; exact hd x)
    rw [this, ea, eb]) h4

/-- At most one of the functions is true at a time. -/
def Exclusive (Fs : List BFun) : Prop := ∀ x, cnt (vals Fs x) ≤ 1

theorem Exclusive.split {Fs : List BFun} (h : Exclusive Fs) (n : Nat) :
    Exclusive (Fs.take n) ∧ Exclusive (Fs.drop n) ∧ ∀ x, ((vals (Fs.take n) x).any id && (vals (Fs.drop n) x).any id) = false := by
  have h' : ∀ x, cnt (vals (Fs.take n) x) + cnt (vals (Fs.drop n) x) ≤ 1 := fun x => by
    rw [← cnt_append, vals_split]; exact h x
  refine ⟨fun x => by have := h' x; omega, fun x => by have := h' x; omega, fun x => ?_⟩
  have := h' x
  rw [any_id_iff, any_id_iff, Bool.eq_false_iff]
  intro hc
  simp at hc
  omega

theorem rangeRec_disj : ∀ (n : Nat) (Fs : List BFun), 2 ≤ Fs.length → Fs.length ≤ n → Exclusive Fs →
    DetE SemMode (fun c l => Reps c l Fs) (fun cfg l => rangeRec cfg (orOp cfg) n l) (fun r c => Rep c r (fun x => (vals Fs x).any id)) := by
  intro n
  induction n with
  | zero => intro Fs h2 hn; omega
  | succ n ih =>
    intro Fs h2 hn hE
    have hlen : ∀ (c : Nat → Cell) (l : List Nat), Reps c l Fs → decide (2 ≤ l.length) = true := by
      intro c l hl; rw [hl.length]; simpa using h2
    match Fs, h2, hn, hlen, hE with
    | [F1, F2], _, _, hlen, hE =>
      have hd : ∀ x, (F1 x && F2 x) = false := fun x => by
        have := (hE.split 1).2.2 x
        simpa [vals] using this
      refine DetE.prog (m := fun cfg l => M.assert cfg.ndebug (decide (2 ≤ l.length)) >>= fun _ => orOp cfg (l.getD 0 0) (l.getD 1 0))
        (DetE.assert (((det_or_disj F1 F2 hd).op (fun l : List Nat => l.getD 0 0) (fun l => l.getD 1 0)
          (fun c l hl => hl.get 0 F1 rfl) (fun c l hl => hl.get 1 F2 rfl)).fn ?_) hlen) ?_
      · intro x
        simp [vals]
      · intro cfg c l hl
        match l, hl.length with
        | [a, b], _ => rfl
    | [F1, F2, F3], _, _, hlen, hE =>
      have hd1 : ∀ x, (F2 x && F3 x) = false := fun x => by
        have := ((hE.split 1).2.1.split 1).2.2 x
        simpa [vals] using this
      have hd2 : ∀ x, (F1 x && (F2 x || F3 x)) = false := fun x => by
        have := (hE.split 1).2.2 x
        simpa [vals] using this
      have hin : DetE SemMode (fun c l => Reps c l [F1, F2, F3]) (fun cfg (l : List Nat) => orOp cfg (l.getD 1 0) (l.getD 2 0))
          (fun r c => Rep c r (fun x => F2 x || F3 x)) :=
        (det_or_disj F2 F3 hd1).op (fun l : List Nat => l.getD 1 0) (fun l => l.getD 2 0) (fun c l hl => hl.get 1 F2 rfl) (fun c l hl => hl.get 2 F3 rfl)
      refine DetE.prog (m := fun cfg l => M.assert cfg.ndebug (decide (2 ≤ l.length)) >>= fun _ =>
          orOp cfg (l.getD 1 0) (l.getD 2 0) >>= fun r => orOp cfg (l.getD 0 0) r)
        (DetE.assert ((DetE.bind (k := fun cfg r (l : List Nat) => orOp cfg (l.getD 0 0) r) Reps.pers hin
          ((det_or_disj F1 _ hd2).op (fun p : Nat × List Nat => p.2.getD 0 0) (fun p => p.1)
            (fun c p hp => hp.2.get 0 F1 rfl) (fun c p hp => hp.1))).fn ?_) hlen) ?_
      · intro x
        simp [vals]
      · intro cfg c l hl
        match l, hl.length with
        | [a, b, d], _ => rfl
    | F1 :: F2 :: F3 :: F4 :: Fs, _, hn, hlen, hE =>
      generalize hFs : F1 :: F2 :: F3 :: F4 :: Fs = Gs at *
      have h4 : 4 ≤ Gs.length := by rw [← hFs]; simp
      obtain ⟨e1, e2, e3⟩ := hE.split (Gs.length / 2)
      have hA := ih (Gs.take (Gs.length / 2)) (by rw [List.length_take]; omega) (by rw [List.length_take]; omega) e1
      have hB := ih (Gs.drop (Gs.length / 2)) (by rw [List.length_drop]; omega) (by rw [List.length_drop]; omega) e2
      have hA' : DetE SemMode (fun c l => Reps c l Gs) (fun cfg l => rangeRec cfg (orOp cfg) n (l.take (l.length / 2)))
          (fun r c => Rep c r (fun x => (vals (Gs.take (Gs.length / 2)) x).any id)) :=
        hA.map (fun l : List Nat => l.take (l.length / 2)) (fun c l hl => by rw [hl.length]; exact hl.take _) (fun _ _ h => h)
      have hB' : DetE SemMode (fun c l => Reps c l Gs) (fun cfg l => rangeRec cfg (orOp cfg) n (l.drop (l.length / 2)))
          (fun r c => Rep c r (fun x => (vals (Gs.drop (Gs.length / 2)) x).any id)) :=
        hB.map (fun l : List Nat => l.drop (l.length / 2)) (fun c l hl => by rw [hl.length]; exact hl.drop _) (fun _ _ h => h)
      refine DetE.prog (DetE.assert (b := fun l => decide (2 ≤ l.length)) ((DetE.seq2 Reps.pers hA' hB' (det_or_disj _ _ e3)).fn ?_) hlen) ?_
      · intro x
        rw [← List.any_append, vals_split]
      · intro cfg c l hl
        have hl4 : 4 ≤ l.length := by rw [hl.length]; exact h4
        match l, hl4 with
        | a :: b :: d :: e :: l, _ => rfl

theorem orOk_disj {Fs : List BFun} (h2 : 2 ≤ Fs.length) (hE : Exclusive Fs) : OrOk SemMode Fs := by
  refine DetE.prog (rangeRec_disj (Fs.length + 1) Fs h2 (by omega) hE) ?_
  intro cfg c l hl
  show rangeRec cfg (orOp cfg) (l.length + 1) l = _
  rw [hl.length]

theorem cnt_eq_le_one : ∀ (l : List Nat) (k : Nat) (P : Nat → Bool), l.Nodup → cnt (l.map fun i => decide (k = i) && P i) ≤ 1
  | [], k, P, _ => by simp [cnt]
  | i :: l, k, P, h => by
    rw [List.nodup_cons] at h
    rw [List.map_cons, cnt_cons]
    have ih := cnt_eq_le_one l k P h.2
    by_cases e : k = i
    · have : cnt (l.map fun j => decide (k = j) && P j) = 0 := by
        unfold cnt
        rw [List.countP_eq_zero]
        intro b hb
        obtain ⟨j, hj, rfl⟩ := List.mem_map.1 hb
        have : k ≠ j := fun h' => h.1 (by rw [← e, h']; exact hj)
        simp [this]
      rw [this]
      split <;> omega
    · simp [e]; exact ih

theorem card_exclusive (b : Nat) (k1 k2 : Assign → Nat) : Exclusive (List.zipWith (fun F G x => F x && G x)
    ((List.range (b + 1)).map (fun i x => decide (k1 x = i))) ((List.range (b + 1)).map (fun i x => decide (k2 x = i))).reverse) := by
  intro x
  have e : vals (List.zipWith (fun F G x => F x && G x) ((List.range (b + 1)).map (fun i x => decide (k1 x = i)))
      ((List.range (b + 1)).map (fun i x => decide (k2 x = i))).reverse) x = (List.range (b + 1)).map (fun i => decide (k1 x = i) && decide (k2 x = b - i)) := by
    apply List.ext_getElem
    · simp [vals]
    · intro i h1 h2
      simp [vals] at h1 ⊢
  rw [e]
  exact cnt_eq_le_one _ _ _ List.nodup_range

theorem cardinality_disj (Fs : List BFun) (b : Nat) (h : 1 ≤ Fs.length) :
    DetE SemMode (fun c l => Reps c l Fs) (fun cfg l => cardinality cfg l b) (fun r c => Rep c r (fun x => decide (cnt (vals Fs x) = b))) :=
  count_det (card_sem fun b k1 k2 h => orOk_disj (by simp; omega) (card_exclusive b k1 k2)) Fs b h

/-! ### one assignment at a time -/

/-- The BDD at `p` has the value `b` under `y`. -/
def EvAt (y : Assign) (c : Nat → Cell) (p : Nat) (b : Bool) : Prop := ∃ t, Repr c p t ∧ t.eval y = b

/-- The BDDs `l` have the values `bs` under `y`. -/
def EvAts (y : Assign) (c : Nat → Cell) : List Nat → List Bool → Prop
  | [], [] => True
  | p :: l, b :: bs => EvAt y c p b ∧ EvAts y c l bs
  | _, _ => False

theorem EvAt.ext {y : Assign} {c c' : Nat → Cell} (h : CellsExt c c') {p : Nat} {b : Bool} (r : EvAt y c p b) : EvAt y c' p b := by
  obtain ⟨t, h1, h2⟩ := r; exact ⟨t, h1.ext h, h2⟩

theorem EvAts.ext {y : Assign} {c c' : Nat → Cell} (h : CellsExt c c') : ∀ {l : List Nat} {bs : List Bool}, EvAts y c l bs → EvAts y c' l bs
  | [], [], _ => trivial
  | _ :: _, _ :: _, r => ⟨r.1.ext h, EvAts.ext h r.2⟩
  | [], _ :: _, r => r.elim
  | _ :: _, [], r => r.elim

theorem EvAts.length {y : Assign} {c : Nat → Cell} : ∀ {l : List Nat} {bs : List Bool}, EvAts y c l bs → l.length = bs.length
  | [], [], _ => rfl
  | _ :: _, _ :: _, r => by simp [EvAts.length r.2]
  | [], _ :: _, r => r.elim
  | _ :: _, [], r => r.elim

theorem EvAts.take {y : Assign} {c : Nat → Cell} : ∀ {l : List Nat} {bs : List Bool} (n : Nat), EvAts y c l bs → EvAts y c (l.take n) (bs.take n)
  | [], [], _, _ => by simp [EvAts]
  | _ :: _, _ :: _, 0, _ => trivial
  | _ :: _, _ :: _, n + 1, r => ⟨r.1, EvAts.take n r.2⟩
  | [], _ :: _, _, r => r.elim
  | _ :: _, [], _, r => r.elim

theorem EvAts.drop {y : Assign} {c : Nat → Cell} : ∀ {l : List Nat} {bs : List Bool} (n : Nat), EvAts y c l bs → EvAts y c (l.drop n) (bs.drop n)
  | [], [], _, _ => by simp [EvAts]
  | _ :: _, _ :: _, 0, r => r
  | _ :: _, _ :: _, n + 1, r => EvAts.drop n r.2
  | [], _ :: _, _, r => r.elim
  | _ :: _, [], _, r => r.elim

section
variable {cfg : Cfg} {md : Md} {refs : Nat → Nat} {y : Assign}

/-- A binary operation that is the disjunction wherever its operands are not both true. -/
def OpAt (cfg : Cfg) (md : Md) (refs : Nat → Nat) (y : Assign) (op : Nat → Nat → M Mgr Nat) : Prop :=
  ∀ s a b va vb, Inv cfg md refs s → EvAt y s.cells a va → EvAt y s.cells b vb → (va && vb) = false →
    Spec cfg md refs (op a b) s (fun r s' => EvAt y s'.cells r (va || vb))

theorem orOp_at (hs : SemIte md) : OpAt cfg md refs y (orOp cfg) := by
  rintro s a b va vb hi ⟨ta, ha, rfl⟩ ⟨tb, hb, rfl⟩ hd
  refine (orOp_ok hs.toSemOr hi ha hb).mono ?_
  rintro r s' _ _ ⟨tr, h, he, _⟩
  exact ⟨tr, h, hs.disj (he y) hd⟩

theorem xorOp_at (hs : SemIte md) (hx : SemXor md) (hno : ¬ md.ordered) : OpAt cfg md refs y (xorOp cfg) := by
  rintro s a b va vb hi ⟨ta, ha, rfl⟩ ⟨tb, hb, rfl⟩ hd
  refine (xorOp_ok hx hno hi ha hb).mono ?_
  rintro r s' _ _ ⟨tr, h, he, _⟩
  exact ⟨tr, h, hs.disj (he y) hd⟩

theorem cnt_split {bs : List Bool} (n : Nat) (h : cnt bs ≤ 1) :
    cnt (bs.take n) ≤ 1 ∧ cnt (bs.drop n) ≤ 1 ∧ ((bs.take n).any id && (bs.drop n).any id) = false ∧ ((bs.take n).any id || (bs.drop n).any id) = bs.any id := by
  have h' : cnt (bs.take n) + cnt (bs.drop n) ≤ 1 := by rw [← cnt_append, List.take_append_drop]; exact h
  refine ⟨by omega, by omega, ?_, by rw [← List.any_append, List.take_append_drop]⟩
  rw [any_id_iff, any_id_iff, Bool.eq_false_iff]
  intro hc
  simp at hc
  omega

theorem rangeRec_at {op : Nat → Nat → M Mgr Nat} (ho : OpAt cfg md refs y op) : ∀ (n : Nat) (l : List Nat) (bs : List Bool) (s : Mgr),
    2 ≤ l.length → l.length ≤ n → Inv cfg md refs s → EvAts y s.cells l bs → cnt bs ≤ 1 →
    Spec cfg md refs (rangeRec cfg op n l) s (fun r s' => EvAt y s'.cells r (bs.any id)) := by
  intro n
  induction n with
  | zero => intro l bs s h1 h2; omega
  | succ n ih =>
    intro l bs s h1 h2 hi hl hc
    unfold rangeRec
    refine Spec.assert_bind (by simpa using h1) ?_
    have hlen := hl.length
    match l, bs, h1, h2, hl, hc, hlen with
    | [a, b], [va, vb], _, _, hl, hc, _ =>
      have h3 := (cnt_split 1 hc).2.2
      simp at h3
      have := ho s a b va vb hi hl.1 hl.2.1 (by simpa using h3)
      simpa using this
    | [a, b, c], [va, vb, vc], _, _, hl, hc, _ =>
      have h3 := (cnt_split 1 hc)
      have h4 := (cnt_split 1 h3.2.1).2.2
      have h3 := h3.2.2
      simp at h3 h4
      refine Spec.bind (ho s b c vb vc hi hl.2.1 hl.2.2.1 (by simpa using h4)) ?_
      intro r s1 x1 hi1 hr
      have := ho s1 a r va (vb || vc) hi1 (hl.1.ext x1.cells) hr (by cases va <;> simp_all)
      simpa using this
    | a :: b :: c :: d :: l, bs, h1, h2, hl, hc, _ =>
      generalize hk : (a :: b :: c :: d :: l).length / 2 = k
      obtain ⟨c1, c2, c3, c4⟩ := cnt_split k hc
      simp only [List.length_cons] at h1 h2 hk
      show Spec cfg md refs (rangeRec cfg op n (List.take ((a :: b :: c :: d :: l).length / 2) _) >>= _) s _
      rw [show (a :: b :: c :: d :: l).length / 2 = k by simpa using hk]
      refine Spec.bind (ih _ _ s (by simp only [List.length_take, List.length_cons]; omega)
        (by simp only [List.length_take, List.length_cons]; omega) hi (hl.take k) c1) ?_
      intro r s1 x1 hi1 hr
      refine Spec.bind (ih _ _ s1 (by simp only [List.length_drop, List.length_cons]; omega)
        (by simp only [List.length_drop, List.length_cons]; omega) hi1 ((hl.drop k).ext x1.cells) c2) ?_
      intro r' s2 x2 hi2 hr'
      have := ho s2 r r' _ _ hi2 (hr.ext x2.cells) hr' c3
      rw [c4] at this
      exact this

theorem variadic_at {op : Nat → Nat → M Mgr Nat} (ho : OpAt cfg md refs y op) : ∀ (l : List Nat) (bs : List Bool) (s : Mgr),
    2 ≤ l.length → Inv cfg md refs s → EvAts y s.cells l bs → cnt bs ≤ 1 →
    Spec cfg md refs (variadic op l) s (fun r s' => EvAt y s'.cells r (bs.any id))
  | [a, b], [va, vb], s, _, hi, hl, hc => by
    have h3 := (cnt_split 1 hc).2.2
    simp at h3
    have := ho s a b va vb hi hl.1 hl.2.1 (by simpa using h3)
    show Spec cfg md refs (op a b) s _
    simpa using this
  | a :: b :: c :: l, va :: bs, s, _, hi, hl, hc => by
    obtain ⟨c1, c2, c3, c4⟩ := cnt_split 1 hc
    show Spec cfg md refs (variadic op (b :: c :: l) >>= fun r => op a r) s _
    refine Spec.bind (variadic_at ho (b :: c :: l) bs s (by simp) hi hl.2 c2) ?_
    intro r s1 x1 hi1 hr
    have := ho s1 a r va _ hi1 (hl.1.ext x1.cells) hr (by simpa using c3)
    simpa using this
  | [], _, _, h, _, _, _ => by simp at h
  | [_], _, _, h, _, _, _ => by simp at h
  | _ :: _ :: _, [], _, _, _, hl, _ => hl.elim
  | [_, _], [_], _, _, _, hl, _ => hl.2.elim
  | [_, _], _ :: _ :: _ :: _, _, _, _, hl, _ => hl.2.2.elim
end

end LBDD
