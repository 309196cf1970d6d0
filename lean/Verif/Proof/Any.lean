import Verif.Proof.Limited
import Verif.Spec.Api
/-! Every composite operation keeps the invariant and returns a BDD, whatever the discipline. -/
namespace LBDD

/-- `p` is a BDD. -/
def Any (c : Nat → Cell) (p : Nat) : Prop := ∃ t, Repr c p t
def Anys (c : Nat → Cell) (l : List Nat) : Prop := ∀ p ∈ l, Any c p

theorem Any.ext {c c' : Nat → Cell} (h : CellsExt c c') {p : Nat} (r : Any c p) : Any c' p := by
  obtain ⟨t, a⟩ := r; exact ⟨t, a.ext h⟩
theorem Anys.ext {c c' : Nat → Cell} (h : CellsExt c c') {l : List Nat} (r : Anys c l) : Anys c' l :=
  fun p hp => (r p hp).ext h
theorem Anys.take {c : Nat → Cell} {l : List Nat} (r : Anys c l) (n : Nat) : Anys c (l.take n) :=
  fun p hp => r p (List.mem_of_mem_take hp)
theorem Anys.drop {c : Nat → Cell} {l : List Nat} (r : Anys c l) (n : Nat) : Anys c (l.drop n) :=
  fun p hp => r p (List.mem_of_mem_drop hp)
theorem Any.bot {c : Nat → Cell} : Any c botId := ⟨_, .bot⟩
theorem Any.top {c : Nat → Cell} : Any c topId := ⟨_, .top⟩
theorem Rep.any {c : Nat → Cell} {p : Nat} {F : BFun} (h : Rep c p F) : Any c p := by
  obtain ⟨t, a, _⟩ := h; exact ⟨t, a⟩

section
variable {cfg : Cfg} {md : Md} {refs : Nat → Nat}

/-- A binary operation that maps BDDs to a BDD and keeps the invariant. -/
def OpOk (cfg : Cfg) (md : Md) (refs : Nat → Nat) (op : Nat → Nat → M Mgr Nat) : Prop :=
  ∀ s a b, Inv cfg md refs s → Any s.cells a → Any s.cells b → Spec cfg md refs (op a b) s (fun r s' => Any s'.cells r)

theorem andOp_any : OpOk cfg md refs (andOp cfg) := by
  rintro s a b hi ⟨ta, ha⟩ ⟨tb, hb⟩
  refine (andOp_ok hi ha hb).mono ?_
  rintro r s' _ _ ⟨tr, h, _⟩; exact ⟨tr, h⟩

theorem orOp_any (hs : SemOr md) : OpOk cfg md refs (orOp cfg) := by
  rintro s a b hi ⟨ta, ha⟩ ⟨tb, hb⟩
  refine (orOp_ok hs hi ha hb).mono ?_
  rintro r s' _ _ ⟨tr, h, _⟩; exact ⟨tr, h⟩

theorem xorOp_any (hs : SemXor md) (hno : ¬ md.ordered) : OpOk cfg md refs (xorOp cfg) := by
  rintro s a b hi ⟨ta, ha⟩ ⟨tb, hb⟩
  refine (xorOp_ok hs hno hi ha hb).mono ?_
  rintro r s' _ _ ⟨tr, h, _⟩; exact ⟨tr, h⟩

theorem negateOp_any {s : Mgr} {a : Nat} (hi : Inv cfg md refs s) (ha : Any s.cells a) :
    Spec cfg md refs (negateOp cfg a) s (fun r s' => Any s'.cells r) := by
  obtain ⟨t, ha⟩ := ha
  refine (negateOp_tree hi ha).mono ?_
  rintro r s' _ _ ⟨h, _⟩; exact ⟨_, h⟩

theorem args2_any {s : Mgr} {m1 m2 : M Mgr Nat} (hi : Inv cfg md refs s)
    (h1 : ∀ s', Inv cfg md refs s' → Ext s s' → Spec cfg md refs m1 s' (fun r s' => Any s'.cells r))
    (h2 : ∀ s', Inv cfg md refs s' → Ext s s' → Spec cfg md refs m2 s' (fun r s' => Any s'.cells r)) :
    Spec cfg md refs (args2 cfg m1 m2) s (fun r s' => Any s'.cells r.1 ∧ Any s'.cells r.2) := by
  unfold args2
  split
  · refine Spec.bind (h2 s hi (.refl _)) ?_
    intro b s1 x1 hi1 hb
    refine Spec.bind (h1 s1 hi1 x1) ?_
    intro a s2 x2 hi2 ha
    exact Spec.pure hi2 ⟨ha, hb.ext x2.cells⟩
  · refine Spec.bind (h1 s hi (.refl _)) ?_
    intro b s1 x1 hi1 hb
    refine Spec.bind (h2 s1 hi1 x1) ?_
    intro a s2 x2 hi2 ha
    exact Spec.pure hi2 ⟨hb.ext x2.cells, ha⟩

theorem args3_any {s : Mgr} {m1 m2 m3 : M Mgr Nat} (hi : Inv cfg md refs s)
    (h1 : ∀ s', Inv cfg md refs s' → Ext s s' → Spec cfg md refs m1 s' (fun r s' => Any s'.cells r))
    (h2 : ∀ s', Inv cfg md refs s' → Ext s s' → Spec cfg md refs m2 s' (fun r s' => Any s'.cells r))
    (h3 : ∀ s', Inv cfg md refs s' → Ext s s' → Spec cfg md refs m3 s' (fun r s' => Any s'.cells r)) :
    Spec cfg md refs (args3 cfg m1 m2 m3) s (fun r s' => Any s'.cells r.1 ∧ Any s'.cells r.2.1 ∧ Any s'.cells r.2.2) := by
  unfold args3
  split
  · refine Spec.bind (h3 s hi (.refl _)) ?_
    intro a s1 x1 hi1 ha
    refine Spec.bind (h2 s1 hi1 x1) ?_
    intro b s2 x2 hi2 hb
    refine Spec.bind (h1 s2 hi2 (x1.trans x2)) ?_
    intro c s3 x3 hi3 hc
    exact Spec.pure hi3 ⟨hc, hb.ext x3.cells, (ha.ext x2.cells).ext x3.cells⟩
  · refine Spec.bind (h1 s hi (.refl _)) ?_
    intro a s1 x1 hi1 ha
    refine Spec.bind (h2 s1 hi1 x1) ?_
    intro b s2 x2 hi2 hb
    refine Spec.bind (h3 s2 hi2 (x1.trans x2)) ?_
    intro c s3 x3 hi3 hc
    exact Spec.pure hi3 ⟨(ha.ext x2.cells).ext x3.cells, hb.ext x3.cells, hc⟩

theorem rangeRec_any {op : Nat → Nat → M Mgr Nat} (ho : OpOk cfg md refs op) : ∀ (n : Nat) (l : List Nat) (s : Mgr),
    2 ≤ l.length → l.length ≤ n → Inv cfg md refs s → Anys s.cells l →
    Spec cfg md refs (rangeRec cfg op n l) s (fun r s' => Any s'.cells r) := by
  intro n
  induction n with
  | zero => intro l s h1 h2; omega
  | succ n ih =>
    intro l s h1 h2 hi hl
    unfold rangeRec
    refine Spec.assert_bind (by simpa using h1) ?_
    match l, h1, h2, hl with
    | [a, b], _, _, hl => exact ho s a b hi (hl a (by simp)) (hl b (by simp))
    | [a, b, c], _, _, hl =>
      refine Spec.bind (ho s b c hi (hl b (by simp)) (hl c (by simp))) ?_
      intro r s1 x1 hi1 hr
      exact ho s1 a r hi1 ((hl a (by simp)).ext x1.cells) hr
    | a :: b :: c :: d :: l, h1, h2, hl =>
      simp only [List.length_cons] at h1 h2
      refine Spec.bind (ih _ s (by simp only [List.length_take, List.length_cons]; omega)
        (by simp only [List.length_take, List.length_cons]; omega) hi (hl.take _)) ?_
      intro r s1 x1 hi1 hr
      refine Spec.bind (ih _ s1 (by simp only [List.length_drop, List.length_cons]; omega)
        (by simp only [List.length_drop, List.length_cons]; omega) hi1 ((hl.drop _).ext x1.cells)) ?_
      intro r' s2 x2 hi2 hr'
      exact ho s2 r r' hi2 (hr.ext x2.cells) hr'

theorem variadic_any {op : Nat → Nat → M Mgr Nat} (ho : OpOk cfg md refs op) : ∀ (l : List Nat) (s : Mgr),
    2 ≤ l.length → Inv cfg md refs s → Anys s.cells l →
    Spec cfg md refs (variadic op l) s (fun r s' => Any s'.cells r) := by
  intro l
  induction l with
  | nil => intro s h; simp at h
  | cons a l ih =>
    intro s h hi hl
    match l, h, hl, ih with
    | [b], _, hl, _ => exact ho s a b hi (hl a (by simp)) (hl b (by simp))
    | b :: c :: l, _, hl, ih =>
      refine Spec.bind (ih s (by simp) hi (fun p hp => hl p (List.mem_cons_of_mem _ hp))) ?_
      intro r s1 x1 hi1 hr
      exact ho s1 a r hi1 ((hl a (by simp)).ext x1.cells) hr

theorem allFalseRec_any : ∀ (n : Nat) (l : List Nat) (s : Mgr),
    1 ≤ l.length → l.length ≤ n → Inv cfg md refs s → Anys s.cells l →
    Spec cfg md refs (allFalseRec cfg n l) s (fun r s' => Any s'.cells r) := by
  intro n
  induction n with
  | zero => intro l s h1 h2; omega
  | succ n ih =>
    intro l s h1 h2 hi hl
    unfold allFalseRec
    refine Spec.assert_bind (by simp; omega) ?_
    match l, h1, h2, hl with
    | [a], _, _, hl => exact negateOp_any hi (hl a (by simp))
    | [a, b], _, _, hl =>
      refine Spec.bind (args2_any hi (fun s' hi' x' => negateOp_any hi' ((hl a (by simp)).ext x'.cells))
        (fun s' hi' x' => negateOp_any hi' ((hl b (by simp)).ext x'.cells))) ?_
      rintro r s1 _ hi1 ⟨ha, hb⟩
      exact andOp_any s1 _ _ hi1 ha hb
    | a :: b :: c :: l, h1, h2, hl =>
      simp only [List.length_cons] at h1 h2
      refine Spec.bind (args2_any hi (fun s' hi' x' => ih _ s' ?_ ?_ hi' ((hl.take _).ext x'.cells))
        (fun s' hi' x' => ih _ s' ?_ ?_ hi' ((hl.drop _).ext x'.cells))) ?_
      · simp only [List.length_take, List.length_cons]; omega
      · simp only [List.length_take, List.length_cons]; omega
      · simp only [List.length_drop, List.length_cons]; omega
      · simp only [List.length_drop, List.length_cons]; omega
      rintro r s1 _ hi1 ⟨ha, hb⟩
      exact andOp_any s1 _ _ hi1 ha hb

theorem allFalse_any {l : List Nat} {s : Mgr} (h : 1 ≤ l.length) (hi : Inv cfg md refs s) (hl : Anys s.cells l) :
    Spec cfg md refs (allFalse cfg l) s (fun r s' => Any s'.cells r) :=
  allFalseRec_any _ l s h (by omega) hi hl

theorem atLeastOne_any {l : List Nat} {s : Mgr} (h : 1 ≤ l.length) (hi : Inv cfg md refs s) (hl : Anys s.cells l) :
    Spec cfg md refs (atLeastOne cfg l) s (fun r s' => Any s'.cells r) := by
  unfold atLeastOne
  refine Spec.bind (allFalse_any h hi hl) ?_
  intro r s1 _ hi1 hr
  exact negateOp_any hi1 hr

theorem orNeg_any (hs : SemOr md) {s : Mgr} {a b : Nat} (hi : Inv cfg md refs s) (ha : Any s.cells a) (hb : Any s.cells b) :
    Spec cfg md refs (orNeg cfg a b) s (fun r s' => Any s'.cells r) := by
  unfold orNeg
  refine Spec.bind (args2_any hi (fun s' hi' x' => negateOp_any hi' (ha.ext x'.cells))
    (fun s' hi' x' => negateOp_any hi' (hb.ext x'.cells))) ?_
  rintro r s1 _ hi1 ⟨ha, hb⟩
  exact orOp_any hs s1 _ _ hi1 ha hb

theorem atMostOneRec_any (hs : SemOr md) : ∀ (n : Nat) (l : List Nat) (s : Mgr),
    1 ≤ l.length → l.length ≤ n → Inv cfg md refs s → Anys s.cells l →
    Spec cfg md refs (atMostOneRec cfg n l) s (fun r s' => Any s'.cells r) := by
  intro n
  induction n with
  | zero => intro l s h1 h2; omega
  | succ n ih =>
    intro l s h1 h2 hi hl
    unfold atMostOneRec
    refine Spec.assert_bind (by simp; omega) ?_
    match l, h1, h2, hl with
    | [a], _, _, hl => exact Spec.pure hi .top
    | [a, b], _, _, hl => exact orNeg_any hs hi (hl a (by simp)) (hl b (by simp))
    | [a, b, c], _, _, hl =>
      have ha := hl a (by simp)
      have hb := hl b (by simp)
      have hc := hl c (by simp)
      refine Spec.bind (args3_any hi (fun s' hi' x' => orNeg_any hs hi' (ha.ext x'.cells) (hb.ext x'.cells))
        (fun s' hi' x' => orNeg_any hs hi' (ha.ext x'.cells) (hc.ext x'.cells))
        (fun s' hi' x' => orNeg_any hs hi' (hb.ext x'.cells) (hc.ext x'.cells))) ?_
      rintro r s1 _ hi1 ⟨h1, h2, h3⟩
      refine variadic_any andOp_any _ s1 (by simp) hi1 ?_
      intro p hp
      simp only [List.mem_cons, List.not_mem_nil, or_false] at hp
      rcases hp with rfl | rfl | rfl <;> assumption
    | a :: b :: c :: d :: l, h1, h2, hl =>
      simp only [List.length_cons] at h1 h2
      have t1 : 1 ≤ (List.take ((a :: b :: c :: d :: l).length / 2) (a :: b :: c :: d :: l)).length := by
        simp only [List.length_take, List.length_cons]; omega
      have t2 : (List.take ((a :: b :: c :: d :: l).length / 2) (a :: b :: c :: d :: l)).length ≤ n := by
        simp only [List.length_take, List.length_cons]; omega
      have d1 : 1 ≤ (List.drop ((a :: b :: c :: d :: l).length / 2) (a :: b :: c :: d :: l)).length := by
        simp only [List.length_drop, List.length_cons]; omega
      have d2 : (List.drop ((a :: b :: c :: d :: l).length / 2) (a :: b :: c :: d :: l)).length ≤ n := by
        simp only [List.length_drop, List.length_cons]; omega
      refine Spec.bind (ih _ s t1 t2 hi (hl.take _)) ?_
      intro a1 s1 x1 hi1 ha1
      refine Spec.bind (allFalse_any t1 hi1 ((hl.take _).ext x1.cells)) ?_
      intro f1 s2 x2 hi2 hf1
      refine Spec.bind (ih _ s2 d1 d2 hi2 (((hl.drop _).ext x1.cells).ext x2.cells)) ?_
      intro a2 s3 x3 hi3 ha2
      refine Spec.bind (allFalse_any d1 hi3 ((((hl.drop _).ext x1.cells).ext x2.cells).ext x3.cells)) ?_
      intro f2 s4 x4 hi4 hf2
      have ha1 := ((ha1.ext x2.cells).ext x3.cells).ext x4.cells
      have hf1 := (hf1.ext x3.cells).ext x4.cells
      have ha2 := ha2.ext x4.cells
      refine Spec.bind (args2_any hi4 (fun s' hi' x' => andOp_any s' _ _ hi' (ha1.ext x'.cells) (hf2.ext x'.cells))
        (fun s' hi' x' => andOp_any s' _ _ hi' (ha2.ext x'.cells) (hf1.ext x'.cells))) ?_
      rintro r s5 _ hi5 ⟨h1, h2⟩
      exact orOp_any hs s5 _ _ hi5 h1 h2

theorem atMostOne_any (hs : SemOr md) {l : List Nat} {s : Mgr} (h : 1 ≤ l.length) (hi : Inv cfg md refs s) (hl : Anys s.cells l) :
    Spec cfg md refs (atMostOne cfg l) s (fun r s' => Any s'.cells r) :=
  atMostOneRec_any hs _ l s h (by omega) hi hl

theorem simplex_any (hs : SemOr md) {l : List Nat} {s : Mgr} (h : 1 ≤ l.length) (hi : Inv cfg md refs s) (hl : Anys s.cells l) :
    Spec cfg md refs (simplex cfg l) s (fun r s' => Any s'.cells r) := by
  unfold simplex
  refine Spec.assert_bind (by simp; omega) ?_
  match l, h, hl with
  | [a], _, hl => exact Spec.pure hi (hl a (by simp))
  | a :: b :: l, h, hl =>
    refine Spec.bind (rangeRec_any (orOp_any hs) _ _ s (by simp) (by omega) hi hl) ?_
    intro r1 s1 x1 hi1 h1
    refine Spec.bind (atMostOne_any hs h hi1 (hl.ext x1.cells)) ?_
    intro r2 s2 x2 hi2 h2
    exact andOp_any s2 _ _ hi2 (h1.ext x2.cells) h2

theorem mapM'_any {α : Type} {f : α → M Mgr Nat} {H : (Nat → Cell) → Prop} (hH : ∀ c c', CellsExt c c' → H c → H c') : ∀ (l : List α) (s : Mgr),
    (∀ a ∈ l, ∀ s', Inv cfg md refs s' → H s'.cells → Spec cfg md refs (f a) s' (fun r s' => Any s'.cells r)) →
    Inv cfg md refs s → H s.cells →
    Spec cfg md refs (mapM' f l) s (fun rs s' => Anys s'.cells rs ∧ rs.length = l.length) := by
  intro l
  induction l with
  | nil => intro s _ hi _; exact Spec.pure hi ⟨fun p hp => by simp at hp, rfl⟩
  | cons a l ih =>
    intro s h hi hh
    unfold mapM'
    refine Spec.bind (h a (by simp) s hi hh) ?_
    intro r s1 x1 hi1 hr
    refine Spec.bind (ih s1 (fun b hb => h b (List.mem_cons_of_mem _ hb)) hi1 (hH _ _ x1.cells hh)) ?_
    rintro rs s2 x2 hi2 ⟨hrs, hlen⟩
    refine Spec.pure hi2 ⟨?_, by simp [hlen]⟩
    intro p hp
    rcases List.mem_cons.1 hp with rfl | hp
    · exact hr.ext x2.cells
    · exact hrs p hp

theorem countRec_any (hs : SemOr md) {leaf : List Nat → Nat → Option (M Mgr Nat)}
    (hnone : ∀ l b, leaf l b = none → 1 ≤ b ∧ 2 ≤ l.length)
    (hsome : ∀ l b m s, leaf l b = some m → 1 ≤ l.length → Inv cfg md refs s → Anys s.cells l →
      Spec cfg md refs m s (fun r s' => Any s'.cells r)) : ∀ (n : Nat) (l : List Nat) (b : Nat) (s : Mgr),
    1 ≤ l.length → l.length ≤ n → Inv cfg md refs s → Anys s.cells l →
    Spec cfg md refs (countRec cfg leaf n l b) s (fun r s' => Any s'.cells r) := by
  intro n
  induction n with
  | zero => intro l b s h1 h2; omega
  | succ n ih =>
    intro l b s h1 h2 hi hl
    unfold countRec
    refine Spec.assert_bind (by simp; omega) ?_
    cases e : leaf l b with
    | some m => exact hsome l b m s e h1 hi hl
    | none =>
      obtain ⟨hb, h2'⟩ := hnone l b e
      simp only
      refine Spec.bind (mapM'_any (H := fun c => Anys c l) (fun _ _ x h => h.ext x) _ s ?_ hi hl) ?_
      · intro i _ s' hi' hl'
        exact ih _ i s' (by simp only [List.length_take]; omega) (by simp only [List.length_take]; omega) hi' (hl'.take _)
      rintro left s1 x1 hi1 ⟨hleft, lleft⟩
      refine Spec.bind (mapM'_any (H := fun c => Anys c l) (fun _ _ x h => h.ext x) _ s1 ?_ hi1 (hl.ext x1.cells)) ?_
      · intro i _ s' hi' hl'
        exact ih _ i s' (by simp only [List.length_drop]; omega) (by simp only [List.length_drop]; omega) hi' (hl'.drop _)
      rintro right s2 x2 hi2 ⟨hright, lright⟩
      refine Spec.bind (mapM'_any (H := fun c => Anys c left ∧ Anys c right) (fun _ _ x h => ⟨h.1.ext x, h.2.ext x⟩) _ s2 ?_ hi2
        ⟨hleft.ext x2.cells, hright⟩) ?_
      · rintro ⟨p, q⟩ hpq s' hi' ⟨ha, hb⟩
        have := List.of_mem_zip hpq
        exact andOp_any s' p q hi' (ha p this.1) (hb q (by simpa using this.2))
      rintro comb s3 x3 hi3 ⟨hcomb, lcomb⟩
      refine rangeRec_any (orOp_any hs) _ comb s3 ?_ (by omega) hi3 hcomb
      simp only [List.length_zip, List.length_reverse, lleft, lright, List.length_range] at lcomb
      omega

theorem atLeast_any (hs : SemOr md) {l : List Nat} {b : Nat} {s : Mgr} (h : 1 ≤ l.length) (hi : Inv cfg md refs s) (hl : Anys s.cells l) :
    Spec cfg md refs (atLeast cfg l b) s (fun r s' => Any s'.cells r) := by
  refine countRec_any hs ?_ ?_ _ l b s h (by omega) hi hl
  · intro l b e
    exact atLeast_sem.cond cfg l b e
  · intro l b m s e h1 hi hl
    unfold atLeastLeaf at e
    have hh : Any s.cells (l.headD 0) := by
      match l, h1 with
      | a :: l, _ => exact hl a (by simp)
    split at e
    · cases e; exact Spec.pure hi .bot
    split at e
    · cases e; exact Spec.pure hi hh
    split at e
    · cases e; exact Spec.pure hi .top
    · cases e

theorem atMost_any (hs : SemOr md) {l : List Nat} {b : Nat} {s : Mgr} (h : 1 ≤ l.length) (hi : Inv cfg md refs s) (hl : Anys s.cells l) :
    Spec cfg md refs (atMost cfg l b) s (fun r s' => Any s'.cells r) := by
  refine countRec_any hs ?_ ?_ _ l b s h (by omega) hi hl
  · intro l b e
    exact atMost_sem.cond cfg l b e
  · intro l b m s e h1 hi hl
    unfold atMostLeaf at e
    have hh : Any s.cells (l.headD 0) := by
      match l, h1 with
      | a :: l, _ => exact hl a (by simp)
    split at e
    · cases e; exact Spec.pure hi .bot
    split at e
    · cases e; exact Spec.pure hi .top
    split at e
    · cases e; exact negateOp_any hi hh
    split at e
    · cases e; exact allFalse_any h1 hi hl
    · cases e

theorem cardinality_any (hs : SemOr md) {l : List Nat} {b : Nat} {s : Mgr} (h : 1 ≤ l.length) (hi : Inv cfg md refs s) (hl : Anys s.cells l) :
    Spec cfg md refs (cardinality cfg l b) s (fun r s' => Any s'.cells r) := by
  refine countRec_any hs ?_ ?_ _ l b s h (by omega) hi hl
  · intro l b e
    exact (card_sem (P := OrMode) fun b k1 k2 h => orRange_det _ (by simp; omega)).cond cfg l b e
  · intro l b m s e h1 hi hl
    unfold cardLeaf at e
    have hh : Any s.cells (l.headD 0) := by
      match l, h1 with
      | a :: l, _ => exact hl a (by simp)
    split at e
    · cases e; exact Spec.pure hi .bot
    split at e
    · cases e; exact Spec.pure hi hh
    split at e
    · cases e; exact negateOp_any hi hh
    split at e
    · cases e; exact allFalse_any h1 hi hl
    · cases e

end
end LBDD
