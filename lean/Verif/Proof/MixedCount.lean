import Verif.Proof.Mixed
import Verif.Proof.Any
/-! Counting operations at one assignment, where memo entries of `or_rec` and `xor_rec` may be mixed up: what their results still guarantee. -/
namespace LBDD
section
variable {cfg : Cfg} {md : Md} {refs : Nat → Nat} {y : Assign}

/-- The BDD at `p` has a value under `y` that satisfies `P`. -/
def Vl (y : Assign) (c : Nat → Cell) (p : Nat) (P : Bool → Prop) : Prop := ∃ b, EvAt y c p b ∧ P b

theorem Vl.ext {c c' : Nat → Cell} {p : Nat} {P : Bool → Prop} (h : Vl y c p P) (x : CellsExt c c') : Vl y c' p P := by
  obtain ⟨b, h1, h2⟩ := h; exact ⟨b, h1.ext x, h2⟩

/-- What a disjunction of the values `vs` may come out as: right if at most one of them is true. -/
def OrVal (vs : List Bool) (v : Bool) : Prop := cnt vs ≤ 1 → v = vs.any id

theorem OrVal.sound {vs : List Bool} {v : Bool} (h : OrVal vs v) (hv : v = true) : vs.any id = true := by
  by_cases hc : cnt vs ≤ 1
  · rw [← h hc]; exact hv
  · rw [any_id_iff]; exact decide_eq_true (by omega)

theorem OrVal.two {va vb v : Bool} (h : OrVal [va, vb] v) : (v = true → va = true ∨ vb = true) ∧ ((va && vb) = false → v = (va || vb)) := by
  unfold OrVal cnt at h
  cases va <;> cases vb <;> simp at h <;> simp [h]

theorem andOp_vl {s : Mgr} {a b : Nat} {P Q : Bool → Prop} (hi : Inv cfg md refs s) (ha : Vl y s.cells a P) (hb : Vl y s.cells b Q) :
    Spec cfg md refs (andOp cfg a b) s (fun r s' => Vl y s'.cells r (fun v => ∃ va vb, P va ∧ Q vb ∧ v = (va && vb))) := by
  obtain ⟨va, ⟨ta, h1, e1⟩, p1⟩ := ha
  obtain ⟨vb, ⟨tb, h2, e2⟩, p2⟩ := hb
  refine (andOp_ok hi h1 h2).mono ?_
  rintro r s' _ _ ⟨tr, h, he, _⟩
  exact ⟨_, ⟨tr, h, rfl⟩, va, vb, p1, p2, by rw [← e1, ← e2]; exact he y⟩

theorem orOp_vl (hs : SemIte md) {s : Mgr} {a b : Nat} {P Q : Bool → Prop} (hi : Inv cfg md refs s) (ha : Vl y s.cells a P) (hb : Vl y s.cells b Q) :
    Spec cfg md refs (orOp cfg a b) s (fun r s' => Vl y s'.cells r (fun v => ∃ va vb, P va ∧ Q vb ∧ OrVal [va, vb] v)) := by
  obtain ⟨va, ⟨ta, h1, e1⟩, p1⟩ := ha
  obtain ⟨vb, ⟨tb, h2, e2⟩, p2⟩ := hb
  refine (orOp_ok hs.toSemOr hi h1 h2).mono ?_
  rintro r s' _ _ ⟨tr, h, he, _⟩
  refine ⟨_, ⟨tr, h, rfl⟩, va, vb, p1, p2, ?_⟩
  intro hc
  have hd : (va && vb) = false := by cases va <;> cases vb <;> simp_all [cnt]
  rw [hs.disj (he y) (by rw [e1, e2]; exact hd), e1, e2]
  simp

theorem negateOp_vl {s : Mgr} {a : Nat} {P : Bool → Prop} (hi : Inv cfg md refs s) (ha : Vl y s.cells a P) :
    Spec cfg md refs (negateOp cfg a) s (fun r s' => Vl y s'.cells r (fun v => ∃ va, P va ∧ v = !va)) := by
  obtain ⟨va, ⟨ta, h1, e1⟩, p1⟩ := ha
  refine (negateOp_tree hi h1).mono ?_
  rintro r s' _ _ ⟨h, _⟩
  exact ⟨_, ⟨_, h, rfl⟩, va, p1, by rw [negTree_eval, e1]⟩

theorem args2_vl {s : Mgr} {m1 m2 : M Mgr Nat} {P Q : Bool → Prop} (hi : Inv cfg md refs s)
    (h1 : ∀ s', Inv cfg md refs s' → Ext s s' → Spec cfg md refs m1 s' (fun r s' => Vl y s'.cells r P))
    (h2 : ∀ s', Inv cfg md refs s' → Ext s s' → Spec cfg md refs m2 s' (fun r s' => Vl y s'.cells r Q)) :
    Spec cfg md refs (args2 cfg m1 m2) s (fun r s' => Vl y s'.cells r.1 P ∧ Vl y s'.cells r.2 Q) := by
  unfold args2
  split
  · refine Spec.bind (h2 s hi (.refl _)) ?_
    intro b s1 x1 hi1 hb
    refine Spec.bind (h1 s1 hi1 x1) ?_
    intro a s2 x2 hi2 ha
    exact Spec.pure hi2 ⟨ha, hb.ext x2.cells⟩
  · refine Spec.bind (h1 s hi (.refl _)) ?_
    intro b s1 x1 hi1 hb
    refine Spec.bind (h2 s1 hi1 x1) ?_
    intro a s2 x2 hi2 ha
    exact Spec.pure hi2 ⟨hb.ext x2.cells, ha⟩

theorem args3_vl {s : Mgr} {m1 m2 m3 : M Mgr Nat} {P Q R : Bool → Prop} (hi : Inv cfg md refs s)
    (h1 : ∀ s', Inv cfg md refs s' → Ext s s' → Spec cfg md refs m1 s' (fun r s' => Vl y s'.cells r P))
    (h2 : ∀ s', Inv cfg md refs s' → Ext s s' → Spec cfg md refs m2 s' (fun r s' => Vl y s'.cells r Q))
    (h3 : ∀ s', Inv cfg md refs s' → Ext s s' → Spec cfg md refs m3 s' (fun r s' => Vl y s'.cells r R)) :
    Spec cfg md refs (args3 cfg m1 m2 m3) s (fun r s' => Vl y s'.cells r.1 P ∧ Vl y s'.cells r.2.1 Q ∧ Vl y s'.cells r.2.2 R) := by
  unfold args3
  split
  · refine Spec.bind (h3 s hi (.refl _)) ?_
    intro a s1 x1 hi1 ha
    refine Spec.bind (h2 s1 hi1 x1) ?_
    intro b s2 x2 hi2 hb
    refine Spec.bind (h1 s2 hi2 (x1.trans x2)) ?_
    intro c s3 x3 hi3 hc
    exact Spec.pure hi3 ⟨hc, hb.ext x3.cells, (ha.ext x2.cells).ext x3.cells⟩
  · refine Spec.bind (h1 s hi (.refl _)) ?_
    intro a s1 x1 hi1 ha
    refine Spec.bind (h2 s1 hi1 x1) ?_
    intro b s2 x2 hi2 hb
    refine Spec.bind (h3 s2 hi2 (x1.trans x2)) ?_
    intro c s3 x3 hi3 hc
    exact Spec.pure hi3 ⟨(ha.ext x2.cells).ext x3.cells, hb.ext x3.cells, hc⟩

theorem EvAts.anys {c : Nat → Cell} : ∀ {l : List Nat} {bs : List Bool}, EvAts y c l bs → Anys c l
  | [], [], _ => fun p hp => by simp at hp
  | p :: l, b :: bs, h => by
    intro q hq
    rcases List.mem_cons.1 hq with rfl | hq
    · exact ⟨_, h.1.choose_spec.1⟩
    · exact EvAts.anys h.2 q hq
  | [], _ :: _, h => h.elim
  | _ :: _, [], h => h.elim

theorem EvAts.vl {c : Nat → Cell} {p : Nat} {b : Bool} (h : EvAt y c p b) : Vl y c p (fun v => v = b) := ⟨b, h, rfl⟩

/-- `or_rec` over a range of BDDs with known values. -/
theorem orRange_vl (hs : SemIte md) {n : Nat} {l : List Nat} {bs : List Bool} {s : Mgr} (h2 : 2 ≤ l.length) (hn : l.length ≤ n) (hi : Inv cfg md refs s)
    (hl : EvAts y s.cells l bs) : Spec cfg md refs (rangeRec cfg (orOp cfg) n l) s (fun r s' => Vl y s'.cells r (OrVal bs)) := by
  by_cases hc : cnt bs ≤ 1
  · refine (rangeRec_at (orOp_at hs) n l bs s h2 hn hi hl hc).mono ?_
    intro r s' _ _ h
    exact ⟨_, h, fun _ => rfl⟩
  · refine (rangeRec_any (orOp_any hs.toSemOr) n l s h2 hn hi hl.anys).mono ?_
    rintro r s' _ _ ⟨t, ht⟩
    exact ⟨_, ⟨t, ht, rfl⟩, fun h => absurd h hc⟩

theorem allFalseRec_vl : ∀ (n : Nat) (l : List Nat) (bs : List Bool) (s : Mgr), 1 ≤ l.length → l.length ≤ n → Inv cfg md refs s → EvAts y s.cells l bs →
    Spec cfg md refs (allFalseRec cfg n l) s (fun r s' => Vl y s'.cells r (fun v => v = decide (cnt bs = 0))) := by
  intro n
  induction n with
  | zero => intro l bs s h1 h2; omega
  | succ n ih =>
    intro l bs s h1 h2 hi hl
    unfold allFalseRec
    refine Spec.assert_bind (by simp; omega) ?_
    have hlen := hl.length
    match l, bs, h1, h2, hl, hlen with
    | [a], [va], _, _, hl, _ =>
      refine (negateOp_vl hi (EvAts.vl hl.1)).mono ?_
      rintro r s' _ _ ⟨v, h, va', rfl, rfl⟩
      exact ⟨_, h, by cases va' <;> simp [cnt]⟩
    | [a, b], [va, vb], _, _, hl, _ =>
      refine Spec.bind (args2_vl hi (fun s' hi' x' => negateOp_vl hi' ((EvAts.vl hl.1).ext x'.cells))
        (fun s' hi' x' => negateOp_vl hi' ((EvAts.vl hl.2.1).ext x'.cells))) ?_
      rintro r s1 _ hi1 ⟨ha, hb⟩
      refine (andOp_vl hi1 ha hb).mono ?_
      rintro r s' _ _ ⟨v, h, _, _, ⟨va', rfl, rfl⟩, ⟨vb', rfl, rfl⟩, rfl⟩
      exact ⟨_, h, by cases va' <;> cases vb' <;> simp [cnt]⟩
    | a :: b :: c :: l, bs, h1, h2, hl, _ =>
      generalize hk : (a :: b :: c :: l).length / 2 = k
      simp only [List.length_cons] at h1 h2 hk
      show Spec cfg md refs (args2 cfg (allFalseRec cfg n (List.take ((a :: b :: c :: l).length / 2) _)) (allFalseRec cfg n (List.drop ((a :: b :: c :: l).length / 2) _)) >>= _) s _
      rw [show (a :: b :: c :: l).length / 2 = k by simpa using hk]
      refine Spec.bind (args2_vl hi (fun s' hi' x' => ih _ (bs.take k) s' ?_ ?_ hi' ((hl.take k).ext x'.cells))
        (fun s' hi' x' => ih _ (bs.drop k) s' ?_ ?_ hi' ((hl.drop k).ext x'.cells))) ?_
      · simp only [List.length_take, List.length_cons]; omega
      · simp only [List.length_take, List.length_cons]; omega
      · simp only [List.length_drop, List.length_cons]; omega
      · simp only [List.length_drop, List.length_cons]; omega
      rintro r s1 _ hi1 ⟨ha, hb⟩
      refine (andOp_vl hi1 ha hb).mono ?_
      rintro r s' _ _ ⟨v, h, _, _, rfl, rfl, rfl⟩
      refine ⟨_, h, ?_⟩
      have : cnt bs = cnt (bs.take k) + cnt (bs.drop k) := by rw [← cnt_append, List.take_append_drop]
      show _ = decide _
      rw [← Bool.decide_and, decide_eq_decide]
      omega

theorem allFalse_vl {l : List Nat} {bs : List Bool} {s : Mgr} (h : 1 ≤ l.length) (hi : Inv cfg md refs s) (hl : EvAts y s.cells l bs) :
    Spec cfg md refs (allFalse cfg l) s (fun r s' => Vl y s'.cells r (fun v => v = decide (cnt bs = 0))) :=
  allFalseRec_vl _ l bs s h (by omega) hi hl

theorem orNeg_vl (hs : SemIte md) {s : Mgr} {a b : Nat} {va vb : Bool} (hi : Inv cfg md refs s) (ha : EvAt y s.cells a va) (hb : EvAt y s.cells b vb) :
    Spec cfg md refs (orNeg cfg a b) s (fun r s' => Vl y s'.cells r (fun v => (v = true → (va && vb) = false) ∧ ((va || vb) = true → v = !(va && vb)))) := by
  unfold orNeg
  refine Spec.bind (args2_vl hi (fun s' hi' x' => negateOp_vl hi' ((EvAts.vl ha).ext x'.cells))
    (fun s' hi' x' => negateOp_vl hi' ((EvAts.vl hb).ext x'.cells))) ?_
  rintro r s1 _ hi1 ⟨ha, hb⟩
  refine (orOp_vl hs hi1 ha hb).mono ?_
  rintro r s' _ _ ⟨v, h, _, _, ⟨va', rfl, rfl⟩, ⟨vb', rfl, rfl⟩, hv⟩
  refine ⟨v, h, ?_⟩
  have := hv.two
  cases va' <;> cases vb' <;> simp at this ⊢ <;> simp [this]

/-- `at_most_one`: where the result is true, at most one element is. -/
theorem atMostOneRec_vl (hs : SemIte md) : ∀ (n : Nat) (l : List Nat) (bs : List Bool) (s : Mgr), 1 ≤ l.length → l.length ≤ n → Inv cfg md refs s → EvAts y s.cells l bs →
    Spec cfg md refs (atMostOneRec cfg n l) s (fun r s' => Vl y s'.cells r (fun v => v = true → cnt bs ≤ 1)) := by
  intro n
  induction n with
  | zero => intro l bs s h1 h2; omega
  | succ n ih =>
    intro l bs s h1 h2 hi hl
    unfold atMostOneRec
    refine Spec.assert_bind (by simp; omega) ?_
    have hlen := hl.length
    match l, bs, h1, h2, hl, hlen with
    | [a], [va], _, _, hl, _ => exact Spec.pure hi ⟨true, ⟨_, .top, rfl⟩, fun _ => by cases va <;> simp [cnt]⟩
    | [a, b], [va, vb], _, _, hl, _ =>
      refine (orNeg_vl hs hi hl.1 hl.2.1).mono ?_
      rintro r s' _ _ ⟨v, h, h1, _⟩
      exact ⟨v, h, fun hv => by have := h1 hv; cases va <;> cases vb <;> simp_all [cnt]⟩
    | [a, b, c], [va, vb, vc], _, _, hl, _ =>
      obtain ⟨ha, hb, hc, _⟩ := hl
      refine Spec.bind (args3_vl hi (fun s' hi' x' => orNeg_vl hs hi' (ha.ext x'.cells) (hb.ext x'.cells))
        (fun s' hi' x' => orNeg_vl hs hi' (ha.ext x'.cells) (hc.ext x'.cells))
        (fun s' hi' x' => orNeg_vl hs hi' (hb.ext x'.cells) (hc.ext x'.cells))) ?_
      rintro r s1 _ hi1 ⟨h1, h2, h3⟩
      show Spec cfg md refs (andOp cfg r.2.1 r.2.2 >>= fun t => andOp cfg r.1 t) s1 _
      refine Spec.bind (andOp_vl hi1 h2 h3) ?_
      intro t s2 x2 hi2 ht
      refine (andOp_vl hi2 (h1.ext x2.cells) ht).mono ?_
      rintro r s' _ _ ⟨v, h, v1, _, ⟨k1, _⟩, ⟨v2, v3, ⟨k2, _⟩, ⟨k3, _⟩, rfl⟩, rfl⟩
      refine ⟨_, h, fun hv => ?_⟩
      simp only [Bool.and_eq_true] at hv
      have a1 := k1 hv.1
      have a2 := k2 hv.2.1
      have a3 := k3 hv.2.2
      cases va <;> cases vb <;> cases vc <;> simp_all [cnt]
    | a :: b :: c :: d :: l, bs, h1, h2, hl, _ =>
      generalize hk : (a :: b :: c :: d :: l).length / 2 = k
      simp only [List.length_cons] at h1 h2 hk
      have t1 : 1 ≤ (List.take k (a :: b :: c :: d :: l)).length := by simp only [List.length_take, List.length_cons]; omega
      have t2 : (List.take k (a :: b :: c :: d :: l)).length ≤ n := by simp only [List.length_take, List.length_cons]; omega
      have d1 : 1 ≤ (List.drop k (a :: b :: c :: d :: l)).length := by simp only [List.length_drop, List.length_cons]; omega
      have d2 : (List.drop k (a :: b :: c :: d :: l)).length ≤ n := by simp only [List.length_drop, List.length_cons]; omega
      show Spec cfg md refs (atMostOneRec cfg n (List.take ((a :: b :: c :: d :: l).length / 2) _) >>= fun a1 => allFalse cfg (List.take ((a :: b :: c :: d :: l).length / 2) _) >>= fun f1 =>
        atMostOneRec cfg n (List.drop ((a :: b :: c :: d :: l).length / 2) _) >>= fun a2 => allFalse cfg (List.drop ((a :: b :: c :: d :: l).length / 2) _) >>= fun f2 =>
        args2 cfg (andOp cfg a1 f2) (andOp cfg a2 f1) >>= fun r => orOp cfg r.1 r.2) s _
      rw [show (a :: b :: c :: d :: l).length / 2 = k by simpa using hk]
      refine Spec.bind (ih _ _ s t1 t2 hi (hl.take k)) ?_
      intro a1 s1 x1 hi1 ha1
      refine Spec.bind (allFalse_vl t1 hi1 ((hl.take k).ext x1.cells)) ?_
      intro f1 s2 x2 hi2 hf1
      refine Spec.bind (ih _ _ s2 d1 d2 hi2 (((hl.drop k).ext x1.cells).ext x2.cells)) ?_
      intro a2 s3 x3 hi3 ha2
      refine Spec.bind (allFalse_vl d1 hi3 ((((hl.drop k).ext x1.cells).ext x2.cells).ext x3.cells)) ?_
      intro f2 s4 x4 hi4 hf2
      have ha1 := ((ha1.ext x2.cells).ext x3.cells).ext x4.cells
      have hf1 := (hf1.ext x3.cells).ext x4.cells
      have ha2 := ha2.ext x4.cells
      refine Spec.bind (args2_vl hi4 (fun s' hi' x' => andOp_vl hi' (ha1.ext x'.cells) (hf2.ext x'.cells))
        (fun s' hi' x' => andOp_vl hi' (ha2.ext x'.cells) (hf1.ext x'.cells))) ?_
      rintro r s5 _ hi5 ⟨h1, h2⟩
      refine (orOp_vl hs hi5 h1 h2).mono ?_
      rintro r s' _ _ ⟨v, h, _, _, ⟨v1, _, k1, rfl, rfl⟩, ⟨v2, _, k2, rfl, rfl⟩, hv⟩
      refine ⟨v, h, fun hvt => ?_⟩
      have hc : cnt bs = cnt (bs.take k) + cnt (bs.drop k) := by rw [← cnt_append, List.take_append_drop]
      rcases hv.two.1 hvt with hq | hq
      · simp only [Bool.and_eq_true, decide_eq_true_eq] at hq
        have := k1 hq.1; omega
      · simp only [Bool.and_eq_true, decide_eq_true_eq] at hq
        have := k2 hq.1; omega

/-- `simplex`: where the result is true, exactly one element is. -/
theorem simplex_vl (hs : SemIte md) {l : List Nat} {bs : List Bool} {s : Mgr} (h : 1 ≤ l.length) (hi : Inv cfg md refs s) (hl : EvAts y s.cells l bs) :
    Spec cfg md refs (simplex cfg l) s (fun r s' => Vl y s'.cells r (fun v => v = true → cnt bs = 1)) := by
  unfold simplex
  refine Spec.assert_bind (by simp; omega) ?_
  have hlen := hl.length
  match l, bs, h, hl, hlen with
  | [a], [va], _, hl, _ => exact Spec.pure hi ⟨va, hl.1, fun hv => by subst hv; rfl⟩
  | a :: b :: l, bs, h, hl, _ =>
    refine Spec.bind (orRange_vl hs (by simp) (by omega) hi hl) ?_
    intro r1 s1 x1 hi1 h1
    refine Spec.bind (atMostOneRec_vl hs _ _ bs s1 h (by omega) hi1 (hl.ext x1.cells)) ?_
    intro r2 s2 x2 hi2 h2
    refine (andOp_vl hi2 (h1.ext x2.cells) h2).mono ?_
    rintro r s' _ _ ⟨v, h, v1, v2, k1, k2, rfl⟩
    refine ⟨_, h, fun hv => ?_⟩
    simp only [Bool.and_eq_true] at hv
    have a1 := k1.sound hv.1
    rw [any_id_iff, decide_eq_true_eq] at a1
    have a2 := k2 hv.2
    omega

/-! ### counting -/

theorem EvAts.append {c : Nat → Cell} : ∀ {l l' : List Nat} {bs bs' : List Bool}, EvAts y c l bs → EvAts y c l' bs' → EvAts y c (l ++ l') (bs ++ bs')
  | [], _, [], _, _, h => h
  | _ :: _, _, _ :: _, _, h, h' => ⟨h.1, EvAts.append h.2 h'⟩
  | [], _, _ :: _, _, h, _ => h.elim
  | _ :: _, _, [], _, h, _ => h.elim

theorem EvAts.reverse {c : Nat → Cell} : ∀ {l : List Nat} {bs : List Bool}, EvAts y c l bs → EvAts y c l.reverse bs.reverse
  | [], [], _ => trivial
  | p :: l, b :: bs, h => by
    rw [List.reverse_cons, List.reverse_cons]
    exact EvAts.append (EvAts.reverse h.2) ⟨h.1, trivial⟩
  | [], _ :: _, h => h.elim
  | _ :: _, [], h => h.elim

theorem mapM'_vl {α : Type} {f : α → M Mgr Nat} {V : α → Bool → Prop} {H : (Nat → Cell) → Prop} (hH : ∀ c c', CellsExt c c' → H c → H c') : ∀ (l : List α) (s : Mgr),
    (∀ a ∈ l, ∀ s', Inv cfg md refs s' → H s'.cells → Spec cfg md refs (f a) s' (fun r s' => Vl y s'.cells r (V a))) →
    Inv cfg md refs s → H s.cells →
    Spec cfg md refs (mapM' f l) s (fun rs s' => ∃ bs, EvAts y s'.cells rs bs ∧ bs.length = l.length ∧ ∀ (i : Nat) (a : α) (b : Bool), l[i]? = some a → bs[i]? = some b → V a b) := by
  intro l
  induction l with
  | nil => intro s _ hi _; exact Spec.pure hi ⟨[], trivial, rfl, fun i a b h => by simp at h⟩
  | cons a l ih =>
    intro s h hi hh
    unfold mapM'
    refine Spec.bind (h a (by simp) s hi hh) ?_
    rintro r s1 x1 hi1 ⟨v, hr, hv⟩
    refine Spec.bind (ih s1 (fun b hb => h b (List.mem_cons_of_mem _ hb)) hi1 (hH _ _ x1.cells hh)) ?_
    rintro rs s2 x2 hi2 ⟨bs, hrs, hlen, hall⟩
    refine Spec.pure hi2 ⟨v :: bs, ⟨hr.ext x2.cells, hrs⟩, by simp [hlen], ?_⟩
    intro i a' b' e1 e2
    cases i with
    | zero => cases e1; cases e2; exact hv
    | succ i => exact hall i a' b' (by simpa using e1) (by simpa using e2)

theorem zipAnd_vl : ∀ (l l' : List Nat) (bs bs' : List Bool) (s : Mgr), Inv cfg md refs s → EvAts y s.cells l bs → EvAts y s.cells l' bs' →
    Spec cfg md refs (mapM' (fun p : Nat × Nat => andOp cfg p.1 p.2) (l.zip l')) s (fun rs s' => EvAts y s'.cells rs (List.zipWith (· && ·) bs bs'))
  | [], _, [], _, s, hi, _, _ => Spec.pure hi trivial
  | _ :: _, [], _ :: _, [], s, hi, _, _ => Spec.pure hi trivial
  | p :: l, q :: l', v :: bs, w :: bs', s, hi, h, h' => by
    rw [List.zip_cons_cons]
    unfold mapM'
    refine Spec.bind (andOp_vl hi (EvAts.vl h.1) (EvAts.vl h'.1)) ?_
    rintro r s1 x1 hi1 ⟨_, hr, _, _, rfl, rfl, rfl⟩
    refine Spec.bind (zipAnd_vl l l' bs bs' s1 hi1 (h.2.ext x1.cells) (h'.2.ext x1.cells)) ?_
    intro rs s2 x2 hi2 hrs
    exact Spec.pure hi2 ⟨hr.ext x2.cells, hrs⟩
  | [], _, _ :: _, _, _, _, h, _ => h.elim
  | _ :: _, _, [], _, _, _, h, _ => h.elim
  | _ :: _, [], _ :: _, _ :: _, _, _, _, h => h.elim
  | _ :: _, _ :: _, _ :: _, [], _, _, _, h => h.elim

theorem zip_vals {b : Nat} {bs bs' : List Bool} (h : bs.length = b + 1) (h' : bs'.length = b + 1) :
    List.zipWith (· && ·) bs bs'.reverse = (List.range (b + 1)).map fun i => bs.getD i false && bs'.getD (b - i) false := by
  apply List.ext_getElem
  · simp [h, h']
  · intro i h1 h2
    simp at h1 h2
    rw [List.getElem_zipWith, List.getElem_reverse, List.getElem_map, List.getElem_range]
    have e : bs'.length - 1 - i = b - i := by omega
    simp only [e]
    rw [List.getD_eq_getElem?_getD, List.getD_eq_getElem?_getD, List.getElem?_eq_getElem (by omega), List.getElem?_eq_getElem (by omega)]
    rfl

/-- What the counting recursion guarantees about the value for `n` elements, bound `b`, `k` true elements. -/
structure CountVal (Q : Nat → Nat → Nat → Bool → Prop) : Prop where
  comb : ∀ (n1 n2 k1 k2 b : Nat) (L R : Nat → Bool), 1 ≤ b → k1 ≤ n1 → k2 ≤ n2 → (∀ i, i ≤ b → Q n1 i k1 (L i)) → (∀ i, i ≤ b → Q n2 i k2 (R i)) → ∀ v,
    OrVal ((List.range (b + 1)).map fun i => L i && R (b - i)) v → Q (n1 + n2) b (k1 + k2) v

theorem countRec_vl (hs : SemIte md) {leaf : List Nat → Nat → Option (M Mgr Nat)} {Q : Nat → Nat → Nat → Bool → Prop} (hQ : CountVal Q)
    (hnone : ∀ l b, leaf l b = none → 1 ≤ b ∧ 2 ≤ l.length)
    (hsome : ∀ l bs b m s, leaf l b = some m → 1 ≤ l.length → Inv cfg md refs s → EvAts y s.cells l bs →
      Spec cfg md refs m s (fun r s' => Vl y s'.cells r (Q bs.length b (cnt bs)))) : ∀ (n : Nat) (l : List Nat) (bs : List Bool) (b : Nat) (s : Mgr),
    1 ≤ l.length → l.length ≤ n → Inv cfg md refs s → EvAts y s.cells l bs →
    Spec cfg md refs (countRec cfg leaf n l b) s (fun r s' => Vl y s'.cells r (Q bs.length b (cnt bs))) := by
  intro n
  induction n with
  | zero => intro l bs b s h1 h2; omega
  | succ n ih =>
    intro l bs b s h1 h2 hi hl
    unfold countRec
    refine Spec.assert_bind (by simp; omega) ?_
    cases e : leaf l b with
    | some m => exact hsome l bs b m s e h1 hi hl
    | none =>
      obtain ⟨hb, h2'⟩ := hnone l b e
      simp only
      refine Spec.bind (mapM'_vl (y := y) (V := fun i => Q (bs.take (l.length / 2)).length i (cnt (bs.take (l.length / 2)))) (H := fun c => EvAts y c l bs) (fun _ _ x h => h.ext x) _ s ?_ hi hl) ?_
      · intro i _ s' hi' hl'
        exact ih _ _ i s' (by simp only [List.length_take]; omega) (by simp only [List.length_take]; omega) hi' (hl'.take _)
      rintro left s1 x1 hi1 ⟨bl, hleft, lleft, vleft⟩
      refine Spec.bind (mapM'_vl (y := y) (V := fun i => Q (bs.drop (l.length / 2)).length i (cnt (bs.drop (l.length / 2)))) (H := fun c => EvAts y c l bs) (fun _ _ x h => h.ext x) _ s1 ?_ hi1 (hl.ext x1.cells)) ?_
      · intro i _ s' hi' hl'
        exact ih _ _ i s' (by simp only [List.length_drop]; omega) (by simp only [List.length_drop]; omega) hi' (hl'.drop _)
      rintro right s2 x2 hi2 ⟨br, hright, lright, vright⟩
      refine Spec.bind (zipAnd_vl _ _ _ _ s2 hi2 (hleft.ext x2.cells) hright.reverse) ?_
      intro comb s3 x3 hi3 hcomb
      rw [List.length_range] at lleft lright
      rw [zip_vals lleft lright] at hcomb
      have hcl := hcomb.length
      simp at hcl
      refine (orRange_vl hs (by omega) (Nat.le_succ _) hi3 hcomb).mono ?_
      rintro r s' _ _ ⟨v, hv, ho⟩
      refine ⟨v, hv, ?_⟩
      have hc : cnt bs = cnt (bs.take (l.length / 2)) + cnt (bs.drop (l.length / 2)) := by rw [← cnt_append, List.take_append_drop]
      have hn : bs.length = (bs.take (l.length / 2)).length + (bs.drop (l.length / 2)).length := by rw [← List.length_append, List.take_append_drop]
      rw [hc, hn]
      refine hQ.comb _ _ _ _ b (fun i => bl.getD i false) (fun i => br.getD i false) hb (cnt_le _) (cnt_le _) ?_ ?_ v ho
      · intro i hi
        refine vleft i i _ (by rw [List.getElem?_range (by omega)]) ?_
        rw [List.getD_eq_getElem?_getD, List.getElem?_eq_getElem (by omega)]; rfl
      · intro i hi
        refine vright i i _ (by rw [List.getElem?_range (by omega)]) ?_
        rw [List.getD_eq_getElem?_getD, List.getElem?_eq_getElem (by omega)]; rfl

theorem any_map_range {b : Nat} {f : Nat → Bool} : ((List.range (b + 1)).map f).any id = true ↔ ∃ i, i ≤ b ∧ f i = true := by
  simp only [List.any_map, List.any_eq_true, Function.comp, id, List.mem_range]
  constructor
  · rintro ⟨i, h1, h2⟩; exact ⟨i, by omega, h2⟩
  · rintro ⟨i, h1, h2⟩; exact ⟨i, by omega, h2⟩

/-- If only `f j` can be true, then at most one is. -/
theorem cnt_unique {b j : Nat} {f : Nat → Bool} (h : ∀ i, i ≤ b → f i = true → i = j) : cnt ((List.range (b + 1)).map f) ≤ 1 := by
  have := cnt_eq_le_one (List.range (b + 1)) j f List.nodup_range
  rw [show (List.range (b + 1)).map f = (List.range (b + 1)).map (fun i => decide (j = i) && f i) from ?_]
  · exact this
  · apply List.map_congr_left
    intro i hi
    cases e : f i with
    | false => simp
    | true => rw [h i (by rw [List.mem_range] at hi; omega) e]; simp

/-- `at_least`: where the result is true at least `b` elements are; right where at most `b` are. -/
def LeastVal (_n b k : Nat) (v : Bool) : Prop := (v = true → b ≤ k) ∧ (k ≤ b → v = decide (b ≤ k))

theorem leastVal : CountVal LeastVal where
  comb := by
    intro n1 n2 k1 k2 b L R hb _ _ hL hR v ho
    have sound : v = true → b ≤ k1 + k2 := by
      intro hv
      obtain ⟨i, hi, hf⟩ := any_map_range.1 (ho.sound hv)
      simp only [Bool.and_eq_true] at hf
      have h1 := (hL i hi).1 hf.1
      have h2 := (hR (b - i) (by omega)).1 hf.2
      omega
    refine ⟨sound, fun hk => ?_⟩
    by_cases he : b ≤ k1 + k2
    · rw [decide_eq_true he]
      rw [ho (cnt_unique (j := k1) ?_)]
      · refine any_map_range.2 ⟨k1, by omega, ?_⟩
        rw [(hL k1 (by omega)).2 (by omega), (hR (b - k1) (by omega)).2 (by omega)]
        simp; omega
      · intro i hi hf
        simp only [Bool.and_eq_true] at hf
        have h1 := (hL i hi).1 hf.1
        have h2 := (hR (b - i) (by omega)).1 hf.2
        omega
    · rw [decide_eq_false he]
      cases v
      · rfl
      · exact absurd (sound rfl) he

/-- `at_most`: where the result is true at most `b` elements are; right where at least `b` are (with the constant `false` for `b > n`). -/
def MostVal (n b k : Nat) (v : Bool) : Prop := (v = true → b ≤ n ∧ k ≤ b) ∧ (b ≤ k → v = decide (k ≤ b))

theorem mostVal : CountVal MostVal where
  comb := by
    intro n1 n2 k1 k2 b L R hb l1 l2 hL hR v ho
    have sound : v = true → b ≤ n1 + n2 ∧ k1 + k2 ≤ b := by
      intro hv
      obtain ⟨i, hi, hf⟩ := any_map_range.1 (ho.sound hv)
      simp only [Bool.and_eq_true] at hf
      have h1 := (hL i hi).1 hf.1
      have h2 := (hR (b - i) (by omega)).1 hf.2
      omega
    refine ⟨sound, fun hk => ?_⟩
    by_cases he : k1 + k2 ≤ b
    · rw [decide_eq_true he]
      rw [ho (cnt_unique (j := k1) ?_)]
      · refine any_map_range.2 ⟨k1, by omega, ?_⟩
        rw [(hL k1 (by omega)).2 (by omega), (hR (b - k1) (by omega)).2 (by omega)]
        simp; omega
      · intro i hi hf
        simp only [Bool.and_eq_true] at hf
        have h1 := (hL i hi).1 hf.1
        have h2 := (hR (b - i) (by omega)).1 hf.2
        omega
    · rw [decide_eq_false he]
      cases v
      · rfl
      · exact absurd (sound rfl).2 he

theorem EvAts.head {c : Nat → Cell} {l : List Nat} {bs : List Bool} (h : EvAts y c l bs) (h1 : l.length = 1) : ∃ va, bs = [va] ∧ EvAt y c (l.headD 0) va := by
  match l, bs, h, h1 with
  | [a], [va], h, _ => exact ⟨va, rfl, h.1⟩
  | [a], _ :: _ :: _, h, _ => exact h.2.elim

theorem atLeast_vl (hs : SemIte md) {l : List Nat} {bs : List Bool} {b : Nat} {s : Mgr} (h : 1 ≤ l.length) (hi : Inv cfg md refs s) (hl : EvAts y s.cells l bs) :
    Spec cfg md refs (atLeast cfg l b) s (fun r s' => Vl y s'.cells r (LeastVal bs.length b (cnt bs))) := by
  refine countRec_vl hs leastVal (fun l b e => atLeast_sem.cond cfg l b e) ?_ _ l bs b s h (by omega) hi hl
  intro l bs b m s e h1 hi hl
  have hlen := hl.length
  have hc := cnt_le bs
  unfold atLeastLeaf at e
  split at e
  · rename_i g; cases e; exact Spec.pure hi ⟨false, ⟨_, .bot, rfl⟩, by simp, fun _ => by symm; exact decide_eq_false (by omega)⟩
  split at e
  · rename_i g; cases e
    obtain ⟨g, rfl⟩ := g
    obtain ⟨va, rfl, ha⟩ := hl.head g
    exact Spec.pure hi ⟨va, ha, by cases va <;> simp [cnt], fun _ => by cases va <;> simp [cnt]⟩
  split at e
  · rename_i g; cases e
    subst g
    exact Spec.pure hi ⟨true, ⟨_, .top, rfl⟩, by simp, by simp⟩
  · cases e

theorem atMost_vl (hs : SemIte md) {l : List Nat} {bs : List Bool} {b : Nat} {s : Mgr} (h : 1 ≤ l.length) (hi : Inv cfg md refs s) (hl : EvAts y s.cells l bs) :
    Spec cfg md refs (atMost cfg l b) s (fun r s' => Vl y s'.cells r (MostVal bs.length b (cnt bs))) := by
  refine countRec_vl hs mostVal (fun l b e => atMost_sem.cond cfg l b e) ?_ _ l bs b s h (by omega) hi hl
  intro l bs b m s e h1 hi hl
  have hlen := hl.length
  have hc := cnt_le bs
  unfold atMostLeaf at e
  split at e
  · rename_i g; cases e; exact Spec.pure hi ⟨false, ⟨_, .bot, rfl⟩, by simp, fun _ => by omega⟩
  split at e
  · rename_i g1 g; cases e
    obtain ⟨g, rfl⟩ := g
    obtain ⟨va, rfl, ha⟩ := hl.head g
    exact Spec.pure hi ⟨true, ⟨_, .top, rfl⟩, by cases va <;> simp [cnt], fun _ => by cases va <;> simp [cnt]⟩
  split at e
  · rename_i g1 g2 g; cases e
    obtain ⟨g, rfl⟩ := g
    obtain ⟨va, rfl, ha⟩ := hl.head g
    refine (negateOp_vl hi (EvAts.vl ha)).mono ?_
    rintro r s' _ _ ⟨_, h, va', rfl, rfl⟩
    exact ⟨_, h, by cases va' <;> simp [cnt], fun _ => by cases va' <;> simp [cnt]⟩
  split at e
  · rename_i g; cases e
    subst g
    refine (allFalse_vl h1 hi hl).mono ?_
    rintro r s' _ _ ⟨_, h, rfl⟩
    exact ⟨_, h, by simp, fun _ => by rw [decide_eq_decide]; omega⟩
  · cases e
end
end LBDD
