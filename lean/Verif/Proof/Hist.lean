import Verif.Proof.GcTotal
import Verif.Proof.Coll.Export
/-! Every reachable client state satisfies the invariant. -/
namespace LBDD

/-- The invariant parameters of each discipline. -/
def Use.md : Use → Md
  | .ordered => ⟨True, fun a b c => c = (a || b), fun f g r => r = tOr f g, fun f g h r => r = tIte f g h⟩
  | .unordered => ⟨False, fun a b c => c = (a || b), fun f g r => r = tOr f g, fun f g h r => r = tIte f g h⟩
  | .parity => ⟨False, fun a b c => c = (a ^^ b), fun f g r => r = tXor f g, fun _ _ _ _ => True⟩
  | .mixed => ⟨False, fun a b c => c = (a || b) ∨ c = (a ^^ b), fun _ _ _ => True, fun _ _ _ _ => True⟩

theorem Use.orMode {u : Use} (h : u = .ordered ∨ u = .unordered) : OrMode u.md := by
  rcases h with rfl | rfl <;> exact ⟨rfl, rfl, rfl⟩

theorem Use.xorMode : XorMode Use.parity.md := ⟨rfl, rfl, id⟩

theorem semIte_mixed : SemIte Use.mixed.md where
  symm := by simp only [Use.md]; intro a b c; cases a <;> cases b <;> simp
  same := by simp [Use.md]
  top := by simp [Use.md]
  bot := by simp [Use.md]
  exact0 := by simp [Use.md]
  exact1 := by simp [Use.md]
  rsymm := fun _ _ _ _ => trivial
  rsame := fun _ => trivial
  rtop := fun _ => trivial
  rbot := fun _ => trivial
  rstep := fun _ _ _ _ _ _ _ _ _ _ _ => trivial
  ite := relIte_true

theorem semXor_mixed : SemXor Use.mixed.md where
  symm := by simp only [Use.md]; intro a b c; cases a <;> cases b <;> simp
  same := by simp [Use.md]
  top := by simp [Use.md]
  bot := by simp [Use.md]
  rsymm := fun _ _ _ _ => trivial
  rsame := fun _ => trivial
  rtop := fun _ => trivial
  rbot := fun _ => trivial
  rstep := fun _ _ _ _ _ _ _ _ _ _ _ => trivial

theorem Use.semIte {u : Use} (h : u ≠ .parity) : SemIte u.md := by
  cases u with
  | ordered => exact (Use.orMode (Or.inl rfl)).semIte
  | unordered => exact (Use.orMode (Or.inr rfl)).semIte
  | parity => exact absurd rfl h
  | mixed => exact semIte_mixed

theorem Use.semXor {u : Use} (h : u = .parity ∨ u = .mixed) : SemXor u.md ∧ ¬ u.md.ordered := by
  rcases h with rfl | rfl
  · exact ⟨Use.xorMode.semXor, id⟩
  · exact ⟨semXor_mixed, id⟩

theorem Use.ordered_iff {u : Use} : u.md.ordered ↔ u = .ordered := by
  cases u <;> simp [Use.md]

section
variable {cfg : Cfg} {md : Md} {refs : Nat → Nat} {s : Mgr} {α β : Type}

/-- If the computation returns, the state only grew, the invariant holds and `P`. -/
def Lib (cfg : Cfg) (md : Md) (refs : Nat → Nat) {α : Type} (m : M Mgr α) (s : Mgr) (P : α → Mgr → Prop) : Prop :=
  ∀ a s', m s = .ok a s' → Grow s s' ∧ Inv cfg md refs s' ∧ P a s'

theorem SpecG.lib {m : M Mgr α} {P : α → Mgr → Prop} (h : SpecG cfg md refs m s P) : Lib cfg md refs m s P := by
  intro a s' e
  unfold SpecG M.Sat at h
  rw [e] at h
  exact h
theorem SpecA.lib {bad : Prop} {m : M Mgr α} {P : α → Mgr → Prop} (h : SpecA bad cfg md refs m s P) : Lib cfg md refs m s P := by
  intro r s' e
  unfold SpecA at h
  rw [e] at h
  exact ⟨h.1.grow, h.2⟩

theorem Spec.lib {m : M Mgr α} {P : α → Mgr → Prop} (h : Spec cfg md refs m s P) : Lib cfg md refs m s P := h.toG.lib
theorem SpecB.lib {bad : Prop} {m : M Mgr α} {P : α → Mgr → Prop} (h : SpecB bad cfg md refs m s P) : Lib cfg md refs m s P := by
  intro a s' e
  unfold SpecB at h
  rw [e] at h
  exact ⟨h.1.grow, h.2⟩

theorem Lib.bind {m : M Mgr α} {f : α → M Mgr β} {P : α → Mgr → Prop} {R : β → Mgr → Prop}
    (h : Lib cfg md refs m s P)
    (hf : ∀ a s', Grow s s' → Inv cfg md refs s' → P a s' → Lib cfg md refs (f a) s' R) :
    Lib cfg md refs (m >>= f) s R := by
  intro b s' e
  obtain ⟨a, s1, e1, e2⟩ := bind_ok_inv e
  obtain ⟨g1, i1, p1⟩ := h a s1 e1
  obtain ⟨g2, i2, p2⟩ := hf a s1 g1 i1 p1 b s' e2
  exact ⟨g1.trans g2, i2, p2⟩

theorem Lib.pure {a : α} {P : α → Mgr → Prop} (hi : Inv cfg md refs s) (h : P a s) : Lib cfg md refs (Pure.pure a) s P := by
  intro b s' e
  cases e
  exact ⟨.refl _, hi, h⟩

theorem Lib.ub {P : α → Mgr → Prop} : Lib cfg md refs (M.ub : M Mgr α) s P := by
  intro b s' e; cases e

theorem Lib.mono {m : M Mgr α} {P R : α → Mgr → Prop} (h : Lib cfg md refs m s P) (hf : ∀ a s', P a s' → R a s') :
    Lib cfg md refs m s R := fun a s' e => ⟨(h a s' e).1, (h a s' e).2.1, hf _ _ (h a s' e).2.2⟩

/-- A computation that leaves the state unchanged. -/
theorem Lib.read {m : M Mgr α} {a : α} {P : α → Mgr → Prop} (hi : Inv cfg md refs s) (e : m s = .ok a s) (h : P a s) :
    Lib cfg md refs m s P := by
  intro b s' e'
  rw [e] at e'
  cases e'
  exact ⟨.refl _, hi, h⟩

theorem Lib.one {m : M Mgr Nat} (h : Lib cfg md refs m s (fun r s' => Any s'.cells r)) :
    Lib cfg md refs (m >>= fun r => Pure.pure [r]) s (fun rs s' => Anys s'.cells rs) := by
  refine Lib.bind h ?_
  intro r s1 _ hi1 hr
  refine Lib.pure hi1 ?_
  intro p hp
  simp only [List.mem_singleton] at hp
  subst hp; exact hr

theorem Lib.none {m : M Mgr α} {P : α → Mgr → Prop} (h : Lib cfg md refs m s P) :
    Lib cfg md refs (m >>= fun _ => Pure.pure []) s (fun rs s' => Anys s'.cells rs) :=
  Lib.bind h fun _ _ _ hi1 _ => Lib.pure hi1 (fun p hp => by simp at hp)

theorem occurs_iff {p : Nat} {t : Tree} (h : Repr s.cells p t) (v : Nat) : Occurs s p v ↔ t.Mem v := (h.mem_iff v).symm

theorem Any.reaches {c : Nat → Cell} {p q : Nat} (h : Any c p) (hr : Reaches c p q) : Any c q := by
  induction hr with
  | refl => exact h
  | lo h2 hl _ ih =>
    obtain ⟨t, ht⟩ := h
    obtain ⟨tl, th, _, _, _, a, _⟩ := ht.inv h2
    exact ih ⟨_, a⟩
  | hi h2 hl _ ih =>
    obtain ⟨t, ht⟩ := h
    obtain ⟨tl, th, _, _, _, _, a⟩ := ht.inv h2
    exact ih ⟨_, a⟩

theorem MarkOk.of {p : Nat} (hi : Inv cfg md refs s) (h : SinkOk cfg ∨ 2 ≤ p) : MarkOk cfg s p := by
  rcases h with h | h
  · exact h.mark hi p
  · exact Or.inl h

/-- `exactly_one_solution` returns and changes nothing, for every BDD. -/
theorem exactlyOneSolution_same (hi : Inv cfg md refs s) {p : Nat} {t : Tree} (hp : Repr s.cells p t) :
    ∃ b, exactlyOneSolution cfg p s = .ok b s := by
  unfold exactlyOneSolution
  rw [M.get_bind_apply]
  suffices h : ∀ (n p : Nat) (t : Tree), Repr s.cells p t → t.height + 1 ≤ n → ∃ b, exactlyOne cfg n p s = .ok b s from
    h _ p t hp (by have := hi.ht _ _ hp; unfold fuel1; omega)
  intro n
  induction n with
  | zero => intro p t _ h; omega
  | succ n ih =>
    intro p t hp hn
    unfold exactlyOne
    rw [M.bind_ok (isTop_ok hi hp)]
    by_cases h1 : p = 1
    · simp only [h1, decide_true, if_true]
      exact ⟨true, rfl⟩
    · simp only [h1, decide_false, Bool.false_eq_true, if_false]
      rw [M.bind_ok (isBot_ok hi hp)]
      by_cases h0 : p = 0
      · simp only [h0, decide_true, if_true]
        exact ⟨false, rfl⟩
      · simp only [h0, decide_false, Bool.false_eq_true, if_false]
        have h2 : 2 ≤ p := by omega
        obtain ⟨tl, th, rfl, hl, _, h3, h4⟩ := hp.inv h2
        simp only [Tree.height] at hn
        rw [M.bind_ok (lowOf_congr hi h2 hl rfl), M.bind_ok (highOf_congr hi h2 hl rfl), M.bind_ok (isBot_ok hi h3)]
        by_cases l0 : (s.cells p).lo = 0
        · simp only [l0, decide_true, if_true]
          exact ih _ _ h4 (by omega)
        · simp only [l0, decide_false, Bool.false_eq_true, if_false]
          rw [M.bind_ok (isBot_ok hi h4)]
          by_cases r0 : (s.cells p).hi = 0
          · simp only [r0, decide_true, if_true]
            exact ih _ _ h3 (by omega)
          · simp only [r0, decide_false, Bool.false_eq_true, if_false]
            exact ⟨false, rfl⟩

theorem Lib.read_bind {m : M Mgr α} {a : α} {f : α → M Mgr β} {R : β → Mgr → Prop} (e : m s = .ok a s) (h : Lib cfg md refs (f a) s R) :
    Lib cfg md refs (m >>= f) s R := by
  intro b s' e'
  rw [M.bind_ok e] at e'
  exact h b s' e'

theorem Lib.assert_bind {b : Bool} {f : Unit → M Mgr β} {R : β → Mgr → Prop} (h : Lib cfg md refs (f ()) s R) :
    Lib cfg md refs (M.assert cfg.ndebug b >>= f) s R := by
  intro r s' e
  obtain ⟨_, s1, e1, e2⟩ := bind_ok_inv e
  obtain rfl : s = s1 := by
    unfold M.assert at e1
    split at e1
    · cases e1; rfl
    · cases e1
  exact h r s' e2

/-- `export_bdd` keeps the invariant. -/
theorem exportBdd_lib {c : Coll} {nr d0 d1 : Nat} (hi : Inv cfg md refs s) (hw : c.Wf nr) (he : c.Entry nr d0 d1)
    (hord : md.ordered → c.Ordered nr) (hv : ∀ v, c.Var nr v → v < s.nvars) :
    Lib cfg md refs (exportBdd cfg c nr) s (fun r s' => Any s'.cells r) := by
  by_cases hb : d0 + 2 < d1
  · exact (exportBdd_ok hi hw he hb hord hv).lib.mono (fun r s' h => by obtain ⟨_, t', _, h, _⟩ := h; exact ⟨t', h⟩)
  · intro r s' e
    exfalso
    unfold exportBdd at e
    obtain ⟨_, s1, e1, e⟩ := bind_ok_inv e
    obtain rfl : s = s1 := by
      unfold M.assert at e1
      split at e1
      · cases e1; rfl
      · cases e1
    rw [M.bind_ok (show dlmOf c (nr + 1) s = .ok d1 s by unfold dlmOf; rw [he.2]),
      M.bind_ok (show dlmOf c nr s = .ok d0 s by unfold dlmOf; rw [he.1])] at e
    have h0 : d1 - 2 - d0 = 0 := by omega
    rw [h0] at e
    obtain ⟨_, s1, e1, e⟩ := bind_ok_inv e
    obtain ⟨_, s2, e2, e⟩ := bind_ok_inv e
    obtain ⟨_, s3, e3, e⟩ := bind_ok_inv e
    obtain ⟨h, s4, e4, e⟩ := bind_ok_inv e
    cases e4
    obtain ⟨_, s5, e5, e⟩ := bind_ok_inv e
    cases e

/-- `bdd_mgr::add_bdd` keeps the invariant. -/
theorem mgrAddBdd_lib {c : Coll} {nr d0 d1 : Nat} (hi : Inv cfg md refs s) (hs : SemIte md) (hw : c.Wf nr) (he : c.Entry nr d0 d1)
    (hv : ∀ v, c.Var nr v → v < topsinkIndex) :
    Lib cfg md refs (mgrAddBdd cfg c nr) s (fun r s' => Any s'.cells r) := by
  have hr := hw.entry he
  have key : ∀ (k : Nat) (h : List (Nat × Nat)) (s : Mgr), Inv cfg md refs s → d0 + k ≤ d1 →
      (∀ j r, h.lookup j = some r → Any s.cells r) →
      Lib cfg md refs (importLoop cfg c d0 k h) s (fun h' s' => ∀ j r, h'.lookup j = some r → Any s'.cells r) := by
    intro k
    induction k with
    | zero => intro h s hi _ hh; exact Lib.pure hi hh
    | succ k ih =>
      intro h s hi hk hh
      have ins : ∀ {s' : Mgr} {r : Nat}, CellsExt s.cells s'.cells → Any s'.cells r →
          ∀ j q, (insertNew h (d0 + k) r).lookup j = some q → Any s'.cells q := by
        intro s' r hx hr j q hj
        rw [insertNew_lookup] at hj
        cases e : h.lookup j with
        | some a =>
          rw [e] at hj
          cases hj
          obtain ⟨t, ht⟩ := hh j _ e
          exact ⟨t, ht.ext hx⟩
        | none =>
          rw [e] at hj
          by_cases hk : j = d0 + k
          · simp only [hk, if_true, Option.none_or] at hj; cases hj; exact hr
          · simp [hk] at hj
      obtain ⟨e, ha, hc⟩ := hr.cases (i := d0 + k) (by omega) (by omega)
      unfold importLoop
      refine Lib.read_bind (a := e) (by unfold insOf; rw [ha]) ?_
      split
      · exact ih _ _ hi (by omega) (ins (.refl _) .bot)
      · split
        · exact ih _ _ hi (by omega) (ins (.refl _) .top)
        · rename_i n1 n2
          have hin : e.Inner := ⟨by simpa [Instr.isBot] using n1, by simpa [Instr.isTop] using n2⟩
          refine Lib.assert_bind ?_
          split
          · rename_i lo hi' e1 e2
            obtain ⟨tl, hl⟩ := hh _ _ e1
            obtain ⟨th, hhh⟩ := hh _ _ e2
            refine Lib.bind (projection_ok hi (hv _ ⟨_, e, ⟨d0, d1, he, by omega, by omega, ha⟩, hin, rfl⟩)).lib ?_
            rintro v s1 g1 hi1 ⟨hrv, _⟩
            refine Lib.bind (iteOp_okB hs True hi1 hrv (hhh.ext g1.cells) (hl.ext g1.cells) (Or.inl trivial)).lib ?_
            rintro r s2 g2 hi2 ⟨tr, hrr, _⟩
            exact ih _ _ hi2 (by omega) (ins (g1.cells.trans g2.cells) ⟨tr, hrr⟩)
          · intro a s' e
            obtain ⟨_, _, _, e⟩ := bind_ok_inv e
            cases e
  have h2 := hr.two
  unfold mgrAddBdd
  refine Lib.assert_bind ?_
  refine Lib.read_bind (a := d0) (by unfold dlmOf; rw [he.1]) ?_
  refine Lib.read_bind (a := d1) (by unfold dlmOf; rw [he.2]) ?_
  refine Lib.bind (key _ _ s hi (by omega) (by intro j r h; simp at h)) ?_
  intro h s1 _ hi1 hh
  split
  · rename_i r e1
    exact Lib.pure hi1 (hh _ _ e1)
  · intro a s' e
    obtain ⟨_, _, _, e⟩ := bind_ok_inv e
    cases e

/-- Every call keeps the invariant. -/
theorem Fn.run_lib {u : Use} (hi : Inv cfg u.md refs s) (f : Fn) (ps : List Nat) (hps : Anys s.cells ps) (hpre : f.Pre cfg u s ps) :
    Lib cfg u.md refs (f.run cfg ps) s (fun rs s' => Anys s'.cells rs) := by
  cases f with
  | addVariable =>
    match ps with
    | [] => exact (addVariable_ok hi hpre).lib.none
    | _ :: _ => exact .ub
  | botsink =>
    match ps with
    | [] => exact Lib.pure hi (fun p hp => by simp only [List.mem_singleton] at hp; subst hp; exact .bot)
    | _ :: _ => exact .ub
  | topsink =>
    match ps with
    | [] => exact Lib.pure hi (fun p hp => by simp only [List.mem_singleton] at hp; subst hp; exact .top)
    | _ :: _ => exact .ub
  | projection v =>
    match ps with
    | [] => exact (((projection_ok hi hpre).lib).mono (fun r s' h => ⟨_, h.1⟩)).one
    | _ :: _ => exact .ub
  | negProjection v =>
    match ps with
    | [] => exact (((negProjection_ok hi hpre).lib).mono (fun r s' h => ⟨_, h.1⟩)).one
    | _ :: _ => exact .ub
  | uniqueFind v =>
    match ps, hps, hpre with
    | [], _, _ => exact .ub
    | [_], _, _ => exact .ub
    | [l, h], hps, hpre =>
      obtain ⟨tl, hl⟩ := hps l (by simp)
      obtain ⟨th, hh⟩ := hps h (by simp)
      refine (((mgrUniqueFind_ok hi hpre.1 hl hh ?_).lib).mono (fun r s' h => ⟨_, h.1⟩)).one
      intro ho w hw
      have hu := Use.ordered_iff.1 ho
      rcases hw with hw | hw
      · exact hpre.2 hu l (by simp) w ((occurs_iff hl w).2 hw)
      · exact hpre.2 hu h (by simp) w ((occurs_iff hh w).2 hw)
    | _ :: _ :: _ :: _, _, _ => exact .ub
  | negate =>
    match ps, hps with
    | [], _ => exact .ub
    | [f], hps => exact (negateOp_any hi (hps f (by simp))).lib.one
    | _ :: _ :: _, _ => exact .ub
  | and =>
    match ps, hps with
    | [], _ => exact .ub
    | [_], _ => exact .ub
    | [f, g], hps => exact (andOp_any s f g hi (hps f (by simp)) (hps g (by simp))).lib.one
    | _ :: _ :: _ :: _, _ => exact .ub
  | or =>
    match ps, hps with
    | [], _ => exact .ub
    | [_], _ => exact .ub
    | [f, g], hps => exact (orOp_any (Use.semIte hpre).toSemOr s f g hi (hps f (by simp)) (hps g (by simp))).lib.one
    | _ :: _ :: _ :: _, _ => exact .ub
  | xor =>
    match ps, hps with
    | [], _ => exact .ub
    | [_], _ => exact .ub
    | [f, g], hps => exact (xorOp_any (Use.semXor hpre).1 (Use.semXor hpre).2 s f g hi (hps f (by simp)) (hps g (by simp))).lib.one
    | _ :: _ :: _ :: _, _ => exact .ub
  | ite =>
    match ps, hps with
    | [], _ => exact .ub
    | [_], _ => exact .ub
    | [_, _], _ => exact .ub
    | [f, g, h], hps =>
      obtain ⟨tf, hf⟩ := hps f (by simp)
      obtain ⟨tg, hg⟩ := hps g (by simp)
      obtain ⟨th, hh⟩ := hps h (by simp)
      refine (((iteOp_okB (Use.semIte hpre) True hi hf hg hh (Or.inl trivial)).lib).mono ?_).one
      rintro r s' ⟨tr, h, _⟩; exact ⟨tr, h⟩
    | _ :: _ :: _ :: _ :: _, _ => exact .ub
  | andRange => exact (rangeRec_any andOp_any (ps.length + 1) ps s hpre (by omega) hi hps).lib.one
  | orRange => exact (rangeRec_any (orOp_any (Use.semIte hpre.2).toSemOr) (ps.length + 1) ps s hpre.1 (by omega) hi hps).lib.one
  | xorRange => exact (rangeRec_any (xorOp_any (Use.semXor hpre.2).1 (Use.semXor hpre.2).2) (ps.length + 1) ps s hpre.1 (by omega) hi hps).lib.one
  | andAll => exact (variadic_any andOp_any ps s hpre hi hps).lib.one
  | orAll => exact (variadic_any (orOp_any (Use.semIte hpre.2).toSemOr) ps s hpre.1 hi hps).lib.one
  | xorAll => exact (variadic_any (xorOp_any (Use.semXor hpre.2).1 (Use.semXor hpre.2).2) ps s hpre.1 hi hps).lib.one
  | allFalse => exact (allFalse_any hpre hi hps).lib.one
  | atMostOne => exact (atMostOne_any (Use.semIte hpre.2).toSemOr hpre.1 hi hps).lib.one
  | atLeastOne => exact (atLeastOne_any hpre hi hps).lib.one
  | simplex => exact (simplex_any (Use.semIte hpre.2).toSemOr hpre.1 hi hps).lib.one
  | atLeast b => exact (atLeast_any (Use.semIte hpre.2).toSemOr hpre.1 hi hps).lib.one
  | atMost b => exact (atMost_any (Use.semIte hpre.2).toSemOr hpre.1 hi hps).lib.one
  | cardinality b => exact (cardinality_any (Use.semIte hpre.2).toSemOr hpre.1 hi hps).lib.one
  | rebaseMap m =>
    match ps, hps, hpre with
    | [], _, _ => exact .ub
    | [p], hps, hpre =>
      obtain ⟨t, hp⟩ := hps p (by simp)
      obtain ⟨h1, h2, h3, h4⟩ := hpre p (by simp)
      have hf : ∀ v, t.Mem v → m.lookup v = some ((m.lookup v).getD 0) := by
        intro v hv
        obtain ⟨w, hw⟩ := h2 v ((occurs_iff hp v).2 hv)
        rw [hw]; rfl
      refine (((rebaseMap_ok hi hp h1 hf h3 ?_).lib).mono (fun r s' h => ⟨_, h.1⟩)).one
      intro ho v w hv hw hvw
      exact h4 (Use.ordered_iff.1 ho) v w _ _ ((occurs_iff hp v).2 hv) ((occurs_iff hp w).2 hw) hvw (hf v hv) (hf w hw)
    | _ :: _ :: _, _, _ => exact .ub
  | rebaseVec m =>
    match ps, hps, hpre with
    | [], _, _ => exact .ub
    | [p], hps, hpre =>
      obtain ⟨t, hp⟩ := hps p (by simp)
      obtain ⟨h1, hne, h2, h3, h4⟩ := hpre p (by simp)
      have hf : ∀ v, t.Mem v → m[v]? = some ((m[v]?).getD 0) := by
        intro v hv
        have := h2 v ((occurs_iff hp v).2 hv)
        rw [List.getElem?_eq_getElem this]; rfl
      refine (((rebaseVec_ok hi hp h1 hne hf h3 ?_).lib).mono (fun r s' h => ⟨_, h.1⟩)).one
      intro ho v w hv hw hvw
      exact h4 (Use.ordered_iff.1 ho) v w _ _ ((occurs_iff hp v).2 hv) ((occurs_iff hp w).2 hw) hvw (hf v hv) (hf w hw)
    | _ :: _ :: _, _, _ => exact .ub
  | andLimited n =>
    match ps, hps with
    | [], _ => exact .ub
    | [_], _ => exact .ub
    | [f, g], hps =>
      obtain ⟨tf, hf⟩ := hps f (by simp)
      obtain ⟨tg, hg⟩ := hps g (by simp)
      refine Lib.bind (andLimited_okA (bad := True) (Or.inl trivial) hi hf hg n).lib ?_
      intro o s1 _ hi1 ho
      match o, ho with
      | none, _ => exact Lib.pure hi1 (fun p hp => by simp at hp)
      | some (r, k), ho =>
        obtain ⟨⟨tr, h, _⟩, _⟩ := ho
        exact Lib.pure hi1 (fun p hp => by simp only [List.mem_singleton] at hp; subst hp; exact ⟨tr, h⟩)
    | _ :: _ :: _ :: _, _ => exact .ub
  | nrNodes =>
    match ps, hps, hpre with
    | [], _, _ => exact .ub
    | [p], hps, hpre =>
      obtain ⟨t, hp⟩ := hps p (by simp)
      obtain ⟨l, _, e⟩ := nrNodes_ok hi hp (.of hi (hpre p (by simp)))
      exact (Lib.read (P := fun _ _ => True) hi e trivial).none
    | _ :: _ :: _, _, _ => exact .ub
  | nodesPostorder =>
    match ps, hps, hpre with
    | [], _, _ => exact .ub
    | [p], hps, hpre =>
      obtain ⟨t, hp⟩ := hps p (by simp)
      obtain ⟨l, e, h, _⟩ := nodesPostorder_ok hi hp (.of hi (hpre p (by simp)))
      refine Lib.read hi e ?_
      intro q hq
      exact Any.reaches ⟨t, hp⟩ ((h.mem q).1 hq).2
    | _ :: _ :: _, _, _ => exact .ub
  | nodesBfs =>
    match ps, hps, hpre with
    | [], _, _ => exact .ub
    | [p], hps, hpre =>
      obtain ⟨t, hp⟩ := hps p (by simp)
      obtain ⟨l, e, h⟩ := nodesBfs_ok hi hp (hpre p (by simp))
      refine Lib.read hi e ?_
      intro q hq
      exact Any.reaches ⟨t, hp⟩ ((h.lists.mem q).1 hq).2
    | _ :: _ :: _, _, _ => exact .ub
  | variables =>
    match ps, hps with
    | [], _ => exact .ub
    | [p], hps =>
      obtain ⟨t, hp⟩ := hps p (by simp)
      obtain ⟨l, e, _⟩ := variables_ok hi hp
      exact (Lib.read (P := fun _ _ => True) hi e trivial).none
    | _ :: _ :: _, _ => exact .ub
  | exactlyOneSolution =>
    match ps, hps with
    | [], _ => exact .ub
    | [p], hps =>
      obtain ⟨t, hp⟩ := hps p (by simp)
      obtain ⟨b, e⟩ := exactlyOneSolution_same hi hp
      exact (Lib.read (P := fun _ _ => True) hi e trivial).none
    | _ :: _ :: _, _ => exact .ub
  | print =>
    match ps, hps with
    | [], _ => exact .ub
    | [p], hps =>
      obtain ⟨t, hp⟩ := hps p (by simp)
      obtain ⟨l, e, _⟩ := printArcs_ok hi hp
      exact (Lib.read (P := fun _ _ => True) hi e trivial).none
    | _ :: _ :: _, _ => exact .ub
  | low =>
    match ps, hps with
    | [], _ => exact .ub
    | [p], hps =>
      obtain ⟨t, hp⟩ := hps p (by simp)
      by_cases h2 : 2 ≤ p
      · obtain ⟨tl, th, _, _, _, a, _⟩ := hp.inv h2
        exact (Lib.read hi (lowOf_ok hp h2) ⟨_, a⟩).one
      · refine Lib.one ?_
        intro r s' e
        exfalso
        unfold lowOf at e
        rw [M.get_bind_apply] at e
        have : topsinkIndex ≤ (s.cells p).index := by
          have : p = 0 ∨ p = 1 := by omega
          rcases this with rfl | rfl
          · rw [hi.bot.1]; decide
          · rw [hi.top.1]; exact Nat.le_refl _
        simp only [this, decide_true, Bool.or_true, if_true] at e
        cases e
    | _ :: _ :: _, _ => exact .ub
  | high =>
    match ps, hps with
    | [], _ => exact .ub
    | [p], hps =>
      obtain ⟨t, hp⟩ := hps p (by simp)
      by_cases h2 : 2 ≤ p
      · obtain ⟨tl, th, _, _, _, _, a⟩ := hp.inv h2
        exact (Lib.read hi (highOf_ok hp h2) ⟨_, a⟩).one
      · refine Lib.one ?_
        intro r s' e
        exfalso
        unfold highOf at e
        rw [M.get_bind_apply] at e
        have : topsinkIndex ≤ (s.cells p).index := by
          have : p = 0 ∨ p = 1 := by omega
          rcases this with rfl | rfl
          · rw [hi.bot.1]; decide
          · rw [hi.top.1]; exact Nat.le_refl _
        simp only [this, decide_true, Bool.or_true, if_true] at e
        cases e
    | _ :: _ :: _, _ => exact .ub
  | refBotsink =>
    match ps, hps with
    | [], _ => exact .ub
    | [p], hps =>
      obtain ⟨t, hp⟩ := hps p (by simp)
      obtain ⟨q, e, _⟩ := findBddMgr_ok hi hp
      refine Lib.bind (Lib.read (P := fun _ _ => True) hi e trivial) ?_
      intro _ s1 _ hi1 _
      exact Lib.pure hi1 (fun p hp => by simp only [List.mem_singleton] at hp; subst hp; exact .bot)
    | _ :: _ :: _, _ => exact .ub
  | refTopsink =>
    match ps, hps with
    | [], _ => exact .ub
    | [p], hps =>
      obtain ⟨t, hp⟩ := hps p (by simp)
      obtain ⟨q, e, _⟩ := findBddMgr_ok hi hp
      refine Lib.bind (Lib.read (P := fun _ _ => True) hi e trivial) ?_
      intro _ s1 _ hi1 _
      exact Lib.pure hi1 (fun p hp => by simp only [List.mem_singleton] at hp; subst hp; exact .top)
    | _ :: _ :: _, _ => exact .ub
  | exportBdd c nr =>
    match ps with
    | [] =>
      refine Lib.one ?_
      obtain ⟨d0, d1, he, hw⟩ := hpre.1
      exact exportBdd_lib hi hpre.1 he (fun ho => hpre.2.2 (Use.ordered_iff.1 ho)) hpre.2.1
    | _ :: _ => exact .ub
  | importBdd c nr =>
    match ps with
    | [] =>
      refine Lib.one ?_
      obtain ⟨d0, d1, he, hw⟩ := hpre.1
      exact mgrAddBdd_lib hi (Use.semIte hpre.2.2) hpre.1 he hpre.2.1
    | _ :: _ => exact .ub
end

/-! ## Every reachable state satisfies the invariant -/

section
variable {cfg : Cfg} {u : Use}

theorem Inv.congr_refs {md : Md} {refs refs' : Nat → Nat} {s : Mgr} (hi : Inv cfg md refs s) (h : ∀ p, refs' p = refs p) :
    Inv cfg md refs' s := by
  have : refs' = refs := funext h
  rw [this]; exact hi

/-- What holds of every reachable state. -/
def Good (cfg : Cfg) (u : Use) (a : Api) : Prop := Inv cfg u.md a.count a.mgr

theorem Good.any {a : Api} (h : Good cfg u a) {p : Nat} (hp : a.Holds p) : Any a.mgr.cells p := by
  have : 0 < a.count p := List.count_pos_iff.2 hp
  exact h.repr (h.ref.live p this)

theorem pushHandle_good {a : Api} (h : Good cfg u a) {p : Nat} (hp : Any a.mgr.cells p) :
    ∃ a', pushHandle p a = .ok () a' ∧ Good cfg u a' ∧ Ext a.mgr a'.mgr ∧ a'.hs = a.hs ++ [some p] ∧ a'.mgr.pool = a.mgr.pool := by
  obtain ⟨t, ht⟩ := hp
  obtain ⟨s', e, hi, hx, hpo⟩ := acquire_ok h ht
  refine ⟨{ a with mgr := s', hs := a.hs ++ [some p] }, ?_, ?_, hx, rfl, hpo⟩
  · unfold pushHandle
    rw [M.bind_ok (show onMgr (acquire p) a = .ok () { a with mgr := s' } by unfold onMgr; rw [e])]
    rfl
  · refine hi.congr_refs ?_
    intro q
    unfold Api.count upd
    simp only [List.count_append, List.count_singleton]
    by_cases hq : q = p
    · subst hq; simp
    · simp [hq, Ne.symm hq]

theorem pushHandles_good : ∀ (ps : List Nat) {a : Api}, Good cfg u a → Anys a.mgr.cells ps →
    ∃ a', pushHandles ps a = .ok () a' ∧ Good cfg u a' ∧ Ext a.mgr a'.mgr ∧ a'.hs = a.hs ++ ps.map some ∧ a'.mgr.pool = a.mgr.pool := by
  intro ps
  induction ps with
  | nil => intro a h _; exact ⟨a, rfl, h, .refl _, by simp, rfl⟩
  | cons p ps ih =>
    intro a h hps
    obtain ⟨a1, e1, h1, x1, l1, p1⟩ := pushHandle_good h (hps p (by simp))
    obtain ⟨a2, e2, h2, x2, l2, p2⟩ := ih h1 (fun q hq => by
      obtain ⟨t, ht⟩ := hps q (by simp [hq])
      exact ⟨t, ht.ext x1.cells⟩)
    refine ⟨a2, ?_, h2, x1.trans x2, ?_, p2.trans p1⟩
    · unfold pushHandles
      rw [M.bind_ok e1]; exact e2
    · rw [l2, l1]; simp

theorem args_holds {a : Api} : ∀ {is : List Nat} {ps : List Nat}, a.args is = some ps → ∀ p ∈ ps, a.Holds p := by
  intro is
  induction is with
  | nil => intro ps h p hp; simp [Api.args] at h; subst h; simp at hp
  | cons i is ih =>
    intro ps h p hp
    simp only [Api.args, List.mapM_cons] at h
    cases e1 : (a.hs[i]?).join with
    | none => rw [e1] at h; simp at h
    | some q =>
      rw [e1] at h
      cases e2 : List.mapM (fun i => (a.hs[i]?).join) is with
      | none => rw [e2] at h; simp at h
      | some qs =>
        rw [e2] at h
        simp at h
        subst h
        simp only [List.mem_cons] at hp
        rcases hp with rfl | hp
        · cases e3 : a.hs[i]? with
          | none => rw [e3] at e1; simp at e1
          | some o =>
            rw [e3] at e1
            simp at e1
            subst e1
            exact List.mem_of_getElem? e3
        · exact ih e2 p hp

theorem Good.args {a : Api} (h : Good cfg u a) {is ps : List Nat} (e : a.args is = some ps) : Anys a.mgr.cells ps :=
  fun p hp => h.any (args_holds e p hp)

theorem count_set {a : Api} {i : Nat} {o o' : Option Nat} (h : a.hs[i]? = some o) (p : Nat) :
    (a.hs.set i o').count (some p) = a.count p - (if o = some p then 1 else 0) + (if o' = some p then 1 else 0) := by
  obtain ⟨hl, e⟩ := List.getElem?_eq_some_iff.1 h
  rw [List.count_set hl, e]
  simp [Api.count]

theorem count_pos {a : Api} {i p : Nat} (h : a.hs[i]? = some (some p)) : 0 < a.count p :=
  List.count_pos_iff.2 (List.mem_of_getElem? h)

/-- The invariant only depends on the handles through their counts. -/
theorem onMgr_ok {α : Type} {m : M Mgr α} {a : Api} {r : α} {a' : Api} (h : onMgr m a = .ok r a') :
    m a.mgr = .ok r a'.mgr ∧ a'.hs = a.hs := by
  unfold onMgr at h
  cases e : m a.mgr with
  | ok x s => rw [e] at h; cases h; exact ⟨rfl, rfl⟩
  | throw s => rw [e] at h; cases h
  | assertFail => rw [e] at h; cases h
  | ub => rw [e] at h; cases h
  | hang => rw [e] at h; cases h

theorem releaseNoAssert_ok {md : Md} {refs : Nat → Nat} {s : Mgr} (hi : Inv cfg md refs s) {p : Nat} (hr : 0 < refs p) :
    ∃ s', releaseNoAssert p s = .ok () s' ∧ Inv cfg md (upd refs p (refs p - 1)) s' ∧ Ext s s' ∧ s'.pool = s.pool := by
  obtain ⟨s', e, h⟩ := release_ok hi hr
  refine ⟨s', ?_, h⟩
  have hl := hi.ref.live p hr
  have : 0 < (s.cells p).xref := by
    have := hi.ref.count p hl
    rw [this]; split <;> omega
  unfold release at e
  rw [M.get_bind_apply, M.assert_bind_apply (by simpa using this)] at e
  exact e

/-- Handle operations never fail; a call keeps the invariant whenever it returns, and (except for garbage collection) only adds nodes. -/
theorem step_grow {a a' : Api} {op : Op} (h : Good cfg u a) (hl : Legal cfg u a op) (hne : op ≠ .gc) (e : step cfg op a = .ok () a') :
    Good cfg u a' ∧ Grow a.mgr a'.mgr := by
  cases op with
  | gc => exact absurd rfl hne
  | call f is =>
    simp only [step] at e
    rw [M.get_bind_apply] at e
    cases e1 : a.args is with
    | none => rw [e1] at e; cases e
    | some ps =>
      rw [e1] at e
      obtain ⟨rs, a1, e2, e3⟩ := bind_ok_inv e
      obtain ⟨e4, e5⟩ := onMgr_ok e2
      obtain ⟨g, i, an⟩ := Fn.run_lib h f ps (h.args e1) (hl ps e1) rs _ e4
      have h1 : Good cfg u a1 := by
        refine Inv.congr_refs i ?_
        intro p; unfold Api.count; rw [e5]
      obtain ⟨a2, e6, h2, x2, _⟩ := pushHandles_good rs h1 an
      have : a2 = a' := by have := e6.symm.trans e3; cases this; rfl
      subst this
      exact ⟨h2, g.trans x2.grow⟩
  | copy i =>
    simp only [step] at e
    rw [M.get_bind_apply] at e
    cases e1 : a.hs[i]? with
    | none => rw [e1] at e; cases e
    | some o =>
      rw [e1] at e
      cases o with
      | none =>
        cases e
        refine ⟨Inv.congr_refs h ?_, .refl _⟩
        intro p; simp [Api.count, List.count_append]
      | some p =>
        obtain ⟨a1, e2, h1, x1, _⟩ := pushHandle_good h (h.any (List.mem_of_getElem? e1))
        have : a1 = a' := by
          have : pushHandle p a = .ok () a' := e
          rw [e2] at this; cases this; rfl
        subst this
        exact ⟨h1, x1.grow⟩
  | move i =>
    simp only [step] at e
    rw [M.get_bind_apply] at e
    cases e1 : a.hs[i]? with
    | none => rw [e1] at e; cases e
    | some o =>
      rw [e1] at e
      cases e
      refine ⟨Inv.congr_refs h ?_, .refl _⟩
      intro p
      show (a.hs.set i none ++ [o]).count (some p) = a.count p
      rw [List.count_append, count_set e1, List.count_singleton]
      by_cases ho : o = some p
      · subst ho
        have := count_pos e1
        simp
        omega
      · simp [ho]
  | assign i j =>
    simp only [step] at e
    rw [M.get_bind_apply] at e
    cases e1 : a.hs[i]? with
    | none => rw [e1] at e; cases e
    | some oi =>
      cases e2 : a.hs[j]? with
      | none => rw [e1, e2] at e; cases e
      | some oj =>
        rw [e1, e2] at e
        dsimp only at e
        -- first half
        have s1 : ∃ s1, optM oi releaseNoAssert a.mgr = .ok () s1 ∧
            Inv cfg u.md (fun p => a.count p - (if oi = some p then 1 else 0)) s1 ∧ Ext a.mgr s1 := by
          cases oi with
          | none => exact ⟨a.mgr, rfl, Inv.congr_refs h (by intro p; simp), .refl _⟩
          | some p =>
            obtain ⟨s1, h1, h2, h3, _⟩ := releaseNoAssert_ok h (count_pos e1)
            refine ⟨s1, h1, h2.congr_refs ?_, h3⟩
            intro q
            unfold upd
            by_cases hq : q = p
            · subst hq; simp
            · simp [hq, Ne.symm hq]
        obtain ⟨s1, f1, i1, x1⟩ := s1
        have s2 : ∃ s2, optM oj acquire s1 = .ok () s2 ∧
            Inv cfg u.md (fun p => a.count p - (if oi = some p then 1 else 0) + (if oj = some p then 1 else 0)) s2 ∧ Ext s1 s2 := by
          cases oj with
          | none => exact ⟨s1, rfl, i1.congr_refs (by intro p; simp), .refl _⟩
          | some p =>
            obtain ⟨t, ht⟩ := h.any (p := p) (List.mem_of_getElem? e2)
            obtain ⟨s2, h1, h2, h3, _⟩ := acquire_ok i1 (ht.ext x1.cells)
            refine ⟨s2, h1, h2.congr_refs ?_, h3⟩
            intro q
            unfold upd
            by_cases hq : q = p
            · subst hq; simp
            · simp [hq, Ne.symm hq]
        obtain ⟨s2, f2, i2, x2⟩ := s2
        rw [M.bind_ok (show onMgr (optM oi releaseNoAssert) a = .ok () { a with mgr := s1 } by unfold onMgr; rw [f1]),
          M.bind_ok (show onMgr (optM oj acquire) { a with mgr := s1 } = .ok () { a with mgr := s2 } by
            unfold onMgr
            rw [show (({ a with mgr := s1 } : Api).mgr) = s1 from rfl, f2])] at e
        cases e
        refine ⟨Inv.congr_refs i2 ?_, (x1.trans x2).grow⟩
        intro p
        exact count_set e1 p
  | drop i =>
    simp only [step] at e
    rw [M.get_bind_apply] at e
    cases e1 : a.hs[i]? with
    | none => rw [e1] at e; cases e
    | some o =>
      rw [e1] at e
      dsimp only at e
      have s1 : ∃ s1, optM o (release cfg) a.mgr = .ok () s1 ∧
          Inv cfg u.md (fun p => a.count p - (if o = some p then 1 else 0)) s1 ∧ Ext a.mgr s1 := by
        cases o with
        | none => exact ⟨a.mgr, rfl, Inv.congr_refs h (by intro p; simp), .refl _⟩
        | some p =>
          obtain ⟨s1, h1, h2, h3, _⟩ := release_ok h (count_pos e1)
          refine ⟨s1, h1, h2.congr_refs ?_, h3⟩
          intro q
          unfold upd
          by_cases hq : q = p
          · subst hq; simp
          · simp [hq, Ne.symm hq]
      obtain ⟨s1, f1, i1, x1⟩ := s1
      rw [M.bind_ok (show onMgr (optM o (release cfg)) a = .ok () { a with mgr := s1 } by unfold onMgr; rw [f1])] at e
      cases e
      refine ⟨Inv.congr_refs i1 ?_, x1.grow⟩
      intro p
      have := count_set (o' := none) e1 p
      simp only [reduceCtorEq, if_false, Nat.add_zero] at this
      exact this

theorem kept_iff (a : Api) (p : Nat) : KeptR a.count a.mgr p ↔ a.Kept p := by
  unfold KeptR Api.Kept Api.count
  simp only [List.count_pos_iff]

/-- Everything the user can reach through his handles is unchanged. -/
structure Persist (a a' : Api) : Prop where
  kept : ∀ p, a.Kept p → (a'.mgr.cells p).live = true ∧ (a'.mgr.cells p).lo = (a.mgr.cells p).lo ∧ (a'.mgr.cells p).hi = (a.mgr.cells p).hi ∧
    (a'.mgr.cells p).index = (a.mgr.cells p).index ∧ (a'.mgr.cells p).hashKey = (a.mgr.cells p).hashKey
  nvars : a.mgr.nvars ≤ a'.mgr.nvars
  rng : a.mgr.rngPos ≤ a'.mgr.rngPos

theorem Good.kept_live {a : Api} (h : Good cfg u a) {p : Nat} (hk : a.Kept p) : (a.mgr.cells p).live = true := by
  rcases hk with hk | ⟨q, hq, hr⟩
  · have : p = 0 ∨ p = 1 := by omega
    rcases this with rfl | rfl
    · exact h.live0
    · exact h.live1
  · exact h.heapOk.reach_live (h.ref.live q (List.count_pos_iff.2 hq)) hr

theorem Grow.persist {a a' : Api} (h : Good cfg u a) (hg : Grow a.mgr a'.mgr) : Persist a a' :=
  ⟨fun p hp => hg.cells p (h.kept_live hp), hg.nvars, hg.rng⟩

theorem GcSafe.safeR {a : Api} (h : GcSafe cfg a) : SafeR cfg a.count a.mgr where
  isolated v k p hv hk hp hn := h.isolated v k p hv hk hp (fun hc => hn ((kept_iff a p).2 hc))
  filled v hv hm := by
    obtain ⟨l, l1, l2, l3⟩ := h.filled v hv hm
    exact ⟨l, l1, fun p hp => ⟨(l2 p hp).1, (l2 p hp).2.1, (kept_iff a p).2 (l2 p hp).2.2⟩, l3⟩
  memo k hk r hr p hp := (kept_iff a p).2 (h.memo k hk r hr p hp)

/-- A garbage collection that triggers no defect. -/
theorem gc_good {a : Api} (h : Good cfg u a) (hs : GcSafe cfg a) :
    ∃ s', step cfg .gc a = .ok () { a with mgr := s' } ∧ Good cfg u { a with mgr := s' } ∧ GcRun a.count a.mgr s' ∧ GcFrame a.mgr s' ∧
      (u.md.ordered → ∀ p, (s'.cells p).live = true → KeptR a.count s' p) := by
  obtain ⟨s', e, hi, hg, hf, hk⟩ := collectGarbage_ok (cfg := cfg) h hs.safeR
  refine ⟨s', ?_, hi, hg, hf, hk⟩
  show onMgr (collectGarbage cfg) a = _
  unfold onMgr
  rw [e]

theorem GcRun.persist {a : Api} {s' : Mgr} (h : Good cfg u { a with mgr := s' }) (hg : GcRun a.count a.mgr s') (hf : GcFrame a.mgr s') :
    Persist a { a with mgr := s' } := by
  refine ⟨fun p hp => ?_, Nat.le_of_eq hg.frees.nvars.symm, Nat.le_of_eq hf.rng.symm⟩
  obtain ⟨h1, h2, h3, h4⟩ := hg.frees.same p
  refine ⟨?_, h1, h2, h3, h4⟩
  have : KeptR a.count s' p := ((kept_iff a p).2 hp).mono hg
  exact h.kept_live ((kept_iff { a with mgr := s' } p).1 this)

theorem step_good {a a' : Api} {op : Op} (h : Good cfg u a) (hl : Legal cfg u a op) (e : step cfg op a = .ok () a') :
    Good cfg u a' ∧ Persist a a' := by
  by_cases hne : op = .gc
  · subst hne
    obtain ⟨s', e', g, r, f, _⟩ := gc_good h hl
    rw [e'] at e
    cases e
    exact ⟨g, r.persist g f⟩
  · obtain ⟨g, x⟩ := step_grow h hl hne e
    exact ⟨g, x.persist h⟩

theorem Persist.kept_reaches {a a' : Api} (hp : Persist a a') {p q : Nat} (hk : a.Kept p) (hr : Reaches a.mgr.cells p q) :
    Reaches a'.mgr.cells p q := by
  induction hr with
  | refl => exact .refl _
  | @lo p q h2 hl _ ih =>
    obtain ⟨h1, h3, _⟩ := hp.kept p hk
    refine .lo h2 h1 (h3 ▸ ih ?_)
    rcases hk with hk | ⟨h, hh, hr⟩
    · omega
    · exact Or.inr ⟨h, hh, hr.trans (.lo h2 hl (.refl _))⟩
  | @hi p q h2 hl _ ih =>
    obtain ⟨h1, _, h3, _⟩ := hp.kept p hk
    refine .hi h2 h1 (h3 ▸ ih ?_)
    rcases hk with hk | ⟨h, hh, hr⟩
    · omega
    · exact Or.inr ⟨h, hh, hr.trans (.hi h2 hl (.refl _))⟩

theorem Persist.repr {a a' : Api} (hp : Persist a a') {p : Nat} {t : Tree} (hr : Repr a.mgr.cells p t) (hk : a.Kept p) :
    Repr a'.mgr.cells p t := by
  induction hr with
  | bot => exact .bot
  | top => exact .top
  | @node p tl th h2 hl hi _ _ ihl ihh =>
    obtain ⟨h1, h3, h4, h5, _⟩ := hp.kept p hk
    have k1 : a.Kept (a.mgr.cells p).lo := by
      rcases hk with hk | ⟨h, hh, hr⟩
      · omega
      · exact Or.inr ⟨h, hh, hr.trans (.lo h2 hl (.refl _))⟩
    have k2 : a.Kept (a.mgr.cells p).hi := by
      rcases hk with hk | ⟨h, hh, hr⟩
      · omega
      · exact Or.inr ⟨h, hh, hr.trans (.hi h2 hl (.refl _))⟩
    have ihl := ihl k1
    have ihh := ihh k2
    rw [← h3] at ihl
    rw [← h4] at ihh
    rw [← h5]
    exact .node h2 h1 (h5 ▸ hi) ihl ihh

theorem Reachable.good {a : Api} (h : Reachable cfg u a) : Good cfg u a := by
  induction h with
  | init => exact Inv.congr_refs (init_inv cfg u.md) (fun p => by simp [Api.count, Api.init])
  | step _ hl e ih => exact (step_good ih hl e).1
end
end LBDD
