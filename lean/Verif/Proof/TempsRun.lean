import Verif.Proof.TempsFn
import Verif.Model.Api
/-! Running any function of the API with and without its temporary handles (`Fn.run_sim`). -/
namespace LBDD

section
variable {α β : Type} {ba : Nat → Int} {cfg : Cfg} {d d0 : Nat → Int} {s : Mgr}

theorem bind_assoc_M {σ α β γ : Type} (m : M σ α) (f : α → M σ β) (g : β → M σ γ) : (m >>= f >>= g) = (m >>= fun a => f a >>= g) := by
  funext s
  show M.bind (M.bind m f) g s = M.bind m (fun a => M.bind (f a) g) s
  unfold M.bind
  cases m s <;> rfl

/-- `Sim` where the run with handles starts with handles `d0`. -/
def SimAt {α : Type} (ba d d0 : Nat → Int) (s : Mgr) (m mT : M Mgr α) (e : α → Nat → Int) (Q : α → Mgr → Prop) : Prop :=
  match m s with
  | .ok a s' => mT (xs d0 s) = .ok a (xs (plus d (e a)) s') ∧ Sane ba s' ∧ CellsExt s.cells s'.cells ∧ Q a s'
  | .throw s' => mT (xs d0 s) = .throw (xs d s') ∧ Sane ba s' ∧ CellsExt s.cells s'.cells
  | .assertFail => mT (xs d0 s) = .assertFail
  | .ub => mT (xs d0 s) = .ub
  | .hang => mT (xs d0 s) = .hang

theorem Sim.after {m mT : M Mgr α} {k kT : α → M Mgr β} {e0 : α → Nat → Int} {e : β → Nat → Int} {Q : α → Mgr → Prop} {R : β → Mgr → Prop}
    (h : Sim ba d s m mT e0 Q) (hk : ∀ a s', Sane ba s' → CellsExt s.cells s'.cells → Q a s' → SimAt ba d (plus d (e0 a)) s' (k a) (kT a) e R) :
    Sim ba d s (m >>= k) (mT >>= kT) e R := by
  unfold Sim at h
  cases hm : m s with
  | ok a s1 =>
    simp only [hm] at h
    obtain ⟨h1, h2, h3, h4⟩ := h
    have h5 := hk a s1 h2 h3 h4
    unfold Sim
    unfold SimAt at h5
    rw [M.bind_ok hm, M.bind_ok h1]
    cases hk1 : k a s1 <;> simp only [hk1] at h5 ⊢
    · exact ⟨h5.1, h5.2.1, h3.trans h5.2.2.1, h5.2.2.2⟩
    · exact ⟨h5.1, h5.2.1, h3.trans h5.2.2⟩
    all_goals exact h5
  | throw s1 =>
    simp only [hm] at h
    have e1 : (m >>= k) s = .throw s1 := by show M.bind m k s = _; unfold M.bind; rw [hm]
    unfold Sim; simp only [e1]; refine ⟨?_, h.2⟩; show M.bind mT _ _ = _; unfold M.bind; rw [h.1]
  | assertFail =>
    simp only [hm] at h
    have e1 : (m >>= k) s = .assertFail := by show M.bind m k s = _; unfold M.bind; rw [hm]
    unfold Sim; simp only [e1]; show M.bind mT _ _ = _; unfold M.bind; rw [h]
  | ub =>
    simp only [hm] at h
    have e1 : (m >>= k) s = .ub := by show M.bind m k s = _; unfold M.bind; rw [hm]
    unfold Sim; simp only [e1]; show M.bind mT _ _ = _; unfold M.bind; rw [h]
  | hang =>
    simp only [hm] at h
    have e1 : (m >>= k) s = .hang := by show M.bind m k s = _; unfold M.bind; rw [hm]
    unfold Sim; simp only [e1]; show M.bind mT _ _ = _; unfold M.bind; rw [h]

/-! ### Reading a collection -/

theorem Sim.mapInsert {m mT : M Mgr Nat} {k kT : List (Nat × Nat) → M Mgr β} {e : β → Nat → Int} {R : β → Mgr → Prop} {h : List (Nat × Nat)} {key : Nat}
    (ho : Owns e R) (ht : TempOk d s) (hm : Sim ba d s m mT one Live)
    (hk : ∀ r s' d', Sane ba s' → TempOk d' s' → CellsExt s.cells s'.cells → Live r s' → Sim ba d' s' (k (insertNew h key r)) (kT (insertNew h key r)) e R) :
    Sim ba d s (m >>= fun r => k (insertNew h key r)) (mT >>= fun r => mapInsertT cfg h key r kT) e R := by
  refine .after hm fun r s1 h1 x1 l1 => ?_
  have t1 := ht.ext x1
  unfold mapInsertT
  by_cases c : (h.lookup key).isSome = true
  · have hins : insertNew h key r = h := if_pos c
    have := hk r s1 d h1 t1 x1 l1
    rw [hins] at this ⊢
    rw [if_pos c]
    unfold SimAt
    rw [M.bind_ok (release_xs h1 t1 l1)]
    exact this
  · rw [if_neg c]
    exact Sim.hold ho t1 l1 (hk r s1 _ h1 (t1.plus l1) x1 l1) _ rfl

theorem Sim.insOf (hs : Sane ba s) (c : Coll) (i : Nat) : Sim ba d s (insOf c i) (insOf c i) noRefs Anything := by
  unfold Sim LBDD.insOf
  cases c.ins[i]? with
  | none => rfl
  | some x =>
    show _ ∧ _
    refine ⟨?_, hs, .refl _, trivial⟩
    rw [show plus d (noRefs x) = d from plus_zero d]

theorem Sim.dlmOf (hs : Sane ba s) (c : Coll) (i : Nat) : Sim ba d s (dlmOf c i) (dlmOf c i) noRefs Anything := by
  unfold Sim LBDD.dlmOf
  cases c.del[i]? with
  | none => rfl
  | some x =>
    show _ ∧ _
    refine ⟨?_, hs, .refl _, trivial⟩
    rw [show plus d (noRefs x) = d from plus_zero d]

theorem Sim.exportRef (hs : Sane ba s) (c : Coll) (d0 d1 : Nat) {h : List (Nat × Nat)} (hm : MapLive h s) (i : Nat) :
    Sim ba d s (exportRef cfg c d0 d1 h i) (exportRef cfg c d0 d1 h i) noRefs Live := by
  unfold LBDD.exportRef
  refine .assert_bind (.bind (.insOf hs c i) fun x s1 h1 x1 _ => .ite (fun _ => .pure h1 h1.live0) fun _ => .ite (fun _ => .pure h1 h1.live1) fun _ => .assert_bind (.assert_bind ?_))
  cases e : h.lookup i with
  | none => exact .assert_bind .ub
  | some p => exact .pure h1 ((hm _ _ e).ext x1)

theorem mgrUniqueFindT_sim {v : Nat} : Sim2 ba (mgrUniqueFind cfg v) (mgrUniqueFindT cfg v) := by
  intro l h s d hs ht hl hh
  unfold mgrUniqueFindT
  exact .toRef (.mgrUniqueFind hs ht v hl hh)

theorem exportLoop_sim {c : Coll} {e0 e1 : Nat} : ∀ k (h : List (Nat × Nat)) (s : Mgr) (d : Nat → Int), Sane ba s → TempOk d s → MapLive h s →
    Sim ba d s (exportLoop cfg c e0 e1 k h >>= fun h => match h.lookup e0 with | some r => pure r | none => do M.assert cfg.ndebug false; M.ub)
      (exportLoopT cfg c e0 e1 k h) one Live := by
  intro k
  induction k with
  | zero =>
    intro h s d hs ht hm
    unfold exportLoop exportLoopT
    show Sim ba d s (match h.lookup e0 with | some r => pure r | none => do M.assert cfg.ndebug false; M.ub) _ _ _
    cases e : h.lookup e0 with
    | none => exact .assert_bind .ub
    | some r => exact .ref hs (hm _ _ e)
  | succ k ih =>
    intro h s d hs ht hm
    unfold exportLoop exportLoopT
    rw [bind_assoc_M]
    refine .bind (.insOf hs c _) fun x s1 h1 x1 _ => ?_
    rw [bind_assoc_M]
    refine .assert_bind ?_
    rw [bind_assoc_M]
    have t1 := ht.ext x1
    have m1 := hm.ext x1
    refine .bind (.exportRef h1 c _ _ m1 _) fun lo s2 h2 x2 l2 => ?_
    have t2 := t1.ext x2
    have m2 := m1.ext x2
    have key : Sim ba d s2 (LBDD.exportRef cfg c e0 e1 h x.hi >>= fun hi => mgrUniqueFind cfg x.index lo hi >>= fun r =>
          M.assert cfg.ndebug (h.lookup (e0 + k)).isNone >>= fun _ => pure r)
        (withCopy cfg lo (LBDD.exportRef cfg c e0 e1 h x.hi >>= fun hi => withCopy cfg hi (LBDD.call2 cfg (mgrUniqueFindT cfg x.index) lo hi >>= fun r =>
          holding cfg r (M.assert cfg.ndebug (h.lookup (e0 + k)).isNone >>= fun _ => newRef r)))) one Live := by
      refine .copy owns_one t2 l2 ?_
      have t2' := t2.plus l2
      refine .bind (.exportRef h2 c _ _ m2 _) fun hi s3 h3 x3 l3 => .copy owns_one (t2'.ext x3) l3 ?_
      have t3 := (t2'.ext x3).plus l3
      refine .localR owns_one t3 (mgrUniqueFindT_sim.call h3 t3 (l2.ext x3) l3) fun r s4 d4 _ h4 t4 x4 l4 => .assert_bind (.ref h4 l4)
    have := Sim.mapInsert (cfg := cfg) (h := h) (key := e0 + k) (k := fun h => exportLoop cfg c e0 e1 k h >>= fun h => match h.lookup e0 with | some r => pure r | none => do M.assert cfg.ndebug false; M.ub)
      (kT := exportLoopT cfg c e0 e1 k) owns_one t2 key fun r s3 d3 h3 t3 x3 l3 => ih _ _ _ h3 t3 ((m2.ext x3).insert _ l3)
    simp only [bind_assoc_M] at this ⊢
    exact this

theorem exportBdd_sim (hs : Sane ba s) (ht : TempOk d s) (c : Coll) (nr : Nat) : Sim ba d s (exportBdd cfg c nr) (exportBddT cfg c nr) one Live := by
  unfold exportBdd exportBddT
  refine .assert_bind (.bind (.dlmOf hs c _) fun d1 s1 h1 x1 _ => .bind (.dlmOf h1 c _) fun e0 s2 h2 x2 _ => .assert_bind (.assert_bind (.assert_bind ?_)))
  exact exportLoop_sim _ _ _ _ h2 ((ht.ext x1).ext x2) .nil

theorem projectionT_sim (hs : Sane ba s) (ht : TempOk d s) (v : Nat) : Sim ba d s (projection cfg v) (projectionT cfg v) one Live := by
  unfold projectionT
  exact .toRef (.projection hs ht v)

theorem importLoop_sim {c : Coll} {e0 : Nat} : ∀ k (h : List (Nat × Nat)) (s : Mgr) (d : Nat → Int), Sane ba s → TempOk d s → MapLive h s →
    Sim ba d s (importLoop cfg c e0 k h >>= fun h => match h.lookup e0 with | some r => pure r | none => do M.assert cfg.ndebug false; M.ub)
      (importLoopT cfg c e0 k h) one Live := by
  intro k
  induction k with
  | zero =>
    intro h s d hs ht hm
    unfold importLoop importLoopT
    show Sim ba d s (match h.lookup e0 with | some r => pure r | none => do M.assert cfg.ndebug false; M.ub) _ _ _
    cases e : h.lookup e0 with
    | none => exact .assert_bind .ub
    | some r => exact .ref hs (hm _ _ e)
  | succ k ih =>
    intro h s d hs ht hm
    have next : ∀ {m mT : M Mgr Nat} {s1 : Mgr}, TempOk d s1 → MapLive h s1 → Sim ba d s1 m mT one Live →
        Sim ba d s1 (m >>= fun r => importLoop cfg c e0 k (insertNew h (e0 + k) r) >>= fun h => match h.lookup e0 with | some r => pure r | none => do M.assert cfg.ndebug false; M.ub)
          (mT >>= fun r => mapInsertT cfg h (e0 + k) r (importLoopT cfg c e0 k)) one Live := fun t1 m1 hsim =>
      Sim.mapInsert (cfg := cfg) (h := h) (key := e0 + k) (k := fun h => importLoop cfg c e0 k h >>= fun h => match h.lookup e0 with | some r => pure r | none => do M.assert cfg.ndebug false; M.ub)
        (kT := importLoopT cfg c e0 k) owns_one t1 hsim fun r s3 d3 h3 t3 x3 l3 => ih _ _ _ h3 t3 ((m1.ext x3).insert _ l3)
    unfold importLoop importLoopT
    rw [bind_assoc_M]
    refine .bind (.insOf hs c _) fun x s1 h1 x1 _ => ?_
    have t1 := ht.ext x1
    have m1 := hm.ext x1
    by_cases c1 : x.isBot = true
    · rw [if_pos c1, if_pos c1]
      exact next (m := pure botId) t1 m1 (.ref h1 h1.live0)
    · rw [if_neg c1, if_neg c1]
      by_cases c2 : x.isTop = true
      · rw [if_pos c2, if_pos c2]
        exact next (m := pure topId) t1 m1 (.ref h1 h1.live1)
      · rw [if_neg c2, if_neg c2, bind_assoc_M]
        refine .assert_bind ?_
        cases el : h.lookup x.lo with
        | none => rw [bind_assoc_M]; exact .assert_bind .ub
        | some lo =>
          cases eh : h.lookup x.hi with
          | none => rw [bind_assoc_M]; exact .assert_bind .ub
          | some hi =>
            have l1 := m1 _ _ el
            have l2 := m1 _ _ eh
            have := next (m := LBDD.projection cfg x.index >>= fun v => iteOp cfg v hi lo)
              (mT := withCopy cfg lo (withCopy cfg hi (projectionT cfg x.index >>= fun v =>
                holding cfg v (withCopy cfg hi (withCopy cfg lo (iteOpT cfg v hi lo))) >>= fun r => holding cfg r (newRef r)))) t1 m1 ?_
            · simp only [bind_assoc_M] at this ⊢
              exact this
            · refine .copy owns_one t1 l1 (.copy owns_one (t1.plus l1) l2 ?_)
              have t2 := (t1.plus l1).plus l2
              have e1 : (LBDD.projection cfg x.index >>= fun v => iteOp cfg v hi lo) = ((LBDD.projection cfg x.index >>= fun v => iteOp cfg v hi lo) >>= fun r => pure r) := (bind_pure_id _).symm
              rw [e1, ← bind_assoc_M (projectionT cfg x.index)]
              refine .localR owns_one t2 (.localR owns_one t2 (projectionT_sim h1 t2 _) fun v s2 d2 _ h2 t2 x2 lv => ?_) fun r s3 d3 _ h3 t3 x3 l3 => .ref h3 l3
              refine .copy owns_one t2 (l2.ext x2) (.copy owns_one (t2.plus (l2.ext x2)) (l1.ext x2) ?_)
              exact iteOp_sim h2 ((t2.plus (l2.ext x2)).plus (l1.ext x2)) lv (l2.ext x2) (l1.ext x2)

theorem mgrAddBdd_sim (hs : Sane ba s) (ht : TempOk d s) (c : Coll) (nr : Nat) : Sim ba d s (mgrAddBdd cfg c nr) (mgrAddBddT cfg c nr) one Live := by
  unfold mgrAddBdd mgrAddBddT
  refine .assert_bind (.bind (.dlmOf hs c _) fun d0 s1 h1 x1 _ => .bind (.dlmOf h1 c _) fun d1 s2 h2 x2 _ => ?_)
  exact importLoop_sim _ _ _ _ h2 ((ht.ext x1).ext x2) .nil

/-! ### The API -/

/-- One reference to each element of a list. -/
def refsOf : List Nat → Nat → Int
  | [] => zero
  | p :: ps => plus (one p) (refsOf ps)

theorem owns_refs : Owns refsOf AllLive := by
  intro l s' h p
  induction l with
  | nil => exact ⟨Int.le_refl _, fun h => absurd rfl h⟩
  | cons a l ih =>
    have h1 := ih h.tail
    have h2 := owns_one a s' h.head p
    refine ⟨?_, fun hp => ?_⟩
    · show 0 ≤ one a p + refsOf l p; omega
    · change one a p + refsOf l p ≠ 0 at hp
      by_cases c : one a p = 0
      · exact h1.2 (by omega)
      · exact h2.2 c

theorem Sim.ret1 {m mT : M Mgr Nat} (h : Sim ba d s m mT one Live) : Sim ba d s (m >>= fun r => Pure.pure [r]) (ret1 mT) refsOf AllLive := by
  unfold LBDD.ret1
  refine .after h fun r s1 h1 x1 l1 => ?_
  unfold SimAt
  show _ ∧ _
  refine ⟨?_, h1, .refl _, fun p hp => ?_⟩
  · rw [show refsOf [r] = one r from plus_zero _]; rfl
  · rw [List.mem_singleton.1 hp]; exact l1

theorem Sim.noret {m mT : M Mgr α} {Q : α → Mgr → Prop} (h : Sim ba d s m mT noRefs Q) : Sim ba d s (m >>= fun _ => Pure.pure ([] : List Nat)) (mT >>= fun _ => Pure.pure []) refsOf AllLive := by
  refine .bind h fun r s1 h1 x1 _ => ?_
  unfold Sim
  show _ ∧ _
  refine ⟨?_, h1, .refl _, fun p hp => by cases hp⟩
  show Res.ok _ _ = Res.ok _ _
  rw [show plus d (refsOf []) = d from plus_zero d]

theorem convertRefs_xs (hs : Sane ba s) : ∀ (l : List Nat) (d : Nat → Int), TempOk d s → AllLive l s → convertRefs cfg l (xs d s) = .ok () (xs (plus d (refsOf l)) s) := by
  intro l
  induction l with
  | nil => intro d ht hl; show Res.ok _ _ = Res.ok _ _; rw [show plus d (refsOf []) = d from plus_zero d]
  | cons p l ih =>
    intro d ht hl
    have e1 : withCopy cfg p (acquire p) (xs d s) = .ok () (xs (plus d (one p)) s) := by
      unfold withCopy
      rw [M.bind_ok (acquire_xs p)]
      unfold holding
      rw [acquire_xs]
      simp only
      rw [M.bind_ok (release_xs hs (ht.plus hl.head) hl.head)]
      rfl
    unfold convertRefs
    rw [M.bind_ok e1, ih _ (ht.plus hl.head) hl.tail, plus_assoc]
    rfl

theorem Sim.convert {m : M Mgr (List Nat)} (ht : TempOk d s) (h : Sim ba d s m m noRefs AllLive) : Sim ba d s m (m >>= fun l => convertRefs cfg l >>= fun _ => Pure.pure l) refsOf AllLive := by
  have key : Sim ba d s (m >>= fun l => Pure.pure l) (m >>= fun l => convertRefs cfg l >>= fun _ => Pure.pure l) refsOf AllLive := by
    refine .bind h fun l s1 h1 x1 hl => ?_
    unfold Sim
    show _ ∧ _
    refine ⟨?_, h1, .refl _, hl⟩
    rw [M.bind_ok (convertRefs_xs h1 l d (ht.ext x1) hl)]
    rfl
  rwa [bind_pure_id] at key

/-- Any call with and without its temporary handles. -/
theorem Fn.run_sim (f : Fn) (ps : List Nat) (hs : Sane ba s) (ht : TempOk d s) (hl : AllLive ps s) : Sim ba d s (f.run cfg ps) (f.runT cfg ps) refsOf AllLive := by
  cases f with
  | andRange => exact .ret1 (rangeRec_sim andOp_sim _ _ _ _ hs ht hl)
  | orRange => exact .ret1 (orRange_sim hs ht hl)
  | xorRange => exact .ret1 (rangeRec_sim xorOp_sim _ _ _ _ hs ht hl)
  | andAll => exact .ret1 (.copies owns_one ht hl fun d ht => variadic_sim andOp_sim _ _ _ hs ht hl)
  | orAll => exact .ret1 (.copies owns_one ht hl fun d ht => variadic_sim orOp_sim _ _ _ hs ht hl)
  | xorAll => exact .ret1 (.copies owns_one ht hl fun d ht => variadic_sim xorOp_sim _ _ _ hs ht hl)
  | allFalse => exact .ret1 (allFalse_sim hs ht hl)
  | atMostOne => exact .ret1 (atMostOne_sim hs ht hl)
  | atLeastOne => exact .ret1 (atLeastOne_sim hs ht hl)
  | simplex => exact .ret1 (simplex_sim hs ht hl)
  | atLeast b => exact .ret1 (atLeast_sim hs ht hl)
  | atMost b => exact .ret1 (atMost_sim hs ht hl)
  | cardinality b => exact .ret1 (cardinality_sim hs ht hl)
  | addVariable =>
    cases ps with
    | nil => exact .noret (.addVariable hs)
    | cons => exact .ub
  | botsink =>
    cases ps with
    | nil => exact .ret1 (m := Pure.pure botId) (.ref hs hs.live0)
    | cons => exact .ub
  | topsink =>
    cases ps with
    | nil => exact .ret1 (m := Pure.pure topId) (.ref hs hs.live1)
    | cons => exact .ub
  | projection v =>
    cases ps with
    | nil => exact .ret1 (projectionT_sim hs ht v)
    | cons => exact .ub
  | negProjection v =>
    cases ps with
    | nil => exact .ret1 (.toRef (.negProjection hs ht v))
    | cons => exact .ub
  | exportBdd c nr =>
    cases ps with
    | nil => exact .ret1 (exportBdd_sim hs ht c nr)
    | cons => exact .ub
  | importBdd c nr =>
    cases ps with
    | nil => exact .ret1 (mgrAddBdd_sim hs ht c nr)
    | cons => exact .ub
  | negate =>
    rcases ps with _ | ⟨a, _ | ⟨b, ps⟩⟩
    · exact .ub
    · exact .ret1 (negateOp_call hs ht hl.head)
    · exact .ub
  | rebaseMap m =>
    rcases ps with _ | ⟨a, _ | ⟨b, ps⟩⟩
    · exact .ub
    · exact .ret1 (.copy owns_one ht hl.head (.toRef (.rebaseMap hs (ht.plus hl.head) hl.head m)))
    · exact .ub
  | rebaseVec m =>
    rcases ps with _ | ⟨a, _ | ⟨b, ps⟩⟩
    · exact .ub
    · exact .ret1 (.copy owns_one ht hl.head (.toRef (.rebaseVec hs (ht.plus hl.head) hl.head m)))
    · exact .ub
  | nrNodes =>
    rcases ps with _ | ⟨a, _ | ⟨b, ps⟩⟩
    · exact .ub
    · exact .noret (.nrNodes hs hl.head)
    · exact .ub
  | nodesPostorder =>
    rcases ps with _ | ⟨a, _ | ⟨b, ps⟩⟩
    · exact .ub
    · exact .convert ht (.nodesPostorder hs hl.head)
    · exact .ub
  | nodesBfs =>
    rcases ps with _ | ⟨a, _ | ⟨b, ps⟩⟩
    · exact .ub
    · exact .convert ht (.nodesBfs hs hl.head)
    · exact .ub
  | variables =>
    rcases ps with _ | ⟨a, _ | ⟨b, ps⟩⟩
    · exact .ub
    · exact .noret (.variables hs hl.head)
    · exact .ub
  | exactlyOneSolution =>
    rcases ps with _ | ⟨a, _ | ⟨b, ps⟩⟩
    · exact .ub
    · exact .noret (.exactlyOneSolution hs a)
    · exact .ub
  | print =>
    rcases ps with _ | ⟨a, _ | ⟨b, ps⟩⟩
    · exact .ub
    · exact .noret (.printArcs hs hl.head)
    · exact .ub
  | low =>
    rcases ps with _ | ⟨a, _ | ⟨b, ps⟩⟩
    · exact .ub
    · exact .ret1 (.toRef (.lowOf hs _))
    · exact .ub
  | high =>
    rcases ps with _ | ⟨a, _ | ⟨b, ps⟩⟩
    · exact .ub
    · exact .ret1 (.toRef (.highOf hs _))
    · exact .ub
  | refBotsink =>
    rcases ps with _ | ⟨a, _ | ⟨b, ps⟩⟩
    · exact .ub
    · have := Sim.ret1 (d := d) (s := s) (m := LBDD.findBddMgr cfg a >>= fun _ => Pure.pure botId) (mT := LBDD.findBddMgr cfg a >>= fun _ => newRef botId)
        (.bind (.findBddMgr hs a) fun _ s1 h1 _ _ => .ref h1 h1.live0)
      rw [bind_assoc_M] at this
      exact this
    · exact .ub
  | refTopsink =>
    rcases ps with _ | ⟨a, _ | ⟨b, ps⟩⟩
    · exact .ub
    · have := Sim.ret1 (d := d) (s := s) (m := LBDD.findBddMgr cfg a >>= fun _ => Pure.pure topId) (mT := LBDD.findBddMgr cfg a >>= fun _ => newRef topId)
        (.bind (.findBddMgr hs a) fun _ s1 h1 _ _ => .ref h1 h1.live1)
      rw [bind_assoc_M] at this
      exact this
    · exact .ub
  | uniqueFind v =>
    rcases ps with _ | ⟨a, _ | ⟨b, _ | ⟨c, ps⟩⟩⟩
    · exact .ub
    · exact .ub
    · exact .ret1 (mgrUniqueFindT_sim.call hs ht hl.head hl.tail.head)
    · exact .ub
  | and =>
    rcases ps with _ | ⟨a, _ | ⟨b, _ | ⟨c, ps⟩⟩⟩
    · exact .ub
    · exact .ub
    · exact .ret1 (andOp_sim.call hs ht hl.head hl.tail.head)
    · exact .ub
  | or =>
    rcases ps with _ | ⟨a, _ | ⟨b, _ | ⟨c, ps⟩⟩⟩
    · exact .ub
    · exact .ub
    · exact .ret1 (orOp_sim.call hs ht hl.head hl.tail.head)
    · exact .ub
  | xor =>
    rcases ps with _ | ⟨a, _ | ⟨b, _ | ⟨c, ps⟩⟩⟩
    · exact .ub
    · exact .ub
    · exact .ret1 (xorOp_sim.call hs ht hl.head hl.tail.head)
    · exact .ub
  | andLimited n =>
    rcases ps with _ | ⟨a, _ | ⟨b, _ | ⟨c, ps⟩⟩⟩
    · exact .ub
    · exact .ub
    · have h1 : Sim ba d s (LBDD.andLimited cfg a b n) (LBDD.call2 cfg (fun f g => andLimitedT cfg f g n) a b) oneLim LiveLim :=
        .call2 (op := fun f g => LBDD.andLimited cfg f g n) owns_lim ht hl.head hl.tail.head fun d ht => andLimited_sim hs ht hl.head hl.tail.head
      refine .after h1 fun o s1 h1 x1 q => ?_
      unfold SimAt
      cases o with
      | none => exact ⟨rfl, h1, .refl _, fun p hp => by cases hp⟩
      | some r =>
        refine ⟨?_, h1, .refl _, fun p hp => ?_⟩
        · rw [show refsOf [r.1] = one r.1 from plus_zero _]; rfl
        · rw [List.mem_singleton.1 hp]; exact q
    · exact .ub
  | ite =>
    rcases ps with _ | ⟨a, _ | ⟨b, _ | ⟨c, _ | ⟨e, ps⟩⟩⟩⟩
    · exact .ub
    · exact .ub
    · exact .ub
    · exact .ret1 (.call3 owns_one ht hl.head hl.tail.head hl.tail.tail.head fun d ht => iteOp_sim hs ht hl.head hl.tail.head hl.tail.tail.head)
    · exact .ub

end
end LBDD
