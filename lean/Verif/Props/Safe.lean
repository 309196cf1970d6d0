import Verif.Spec.Safe
import Verif.Props.System
/-!
# Admissible calls succeed (C83)
-/
namespace LBDD
section
variable {cfg : Cfg} {u : Use} {refs : Nat → Nat} {s : Mgr} {a : Api}

/-! ## The functions of the manager -/

/-- The function returns, or throws because a variable has too many nodes. -/
def Fine (cfg : Cfg) (md : Md) (refs : Nat → Nat) {α : Type} (m : M Mgr α) (s : Mgr) : Prop :=
  match m s with
  | .ok _ _ => True
  | .throw s' => Thrown cfg md refs s s'
  | .assertFail => False
  | .ub => False
  | .hang => False

theorem SpecG.fine {md : Md} {α : Type} {m : M Mgr α} {P : α → Mgr → Prop} (h : SpecG cfg md refs m s P) : Fine cfg md refs m s := by
  unfold SpecG M.Sat at h
  unfold Fine
  split at h <;> simp_all
theorem Spec.fine {md : Md} {α : Type} {m : M Mgr α} {P : α → Mgr → Prop} (h : Spec cfg md refs m s P) : Fine cfg md refs m s := h.toG.fine

theorem Fine.of_ok {md : Md} {α : Type} {m : M Mgr α} {r : α} {s' : Mgr} (e : m s = .ok r s') : Fine cfg md refs m s := by
  unfold Fine; rw [e]; trivial

theorem Fine.map {md : Md} {α β : Type} {m : M Mgr α} (h : Fine cfg md refs m s) (k : α → M Mgr β) (hk : ∀ r s', ∃ b, k r s' = .ok b s') :
    Fine cfg md refs (m >>= k) s := by
  unfold Fine at h ⊢
  cases e : m s with
  | ok r s1 => obtain ⟨b, hb⟩ := hk r s1; rw [M.bind_ok e, hb]; trivial
  | throw s1 =>
    rw [e] at h
    rw [show (m >>= k) s = .throw s1 from by show M.bind m k s = _; unfold M.bind; rw [e]]
    exact h
  | assertFail => rw [e] at h; exact h.elim
  | ub => rw [e] at h; exact h.elim
  | hang => rw [e] at h; exact h.elim

theorem Fine.one {md : Md} {m : M Mgr Nat} (h : Fine cfg md refs m s) : Fine cfg md refs (m >>= fun r => Pure.pure [r]) s := h.map _ fun r _ => ⟨[r], rfl⟩
theorem Fine.zero {md : Md} {α : Type} {m : M Mgr α} (h : Fine cfg md refs m s) : Fine cfg md refs (m >>= fun _ => (Pure.pure [] : M Mgr (List Nat))) s := h.map _ fun _ _ => ⟨[], rfl⟩

theorem len0 {ps : List Nat} (h : ps.length = 0) : ps = [] := List.length_eq_zero_iff.1 h
theorem len1 {ps : List Nat} (h : ps.length = 1) : ∃ p, ps = [p] := List.length_eq_one_iff.1 h
theorem len2 {ps : List Nat} (h : ps.length = 2) : ∃ p q, ps = [p, q] := by
  match ps, h with
  | [p, q], _ => exact ⟨p, q, rfl⟩
theorem len3 {ps : List Nat} (h : ps.length = 3) : ∃ p q r, ps = [p, q, r] := by
  match ps, h with
  | [p, q, r], _ => exact ⟨p, q, r, rfl⟩

/-- Every admissible call of a function returns, or throws because a variable has too many nodes. -/
theorem Fn.run_fine (hi : Inv cfg u.md refs s) (f : Fn) {ps : List Nat} (hps : Anys s.cells ps) (hpre : f.Pre cfg u s ps) (ht : f.Takes ps.length)
    (hs : f.Safe cfg u s ps) : Fine cfg u.md refs (f.run cfg ps) s := by
  cases f with
  | addVariable => obtain rfl := len0 ht; exact (addVariable_ok hi hpre).fine.zero
  | botsink => obtain rfl := len0 ht; exact .of_ok rfl
  | topsink => obtain rfl := len0 ht; exact .of_ok rfl
  | projection v => obtain rfl := len0 ht; exact (projection_ok hi hpre).fine.one
  | negProjection v => obtain rfl := len0 ht; exact (negProjection_ok hi hpre).fine.one
  | uniqueFind v =>
    obtain ⟨l, h, rfl⟩ := len2 ht
    obtain ⟨tl, hl⟩ := hps l (by simp)
    obtain ⟨th, hh⟩ := hps h (by simp)
    refine (mgrUniqueFind_ok hi hpre.1 hl hh ?_).fine.one
    intro ho w hw
    have hu := Use.ordered_iff.1 ho
    rcases hw with hw | hw
    · exact hpre.2 hu l (by simp) w ((occurs_iff hl w).2 hw)
    · exact hpre.2 hu h (by simp) w ((occurs_iff hh w).2 hw)
  | negate => obtain ⟨p, rfl⟩ := len1 ht; exact (negateOp_any hi (hps p (by simp))).fine.one
  | and => obtain ⟨p, q, rfl⟩ := len2 ht; exact (andOp_any s p q hi (hps p (by simp)) (hps q (by simp))).fine.one
  | or => obtain ⟨p, q, rfl⟩ := len2 ht; exact (orOp_any (Use.semIte hpre).toSemOr s p q hi (hps p (by simp)) (hps q (by simp))).fine.one
  | xor => obtain ⟨p, q, rfl⟩ := len2 ht; exact (xorOp_any (Use.semXor hpre).1 (Use.semXor hpre).2 s p q hi (hps p (by simp)) (hps q (by simp))).fine.one
  | ite =>
    obtain ⟨f, g, h, rfl⟩ := len3 ht
    obtain ⟨tf, hf⟩ := hps f (by simp)
    obtain ⟨tg, hg⟩ := hps g (by simp)
    obtain ⟨th, hh⟩ := hps h (by simp)
    refine (iteOp_ok (Use.semIte hpre) hi hf hg hh ?_).fine.one
    rcases hs f g h rfl with hs | hs
    · exact Or.inl fun w hw => hs w ((occurs_iff hf w).2 hw)
    · refine Or.inr fun w hw => hs w ?_
      rcases hw with hw | hw
      · exact Or.inl ((occurs_iff hg w).2 hw)
      · exact Or.inr ((occurs_iff hh w).2 hw)
  | andRange => exact (rangeRec_any andOp_any (ps.length + 1) ps s hpre (by omega) hi hps).fine.one
  | orRange => exact (rangeRec_any (orOp_any (Use.semIte hpre.2).toSemOr) (ps.length + 1) ps s hpre.1 (by omega) hi hps).fine.one
  | xorRange => exact (rangeRec_any (xorOp_any (Use.semXor hpre.2).1 (Use.semXor hpre.2).2) (ps.length + 1) ps s hpre.1 (by omega) hi hps).fine.one
  | andAll => exact (variadic_any andOp_any ps s hpre hi hps).fine.one
  | orAll => exact (variadic_any (orOp_any (Use.semIte hpre.2).toSemOr) ps s hpre.1 hi hps).fine.one
  | xorAll => exact (variadic_any (xorOp_any (Use.semXor hpre.2).1 (Use.semXor hpre.2).2) ps s hpre.1 hi hps).fine.one
  | allFalse => exact (allFalse_any hpre hi hps).fine.one
  | atMostOne => exact (atMostOne_any (Use.semIte hpre.2).toSemOr hpre.1 hi hps).fine.one
  | atLeastOne => exact (atLeastOne_any hpre hi hps).fine.one
  | simplex => exact (simplex_any (Use.semIte hpre.2).toSemOr hpre.1 hi hps).fine.one
  | atLeast b => exact (atLeast_any (Use.semIte hpre.2).toSemOr hpre.1 hi hps).fine.one
  | atMost b => exact (atMost_any (Use.semIte hpre.2).toSemOr hpre.1 hi hps).fine.one
  | cardinality b => exact (cardinality_any (Use.semIte hpre.2).toSemOr hpre.1 hi hps).fine.one
  | rebaseMap m =>
    obtain ⟨p, rfl⟩ := len1 ht
    obtain ⟨t, hp⟩ := hps p (by simp)
    obtain ⟨h1, h2, h3, h4⟩ := hpre p (by simp)
    have hf : ∀ v, t.Mem v → m.lookup v = some ((m.lookup v).getD 0) := by
      intro v hv
      obtain ⟨w, hw⟩ := h2 v ((occurs_iff hp v).2 hv)
      rw [hw]; rfl
    refine (rebaseMap_ok hi hp h1 hf h3 ?_).fine.one
    intro ho v w hv hw hvw
    exact h4 (Use.ordered_iff.1 ho) v w _ _ ((occurs_iff hp v).2 hv) ((occurs_iff hp w).2 hw) hvw (hf v hv) (hf w hw)
  | rebaseVec m =>
    obtain ⟨p, rfl⟩ := len1 ht
    obtain ⟨t, hp⟩ := hps p (by simp)
    obtain ⟨h1, hne, h2, h3, h4⟩ := hpre p (by simp)
    have hf : ∀ v, t.Mem v → m[v]? = some ((m[v]?).getD 0) := by
      intro v hv
      have := h2 v ((occurs_iff hp v).2 hv)
      rw [List.getElem?_eq_getElem this]; rfl
    refine (rebaseVec_ok hi hp h1 hne hf h3 ?_).fine.one
    intro ho v w hv hw hvw
    exact h4 (Use.ordered_iff.1 ho) v w _ _ ((occurs_iff hp v).2 hv) ((occurs_iff hp w).2 hw) hvw (hf v hv) (hf w hw)
  | andLimited n =>
    obtain ⟨f, g, rfl⟩ := len2 ht
    obtain ⟨tf, hf⟩ := hps f (by simp)
    obtain ⟨tg, hg⟩ := hps g (by simp)
    refine (andLimited_ok hs hi hf hg n).fine.map _ ?_
    intro o s1
    match o with
    | none => exact ⟨_, rfl⟩
    | some (r, k) => exact ⟨_, rfl⟩
  | nrNodes =>
    obtain ⟨p, rfl⟩ := len1 ht
    obtain ⟨t, hp⟩ := hps p (by simp)
    obtain ⟨l, _, e⟩ := nrNodes_ok hi hp (.of hi (hpre p (by simp)))
    exact (Fine.of_ok e).zero
  | nodesPostorder =>
    obtain ⟨p, rfl⟩ := len1 ht
    obtain ⟨t, hp⟩ := hps p (by simp)
    obtain ⟨l, e, _⟩ := nodesPostorder_ok hi hp (.of hi (hpre p (by simp)))
    exact .of_ok e
  | nodesBfs =>
    obtain ⟨p, rfl⟩ := len1 ht
    obtain ⟨t, hp⟩ := hps p (by simp)
    obtain ⟨l, e, _⟩ := nodesBfs_ok hi hp (hpre p (by simp))
    exact .of_ok e
  | variables =>
    obtain ⟨p, rfl⟩ := len1 ht
    obtain ⟨t, hp⟩ := hps p (by simp)
    obtain ⟨l, e, _⟩ := variables_ok hi hp
    exact (Fine.of_ok e).zero
  | exactlyOneSolution =>
    obtain ⟨p, rfl⟩ := len1 ht
    obtain ⟨t, hp⟩ := hps p (by simp)
    obtain ⟨b, e⟩ := exactlyOneSolution_same hi hp
    exact (Fine.of_ok e).zero
  | print =>
    obtain ⟨p, rfl⟩ := len1 ht
    obtain ⟨t, hp⟩ := hps p (by simp)
    obtain ⟨l, e, _⟩ := printArcs_ok hi hp
    exact (Fine.of_ok e).zero
  | low =>
    obtain ⟨p, rfl⟩ := len1 ht
    obtain ⟨t, hp⟩ := hps p (by simp)
    exact (Fine.of_ok (lowOf_ok hp (hs p (by simp)))).one
  | high =>
    obtain ⟨p, rfl⟩ := len1 ht
    obtain ⟨t, hp⟩ := hps p (by simp)
    exact (Fine.of_ok (highOf_ok hp (hs p (by simp)))).one
  | refBotsink =>
    obtain ⟨p, rfl⟩ := len1 ht
    obtain ⟨t, hp⟩ := hps p (by simp)
    obtain ⟨q, e, _⟩ := findBddMgr_ok hi hp
    exact (Fine.of_ok e).map _ fun _ _ => ⟨[botId], rfl⟩
  | refTopsink =>
    obtain ⟨p, rfl⟩ := len1 ht
    obtain ⟨t, hp⟩ := hps p (by simp)
    obtain ⟨q, e, _⟩ := findBddMgr_ok hi hp
    exact (Fine.of_ok e).map _ fun _ _ => ⟨[topId], rfl⟩
  | exportBdd c nr =>
    obtain rfl := len0 ht
    obtain ⟨d0, d1, he, hw⟩ := hpre.1
    exact (exportBdd_ok hi hpre.1 he (hs d0 d1 he) (fun ho => hpre.2.2 (Use.ordered_iff.1 ho)) hpre.2.1).fine.one
  | importBdd c nr =>
    obtain rfl := len0 ht
    obtain ⟨d0, d1, he, hw⟩ := hpre.1
    obtain ⟨ho, hd, hm⟩ := hs
    have hu : u = .ordered ∨ u = .unordered := by
      have := hpre.2.2
      cases u <;> simp_all
    exact (mgrAddBdd_ok (Use.orMode hu) hi hpre.1 he ho hpre.2.1 (hd d0 d1 he)).fine.one

/-! ## The steps of the client -/

theorem Good.ends (hg : Good cfg u a) {op : Op} (hl : Legal cfg u a op) (hs : op.Safe cfg u a) : a.Ends (step cfg op a) := by
  cases op with
  | call f is =>
    obtain ⟨ps, e1, ht, hf⟩ := hs
    have hfine := Fn.run_fine hg f (hg.args e1) (hl ps e1) ht hf
    simp only [LBDD.step]
    rw [M.get_bind_apply, e1]
    show a.Ends ((onMgr (f.run cfg ps) >>= pushHandles) a)
    unfold Fine at hfine
    cases e2 : f.run cfg ps a.mgr with
    | ok rs s1 =>
      have e3 : onMgr (f.run cfg ps) a = .ok rs { a with mgr := s1 } := by unfold onMgr; rw [e2]
      rw [M.bind_ok e3]
      obtain ⟨_, i, an⟩ := Fn.run_lib hg f ps (hg.args e1) (hl ps e1) rs _ e2
      obtain ⟨a2, e6, _⟩ := pushHandles_good (cfg := cfg) (u := u) rs (a := { a with mgr := s1 }) i an
      rw [e6]; trivial
    | throw s1 =>
      rw [e2] at hfine
      have e3 : onMgr (f.run cfg ps) a = .throw { a with mgr := s1 } := by unfold onMgr; rw [e2]
      rw [show (onMgr (f.run cfg ps) >>= pushHandles) a = .throw { a with mgr := s1 } from by
        show M.bind _ _ _ = _; unfold M.bind; rw [e3]]
      exact ⟨hfine.full, rfl⟩
    | assertFail => rw [e2] at hfine; exact hfine.elim
    | ub => rw [e2] at hfine; exact hfine.elim
    | hang => rw [e2] at hfine; exact hfine.elim
  | copy i =>
    obtain ⟨o, e1⟩ : ∃ o, a.hs[i]? = some o := ⟨_, List.getElem?_eq_getElem hs⟩
    simp only [LBDD.step]
    rw [M.get_bind_apply, e1]
    cases o with
    | none => trivial
    | some p =>
      obtain ⟨a1, e2, _⟩ := pushHandle_good hg (hg.any (List.mem_of_getElem? e1))
      show a.Ends (pushHandle p a)
      rw [e2]; trivial
  | move i =>
    obtain ⟨o, e1⟩ : ∃ o, a.hs[i]? = some o := ⟨_, List.getElem?_eq_getElem hs⟩
    simp only [LBDD.step]
    rw [M.get_bind_apply, e1]
    trivial
  | assign i j =>
    obtain ⟨oi, e1⟩ : ∃ o, a.hs[i]? = some o := ⟨_, List.getElem?_eq_getElem hs.1⟩
    obtain ⟨oj, e2⟩ : ∃ o, a.hs[j]? = some o := ⟨_, List.getElem?_eq_getElem hs.2⟩
    simp only [LBDD.step]
    rw [M.get_bind_apply, e1, e2]
    have h1 : ∀ o a, ∃ a', onMgr (optM o releaseNoAssert) a = .ok () a' := by
      intro o a; cases o <;> exact ⟨_, rfl⟩
    have h2 : ∀ o a, ∃ a', onMgr (optM o acquire) a = .ok () a' := by
      intro o a; cases o <;> exact ⟨_, rfl⟩
    obtain ⟨a1, f1⟩ := h1 oi a
    obtain ⟨a2, f2⟩ := h2 oj a1
    dsimp only
    rw [M.bind_ok f1, M.bind_ok f2]
    trivial
  | drop i =>
    obtain ⟨o, e1⟩ : ∃ o, a.hs[i]? = some o := ⟨_, List.getElem?_eq_getElem hs⟩
    simp only [LBDD.step]
    rw [M.get_bind_apply, e1]
    cases o with
    | none => trivial
    | some p =>
      obtain ⟨s1, h1, _⟩ := release_ok hg (count_pos e1)
      dsimp only
      rw [M.bind_ok (show onMgr (optM (some p) (release cfg)) a = .ok () { a with mgr := s1 } by
        unfold onMgr; rw [show optM (some p) (release cfg) a.mgr = .ok () s1 from h1])]
      trivial
  | gc =>
    obtain ⟨s', e, _⟩ := gc_good hg hl
    rw [e]; trivial

/-- C83, steps on the manager and on handles. -/
theorem C83_progress_partial (hR : Reachable cfg u a) {op : Op} (hl : Legal cfg u a op) (hs : op.Safe cfg u a) : a.Ends (step cfg op a) :=
  hR.good.ends hl hs

/-! ## The conditions are needed -/

theorem Fn.takes_or (f : Fn) (ps : List Nat) : f.Takes ps.length ∨ f.run cfg ps = M.ub := by
  cases f <;> (rcases ps with _ | ⟨p, _ | ⟨q, _ | ⟨r, _ | ⟨w, ps⟩⟩⟩⟩ <;> first | exact Or.inl rfl | exact Or.inl trivial | exact Or.inr rfl)

theorem lowOf_sink_ub {md : Md} (hi : Inv cfg md refs s) {p : Nat} (h : p < 2) : lowOf p s = .ub := by
  unfold lowOf
  rw [M.get_bind_apply]
  have : topsinkIndex ≤ (s.cells p).index := by
    have : p = 0 ∨ p = 1 := by omega
    rcases this with rfl | rfl
    · rw [hi.bot.1]; decide
    · rw [hi.top.1]; exact Nat.le_refl _
  simp only [this, decide_true, Bool.or_true, if_true]
  rfl

theorem highOf_sink_ub {md : Md} (hi : Inv cfg md refs s) {p : Nat} (h : p < 2) : highOf p s = .ub := by
  unfold highOf
  rw [M.get_bind_apply]
  have : topsinkIndex ≤ (s.cells p).index := by
    have : p = 0 ∨ p = 1 := by omega
    rcases this with rfl | rfl
    · rw [hi.bot.1]; decide
    · rw [hi.top.1]; exact Nat.le_refl _
  simp only [this, decide_true, Bool.or_true, if_true]
  rfl

theorem assert_or {σ β : Type} {nd b : Bool} {f : Unit → M σ β} {s : σ} : (M.assert nd b >>= f) s = .assertFail ∨ (M.assert nd b >>= f) s = f () s := by
  show M.bind _ _ _ = _ ∨ M.bind _ _ _ = _
  unfold M.bind M.assert
  by_cases h : (nd || b) = true
  · rw [if_pos h]; exact Or.inr rfl
  · rw [if_neg h]; exact Or.inl rfl

theorem exportBdd_small_fails {c : Coll} {nr d0 d1 : Nat} (he : c.Entry nr d0 d1) (hb : ¬ d0 + 2 < d1) : exportBdd cfg c nr s = .ub ∨ exportBdd cfg c nr s = .assertFail := by
  unfold exportBdd
  rcases assert_or (nd := cfg.ndebug) (b := decide (nr < c.nrBdds)) (s := s) with h | h
  · exact Or.inr h
  rw [h]
  rw [M.bind_ok (show dlmOf c (nr + 1) s = .ok d1 s by unfold dlmOf; rw [he.2]),
    M.bind_ok (show dlmOf c nr s = .ok d0 s by unfold dlmOf; rw [he.1])]
  have h0 : d1 - 2 - d0 = 0 := by omega
  rw [h0]
  rcases assert_or (nd := cfg.ndebug) (b := decide (2 < d1 - d0)) (s := s) with h | h
  · exact Or.inr h
  rw [h]
  rcases assert_or (nd := cfg.ndebug) (b := (c.ins[d1 - 2]?).any (·.isTerm)) (s := s) with h | h
  · exact Or.inr h
  rw [h]
  rcases assert_or (nd := cfg.ndebug) (b := (c.ins[d1 - 1]?).any (·.isTerm)) (s := s) with h | h
  · exact Or.inr h
  rw [h]
  rw [M.bind_ok (show exportLoop cfg c d0 d1 0 [] s = .ok [] s from rfl)]
  rcases assert_or (nd := cfg.ndebug) (b := false) (s := s) (f := fun _ => (M.ub : M Mgr Nat)) with h | h
  · exact Or.inr h
  · exact Or.inl h

/-- The functions for which `Fn.Safe` is sufficient, but not always necessary. -/
def Fn.Delicate : Fn → Prop
  | .ite => True
  | .andLimited _ => True
  | .importBdd _ _ => True
  | _ => False

theorem bind_ub {σ α β : Type} {m : M σ α} {f : α → M σ β} {s : σ} (e : m s = .ub) : (m >>= f) s = .ub := by
  show M.bind _ _ _ = _; unfold M.bind; rw [e]
theorem bind_assertFail {σ α β : Type} {m : M σ α} {f : α → M σ β} {s : σ} (e : m s = .assertFail) : (m >>= f) s = .assertFail := by
  show M.bind _ _ _ = _; unfold M.bind; rw [e]

theorem Fn.run_unsafe {md : Md} (hi : Inv cfg md refs s) {f : Fn} (hd : ¬ f.Delicate) {ps : List Nat} (hs : ¬ (f.Takes ps.length ∧ f.Safe cfg u s ps)) :
    f.run cfg ps s = .ub ∨ f.run cfg ps s = .assertFail := by
  rcases Fn.takes_or (cfg := cfg) f ps with ht | hu
  · have hs : ¬ f.Safe cfg u s ps := fun h => hs ⟨ht, h⟩
    cases f with
    | ite => exact absurd trivial hd
    | andLimited _ => exact absurd trivial hd
    | importBdd _ _ => exact absurd trivial hd
    | low =>
      obtain ⟨p, rfl⟩ := len1 ht
      refine Or.inl (bind_ub (lowOf_sink_ub hi ?_))
      refine Classical.byContradiction fun h => hs fun q hq => ?_
      obtain rfl := List.mem_singleton.1 hq
      omega
    | high =>
      obtain ⟨p, rfl⟩ := len1 ht
      refine Or.inl (bind_ub (highOf_sink_ub hi ?_))
      refine Classical.byContradiction fun h => hs fun q hq => ?_
      obtain rfl := List.mem_singleton.1 hq
      omega
    | exportBdd c nr =>
      obtain rfl := len0 ht
      obtain ⟨d0, d1, he, hb⟩ : ∃ d0 d1, c.Entry nr d0 d1 ∧ ¬ d0 + 2 < d1 := by
        refine Classical.byContradiction fun h => hs fun d0 d1 he => ?_
        exact Classical.byContradiction fun h' => h ⟨d0, d1, he, h'⟩
      rcases exportBdd_small_fails (cfg := cfg) (s := s) he hb with h | h
      · exact Or.inl (bind_ub h)
      · exact Or.inr (bind_assertFail h)
    | _ => exact absurd trivial hs
  · exact Or.inl (by rw [hu]; rfl)

/-- C83: except for `ite_rec`, `and_rec` with a limit, `add_bdd` of a collection and garbage collection, a step that is not safe always fails. -/
theorem C83_needed (hR : Reachable cfg u a) {op : Op} (hd : ∀ f is, op = .call f is → ¬ f.Delicate) (hs : ¬ op.Safe cfg u a) :
    step cfg op a = .ub ∨ step cfg op a = .assertFail := by
  cases op with
  | call f is =>
    simp only [LBDD.step]
    rw [M.get_bind_apply]
    cases e1 : a.args is with
    | none => exact Or.inl rfl
    | some ps =>
      have h := Fn.run_unsafe (u := u) hR.good (hd f is rfl) (ps := ps) fun h => hs ⟨ps, e1, h⟩
      dsimp only
      rcases h with h | h
      · exact Or.inl (bind_ub (by unfold onMgr; rw [h]))
      · exact Or.inr (bind_assertFail (by unfold onMgr; rw [h]))
  | copy i =>
    have : a.hs[i]? = none := List.getElem?_eq_none (Nat.le_of_not_lt hs)
    simp only [LBDD.step]
    rw [M.get_bind_apply, this]; exact Or.inl rfl
  | move i =>
    have : a.hs[i]? = none := List.getElem?_eq_none (Nat.le_of_not_lt hs)
    simp only [LBDD.step]
    rw [M.get_bind_apply, this]; exact Or.inl rfl
  | drop i =>
    have : a.hs[i]? = none := List.getElem?_eq_none (Nat.le_of_not_lt hs)
    simp only [LBDD.step]
    rw [M.get_bind_apply, this]; exact Or.inl rfl
  | assign i j =>
    simp only [LBDD.step]
    rw [M.get_bind_apply]
    cases e1 : a.hs[i]? with
    | none => exact Or.inl rfl
    | some oi =>
      cases e2 : a.hs[j]? with
      | none => exact Or.inl rfl
      | some oj => exact absurd ⟨(List.getElem?_eq_some_iff.1 e1).1, (List.getElem?_eq_some_iff.1 e2).1⟩ hs
  | gc => exact absurd trivial hs

/-! ## Calls of the collection -/
variable {c : Coll}

/-- What a conjunction does, if it succeeds. -/
theorem and_ok {l : List Nat} {run : Cfg → Nat → Res Coll (Option Nat)} (h : ∃ K c' t, Anded c c' K l t ∧ AndSpec c K c' run) {limit : Nat}
    (hs : cfg.ndebug = true ∨ (2 < limit ∧ Satisfiable cfg c l ∧ Refutable cfg c l)) : ∃ r c', run cfg limit = .ok r c' := by
  rcases hs with hn | ⟨hl, h1, h2⟩
  · obtain ⟨K, c', t, _, hA⟩ := h
    rw [hA cfg limit]
    simp only [hn, Bool.true_eq_false, false_and, if_false]
    split
    · exact ⟨_, _, rfl⟩
    · exact ⟨_, _, rfl⟩
  · obtain ⟨K, c', hr, _⟩ := and_core h h1 (Or.inr h2)
    rw [hr limit hl]
    split
    · exact ⟨_, _, rfl⟩
    · exact ⟨_, _, rfl⟩

/-- C83, calls of the collection: they succeed. -/
theorem C83_coll_partial (hC : CReachable cfg c) {op : COp} (hl : op.Legal cfg c) (hs : op.Safe cfg c) : ∃ r c', op.call cfg c = .ok r c' := by
  cases op with
  | and i j limit => exact and_ok (and2 hC hl.1 hl.2) hs
  | andRange l limit =>
    obtain ⟨h1, h2, h3⟩ := hs
    match l, h1 with
    | [i], _ => exact ⟨_, _, (C44_other_lengths (cfg := cfg) (l := []) limit).1 i⟩
    | i :: j :: l, _ =>
      exact and_ok (andN hC hl (by simp) h2) (h3.resolve_left (by simp))
  | rebaseVec nr m =>
    obtain ⟨c1, e1, _⟩ := cRebase_ok (cfg := cfg) hC.inv hl.1 hl.2
    exact ⟨_, _, M.bind_ok e1⟩
  | rebaseMap nr m =>
    obtain ⟨c1, e1, _⟩ := cRebase_ok (cfg := cfg) hC.inv hl.1 hl.2
    exact ⟨_, _, M.bind_ok e1⟩
  | remove l =>
    rcases hs with rfl | hin
    · exact ⟨_, _, M.bind_ok C47_remove_nothing⟩
    · have hlast := last_of_sorted hl.1 hin fun i hi => by have := hl.2.1 i hi; omega
      obtain ⟨c1, f1, _⟩ := C47_remove_partial hC hl hlast
      exact ⟨_, _, M.bind_ok f1⟩
  | orVar i pos neg =>
    obtain ⟨c1, f1, _⟩ := C50_paths (cfg := cfg) hC hl.1 hl.2
    exact ⟨_, _, M.bind_ok f1⟩

theorem and_fails {l : List Nat} {run : Cfg → Nat → Res Coll (Option Nat)} (h : ∃ K c' t, Anded c c' K l t ∧ AndSpec c K c' run) (hC : CReachable cfg c)
    (hl : ∀ i ∈ l, i < c.nrBdds) (ho : ∀ i ∈ l, c.Ordered i) {limit : Nat} (hs : ¬ (cfg.ndebug = true ∨ (2 < limit ∧ Satisfiable cfg c l ∧ Refutable cfg c l))) :
    run cfg limit = .assertFail := by
  have hn : cfg.ndebug = false := by
    cases e : cfg.ndebug with
    | false => rfl
    | true => exact absurd (Or.inl e) hs
  by_cases h2 : 2 < limit
  · by_cases h1 : Satisfiable cfg c l
    · obtain ⟨K, c', t, ha, hA⟩ := h
      obtain ⟨N, hN⟩ := cover_all c
      have htop : t = .top := by
        refine Tree.eq_of_eval (ha.ordered ho) trivial ha.treeRed trivial ?_
        intro y
        have hcov : ∀ i ∈ l, CCovers c i (toList N y) := fun i _ => hN _ i (by rw [toList_length]; exact Nat.le_refl _)
        have : t.eval (asg (toList N y)) = t.eval y := Tree.eval_congr (fun v hv => asg_toList (by
          have := ha.covers hcov v hv
          rwa [toList_length] at this))
        rw [← this]
        refine (ha.conj cfg _ hcov).2 fun i hi => ?_
        rcases eval_true_or_false hC (hl i hi) (hcov i hi) with e | e
        · exact e
        · exact absurd (Or.inr ⟨h2, h1, _, hcov, i, hi, e⟩) hs
      have hK : K = 2 := by
        refine Classical.byContradiction fun h => ?_
        exact (ha.big h).2.2.2 htop
      rw [hA cfg limit, if_neg (by omega), if_pos (Or.inr hK), if_pos ⟨hn, hK⟩]
    · obtain ⟨c', h3, _⟩ := contradiction_core h ho h1
      rw [h3 limit h2, hn]; rfl
  · obtain ⟨K, c', t, _, hA⟩ := h
    rw [hA cfg limit, if_pos ⟨hn, by omega⟩]

/-- C83: a call of the collection that is not safe always fails, if the entries respect the variable order (without that, the conjunction of two BDDs may be
contradictory without being the false sink). -/
theorem C83_coll_needed (hC : CReachable cfg c) (ho : ∀ i, i < c.nrBdds → c.Ordered i) {op : COp} (hl : op.Legal cfg c) (hs : ¬ op.Safe cfg c) :
    op.call cfg c = .throw c ∨ op.call cfg c = .ub ∨ op.call cfg c = .assertFail := by
  cases op with
  | and i j limit =>
    have hl' : ∀ k ∈ [i, j], k < c.nrBdds := by intro k hk; simp at hk; rcases hk with rfl | rfl <;> first | exact hl.1 | exact hl.2
    exact Or.inr (Or.inr (and_fails (and2 hC hl.1 hl.2) hC hl' (fun k hk => ho k (hl' k hk)) hs))
  | andRange l limit =>
    match l, hl, hs with
    | [], _, _ => exact Or.inl rfl
    | [i], _, hs => exact absurd ⟨by simp, by simp, Or.inl rfl⟩ hs
    | i :: j :: l, hl, hs =>
      by_cases h49 : (i :: j :: l).length ≤ 49
      · exact Or.inr (Or.inr (and_fails (andN hC hl (by simp) h49) hC hl (fun k hk => ho k (hl k hk)) fun h => hs ⟨by simp, h49, Or.inr h⟩))
      · exact Or.inl ((C44_other_lengths (cfg := cfg) (l := i :: j :: l) limit).2.2 (by omega))
  | rebaseVec nr m => exact absurd trivial hs
  | rebaseMap nr m => exact absurd trivial hs
  | remove l =>
    rcases C47_remove_other hC hl (fun h => hs (Or.inl h)) (fun h => hs (Or.inr h)) with h | h
    · exact Or.inr (Or.inl (bind_ub h))
    · exact Or.inr (Or.inr (bind_assertFail h))
  | orVar i pos neg => exact absurd trivial hs

/-! ## A manager and a collection -/
variable {S : Sys} {T : SStore}

/-- C83, a manager and a collection: every admissible step succeeds, or throws because a variable has more than 2^18 nodes. -/
theorem C83_system_partial (hR : Reachable cfg u S.api) (hC : CReachable cfg S.coll) {op : SOp} (hl : op.Legal cfg u S) (hs : op.Safe cfg u S) :
    (∃ S' r, Sys.Does cfg S S' op r) ∨ S.Full cfg op := by
  have key : ∀ mop, Legal cfg u S.api mop → mop.Safe cfg u S.api → (∃ a', step cfg mop S.api = .ok () a') ∨
      ∃ a', step cfg mop S.api = .throw a' ∧ TableFull a'.mgr ∧ a'.hs = S.api.hs := by
    intro mop h1 h2
    have h := C83_progress_partial hR h1 h2
    cases e : step cfg mop S.api with
    | ok _ a' => exact Or.inl ⟨a', rfl⟩
    | throw a' => rw [e] at h; exact Or.inr ⟨a', rfl, h⟩
    | assertFail => rw [e] at h; exact h.elim
    | ub => rw [e] at h; exact h.elim
    | hang => rw [e] at h; exact h.elim
  cases op with
  | mgr op =>
    rcases key op hl hs with ⟨a', e⟩ | ⟨a', e⟩
    · exact Or.inl ⟨⟨a', S.coll⟩, none, rfl, e, rfl⟩
    · exact Or.inr ⟨op, a', rfl, e⟩
  | exportEntry nr =>
    have hl : Legal cfg u S.api (.call (.exportBdd S.coll nr) []) := hl
    rcases key _ hl hs with ⟨a', e⟩ | ⟨a', e⟩
    · exact Or.inl ⟨⟨a', S.coll⟩, none, rfl, e, rfl⟩
    · exact Or.inr ⟨_, a', rfl, e⟩
  | importEntry nr =>
    have hl : Legal cfg u S.api (.call (.importBdd S.coll nr) []) := hl
    rcases key _ hl hs with ⟨a', e⟩ | ⟨a', e⟩
    · exact Or.inl ⟨⟨a', S.coll⟩, none, rfl, e, rfl⟩
    · exact Or.inr ⟨_, a', rfl, e⟩
  | add i =>
    obtain ⟨p, hp⟩ := hs
    obtain ⟨c', k, e1, _⟩ := C39_add_bdd hR hC (List.mem_of_getElem? hp) (hl p hp)
    exact Or.inl ⟨⟨S.api, c'⟩, _, p, _, _, hp, e1, rfl, rfl⟩
  | coll op =>
    obtain ⟨r, c', e⟩ := C83_coll_partial hC hl hs
    exact Or.inl ⟨⟨S.api, c'⟩, r, e, rfl⟩

/-- C83 with C82: every admissible step does what the specification says (total correctness). -/
theorem C83_total_partial (hu : u ≠ .mixed) {h : List (SOp × Option Nat)} (hh : SHistory cfg u h S) (hT : SLooks cfg S T) {op : SOp} (hl : op.Legal cfg u S)
    (hs : op.Safe cfg u S) :
    (∃ S' r T', Sys.Does cfg S S' op r ∧ SStore.Step cfg (u = .ordered) T T' op r ∧ SLooks cfg S' T') ∨ S.Full cfg op := by
  obtain ⟨hR, hC⟩ := hh.reachable
  rcases C83_system_partial hR hC hl hs with ⟨S', r, d⟩ | hf
  · obtain ⟨T', h1, h2⟩ := C82_step_partial hu hR hC hT hl d
    exact Or.inl ⟨S', r, T', d, h1, h2⟩
  · exact Or.inr hf

/-! ## Concrete cases -/

theorem sysDemo_args (nd : Bool) : (sysDemo nd).api.args [0, 1, 2] = some [2, 3, 4] := by cases nd <;> decide +kernel

/-- Entry `nr` of the collection evaluates to `b` at `x`. -/
def cEvalsB (cfg : Cfg) (c : Coll) (nr : Nat) (x : List Bool) (b : Bool) : Bool :=
  match cEvaluate cfg c nr x with
  | .ok r _ => r == b
  | _ => false

theorem cEvalsB_sound {nr : Nat} {x : List Bool} {b : Bool} (h : cEvalsB cfg c nr x b = true) : cEvaluate cfg c nr x = .ok b () := by
  unfold cEvalsB at h
  split at h
  · rename_i r _ e
    rw [e, eq_of_beq h]
  · cases h

theorem sysDemo_nrBdds (nd : Bool) : (sysDemo nd).coll.nrBdds = 3 := by cases nd <;> decide +kernel

theorem sysDemo_vars (nd : Bool) : ∀ i, i < 3 → ∀ v, (sysDemo nd).coll.Var i v → v < 4 := by
  intro i hi v hv
  match i, hi with
  | 0, _ => exact Coll.varsB_sound (by cases nd <;> decide +kernel) hv
  | 1, _ => exact Coll.varsB_sound (by cases nd <;> decide +kernel) hv
  | 2, _ => exact Coll.varsB_sound (by cases nd <;> decide +kernel) hv

/-- The demo client meets the hypotheses with a call of the manager (`simplex` of three handles) and with a conjunction in the collection. -/
theorem C83_concrete (nd : Bool) : SHistory (envOf nd) .ordered sysHist (sysDemo nd) ∧
    (SOp.mgr (.call .simplex [0, 1, 2])).Legal (envOf nd) .ordered (sysDemo nd) ∧ (SOp.mgr (.call .simplex [0, 1, 2])).Safe (envOf nd) .ordered (sysDemo nd) ∧
    (SOp.coll (.and 0 1 10)).Legal (envOf nd) .ordered (sysDemo nd) ∧ (SOp.coll (.and 0 1 10)).Safe (envOf nd) .ordered (sysDemo nd) := by
  have hcov : ∀ x : List Bool, 4 ≤ x.length → ∀ i ∈ [0, 1], CCovers (sysDemo nd).coll i x := by
    intro x hx i hi v hv
    have : i < 3 := by simp at hi; omega
    have := sysDemo_vars nd i this v hv
    omega
  refine ⟨sysDemo_history nd, fun ps' h => ?_, ⟨_, sysDemo_args nd, trivial, trivial⟩, ?_, Or.inr ⟨by omega, ?_, ?_⟩⟩
  · rw [sysDemo_args] at h; cases h
    exact ⟨by decide, by decide⟩
  · rw [show (SOp.coll (.and 0 1 10)).Legal (envOf nd) .ordered (sysDemo nd) = (0 < (sysDemo nd).coll.nrBdds ∧ 1 < (sysDemo nd).coll.nrBdds) from rfl, sysDemo_nrBdds]
    exact ⟨by omega, by omega⟩
  · refine ⟨[true, true, true, true], hcov _ (by simp), fun i hi => ?_⟩
    simp only [List.mem_cons, List.not_mem_nil, or_false] at hi
    rcases hi with rfl | rfl
    · exact cEvalsB_sound (by cases nd <;> decide +kernel)
    · exact cEvalsB_sound (by cases nd <;> decide +kernel)
  · exact ⟨[false, false, false, false], hcov _ (by simp), 0, by simp, cEvalsB_sound (by cases nd <;> decide +kernel)⟩

/-- One variable; handles to `x0`, `¬x0` and `false`. -/
def unsafeDemo (nd : Bool) : Api := stateAfter (envOf nd) .ordered [.call (.projection 0) [], .call (.negProjection 0) [], .call .botsink []]

theorem unsafeDemo_args (nd : Bool) : (unsafeDemo nd).args [0, 2, 1] = some [2, 0, 3] := by cases nd <;> decide +kernel

/-- Undefined behaviour. -/
def stepUb (cfg : Cfg) (op : Op) (a : Api) : Bool := match step cfg op a with | .ub => true | _ => false

theorem stepUb_sound {op : Op} (h : stepUb cfg op a = true) : step cfg op a = .ub := by
  unfold stepUb at h
  split at h
  · assumption
  · cases h

/-- Without the extra conditions C83 is false: `ite_rec(x0, false, ¬x0)` meets every documented precondition and is undefined behaviour. -/
theorem C83_refuted (nd : Bool) : Reachable (envOf nd) .ordered (unsafeDemo nd) ∧ Legal (envOf nd) .ordered (unsafeDemo nd) (.call .ite [0, 2, 1]) ∧
    (∃ ps, (unsafeDemo nd).args [0, 2, 1] = some ps ∧ Fn.ite.Takes ps.length) ∧ step (envOf nd) (.call .ite [0, 2, 1]) (unsafeDemo nd) = .ub :=
  ⟨stateAfter_reachable _ _ _, fun ps _ => by show Use.ordered ≠ .parity; decide, ⟨_, unsafeDemo_args nd, rfl⟩, stepUb_sound (by cases nd <;> decide +kernel)⟩

end
end LBDD
