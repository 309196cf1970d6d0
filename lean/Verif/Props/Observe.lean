import Verif.Props.Store
import Verif.Props.Handle
import Verif.Props.CollDemo
import Verif.Props.Twin
import Verif.Spec.Query
/-! C85: the answers of the library to all questions about handles are determined by the functions of the handles. -/
namespace LBDD
section
variable {cfg : Cfg} {a : Api} {S : Store}

theorem onSlot_ok {α : Type} {i p : Nat} {m : Nat → M Mgr α} {r : α} (h : a.hs[i]? = some (some p)) (e : m p a.mgr = .ok r a.mgr) : onSlot i m a = .ok r a := by
  unfold onSlot
  rw [M.get_bind_apply, h]
  show onMgr (m p) a = _
  unfold onMgr
  rw [e]

theorem evaluateM_ok {s : Mgr} {p : Nat} {x : List Bool} {b : Bool} (e : evaluate cfg s p x = .ok b ()) : evaluateM cfg x p s = .ok b s := by
  unfold evaluateM
  rw [e]

/-- A slot of the store that is not null is a handle. -/
theorem Looks.handle (h : Looks cfg a S) {i : Nat} {F : BoolFn} (hF : S.slots[i]? = some (some F)) : ∃ p, a.hs[i]? = some (some p) ∧ Denotes cfg a.mgr p F := by
  have hl : i < a.hs.length := by rw [h.len]; exact (List.getElem?_eq_some_iff.1 hF).1
  have e := List.getElem?_eq_getElem hl
  have := h.slot i _ _ e hF
  cases e1 : a.hs[i] with
  | none => rw [e1] at this; exact this.elim
  | some p => rw [e1] at e this; exact ⟨p, e, this⟩

theorem const_iff (hR : Reachable cfg .ordered a) {p : Nat} {F : BoolFn} (hp : a.Holds p) (dF : Denotes cfg a.mgr p F) : (p = botId ∨ p = topId) ↔ ConstFn a.mgr.nvars F := by
  obtain ⟨h1, h2⟩ := C66_constants_partial hR hp dF
  constructor
  · rintro (e | e) x y hx hy
    · rw [h1.1 e x hx, h1.1 e y hy]
    · rw [h2.1 e x hx, h2.1 e y hy]
  · intro hc
    have hx0 : a.mgr.nvars ≤ (List.replicate a.mgr.nvars false).length := by simp
    cases e : F (List.replicate a.mgr.nvars false) with
    | false => exact Or.inl (h1.2 fun x hx => (hc x _ hx hx0).trans e)
    | true => exact Or.inr (h2.2 fun x hx => (hc x _ hx hx0).trans e)

/-- **C85** The library answers every admissible question, the answer is the right one, and asking changes nothing. -/
theorem C85_answers (hR : Reachable cfg .ordered a) (h : Looks cfg a S) {q : Query} (hq : q.Legal cfg S) : ∃ r, q.run cfg a = .ok r a ∧ q.Right S r := by
  have hn := h.nvars
  cases q with
  | nrVariables => exact ⟨_, rfl, by show Answer.num a.mgr.nvars = _; rw [hn]⟩
  | evaluate i x =>
    obtain ⟨⟨F, hF⟩, hx⟩ := hq
    obtain ⟨p, hp, dF⟩ := h.handle hF
    refine ⟨.bool (F x), ?_, F, hF, rfl⟩
    show (onSlot i (evaluateM cfg x) >>= fun b => Pure.pure (Answer.bool b)) a = _
    rw [M.bind_ok (onSlot_ok hp (evaluateM_ok (dF x (by unfold Covers; omega))))]
    rfl
  | equal i j =>
    obtain ⟨hi, hj⟩ := hq
    have ei := List.getElem?_eq_getElem hi
    have ej := List.getElem?_eq_getElem hj
    have li : i < a.hs.length := by rw [h.len]; exact hi
    have lj : j < a.hs.length := by rw [h.len]; exact hj
    have di := List.getElem?_eq_getElem li
    have dj := List.getElem?_eq_getElem lj
    have si := h.slot i _ _ di ei
    have sj := h.slot j _ _ dj ej
    refine ⟨.bool (a.hs[i] == a.hs[j]), ?_, S.slots[i], S.slots[j], _, ei, ej, rfl, ?_⟩
    · show (M.get >>= fun a => _) a = _
      rw [M.get_bind_apply, di, dj]; rfl
    · rw [beq_iff_eq]
      generalize a.hs[i] = o at *
      generalize a.hs[j] = o' at *
      generalize S.slots[i] = w at *
      generalize S.slots[j] = w' at *
      match o, w, o', w', si, sj with
      | none, none, none, none, _, _ => simp
      | some p, some F, none, none, _, _ => simp
      | none, none, some p, some F, _, _ => simp
      | some p, some F, some q, some G, _, _ =>
        have := C81_equal_partial hR h di dj ei ej
        simp only [Option.some.injEq, this]
        constructor
        · intro hs; exact Or.inr ⟨F, G, rfl, rfl, hs⟩
        · rintro (⟨e, _⟩ | ⟨F', G', rfl, rfl, hs⟩)
          · cases e
          · exact hs
  | isBotsink i =>
    obtain ⟨F, hF⟩ := hq
    obtain ⟨p, hp, dF⟩ := h.handle hF
    have hh : a.Holds p := List.mem_of_getElem? hp
    refine ⟨.bool (decide (p = botId)), ?_, F, _, hF, rfl, ?_⟩
    · show (onSlot i (isBot cfg) >>= fun b => Pure.pure (Answer.bool b)) a = _
      rw [M.bind_ok (onSlot_ok hp (C65_sinks hR hh).1)]; rfl
    · rw [decide_eq_true_iff, (C66_constants_partial hR hh dF).1, ← hn]; rfl
  | isTopsink i =>
    obtain ⟨F, hF⟩ := hq
    obtain ⟨p, hp, dF⟩ := h.handle hF
    have hh : a.Holds p := List.mem_of_getElem? hp
    refine ⟨.bool (decide (p = topId)), ?_, F, _, hF, rfl, ?_⟩
    · show (onSlot i (isTop cfg) >>= fun b => Pure.pure (Answer.bool b)) a = _
      rw [M.bind_ok (onSlot_ok hp (C65_sinks hR hh).2.1)]; rfl
    · rw [decide_eq_true_iff, (C66_constants_partial hR hh dF).2, ← hn]; rfl
  | isTerminal i =>
    obtain ⟨F, hF⟩ := hq
    obtain ⟨p, hp, dF⟩ := h.handle hF
    have hh : a.Holds p := List.mem_of_getElem? hp
    refine ⟨.bool (decide (p = botId ∨ p = topId)), ?_, F, _, hF, rfl, ?_⟩
    · show (onSlot i (isTerm cfg) >>= fun b => Pure.pure (Answer.bool b)) a = _
      rw [M.bind_ok (onSlot_ok hp (C65_sinks hR hh).2.2)]; rfl
    · rw [decide_eq_true_iff, const_iff hR hh dF, ← hn]
  | topVariable i =>
    obtain ⟨F, hF, hc⟩ := hq
    obtain ⟨p, hp, dF⟩ := h.handle hF
    have hh : a.Holds p := List.mem_of_getElem? hp
    rw [← hn, ← const_iff hR hh dF] at hc
    obtain ⟨v, l, r, L, H, e1, _, _, hv, _⟩ := C65_walk hR hh (fun e => hc (Or.inl e)) (fun e => hc (Or.inr e)) dF
    obtain ⟨v', _, _, e1', _, _, _, _, d1, d2⟩ := C65_cofactors hR hh (fun e => hc (Or.inl e)) (fun e => hc (Or.inr e)) dF
    rw [e1] at e1'
    cases e1'
    refine ⟨.num v, ?_, F, v, hF, rfl, ?_⟩
    · show (onSlot i nodeVar >>= fun b => Pure.pure (Answer.num b)) a = _
      rw [M.bind_ok (onSlot_ok hp e1)]; rfl
    · rw [← hn]; exact ⟨hv, d1, d2⟩
  | nrNodes i =>
    obtain ⟨F, hF, hs⟩ := hq
    obtain ⟨p, hp, dF⟩ := h.handle hF
    have hh : a.Holds p := List.mem_of_getElem? hp
    rw [← hn, ← const_iff hR hh dF] at hs
    have hs' : SinkOk cfg ∨ 2 ≤ p := hs.imp id fun hc => by
      have h0 : p ≠ 0 := fun e => hc (Or.inl e)
      have h1 : p ≠ 1 := fun e => hc (Or.inr e)
      omega
    obtain ⟨⟨Gs, hG⟩, hk⟩ := C80_nr_nodes hR hh dF hs'
    refine ⟨.num Gs.length, ?_, F, Gs, hF, hn ▸ hG, rfl⟩
    show (onSlot i (LBDD.nrNodes cfg) >>= fun b => Pure.pure (Answer.num b)) a = _
    rw [M.bind_ok (onSlot_ok hp (hk Gs hG))]; rfl
  | variables i =>
    obtain ⟨F, hF⟩ := hq
    obtain ⟨p, hp, dF⟩ := h.handle hF
    have hh : a.Holds p := List.mem_of_getElem? hp
    obtain ⟨l, e, h1, h2⟩ := C27_variables_support hR hh dF
    refine ⟨.list l, ?_, F, l, hF, rfl, h1, ?_⟩
    · show (onSlot i (LBDD.variables cfg) >>= fun b => Pure.pure (Answer.list b)) a = _
      rw [M.bind_ok (onSlot_ok hp e)]; rfl
    · rw [← hn]; exact h2
  | exactlyOneSolution i =>
    obtain ⟨F, hF⟩ := hq
    obtain ⟨p, hp, dF⟩ := h.handle hF
    have hh : a.Holds p := List.mem_of_getElem? hp
    obtain ⟨b, e, h1⟩ := C28_exactly_one_solution hR hh dF
    refine ⟨.bool b, ?_, F, b, hF, rfl, ?_⟩
    · show (onSlot i (LBDD.exactlyOneSolution cfg) >>= fun b => Pure.pure (Answer.bool b)) a = _
      rw [M.bind_ok (onSlot_ok hp e)]; rfl
    · rw [← hn]; exact h1

/-! ### Answers are determined by the store -/

theorem residuals_le {n : Nat} {F : BoolFn} {Gs Hs : List BoolFn} (h1 : ListsResiduals n F Gs) (h2 : ListsResiduals n F Hs) : Gs.length ≤ Hs.length := by
  have hnd : Gs.Nodup := h1.distinct.imp fun hd e => hd (by rw [e]; exact fun _ _ => rfl)
  refine pigeon (fun G H => SameFn n G H) hnd ?_ ?_
  · intro G hG
    obtain ⟨c, hc, hs⟩ := h1.residual G hG
    have hi : ¬ ConstFn n (residual F c) := fun hk => h1.inconstant G hG fun x y hx hy => by rw [hs x hx, hs y hy]; exact hk x y hx hy
    obtain ⟨H, hH, e⟩ := h2.all c hc hi
    exact ⟨H, hH, fun x hx => (hs x hx).trans (e x hx).symm⟩
  · intro G G' H hG hG' e e'
    have hsame : SameFn n G G' := fun x hx => (e x hx).trans (e' x hx).symm
    have hsame' : SameFn n G' G := fun x hx => (hsame x hx).symm
    rcases Classical.em (G = G') with h | h
    · exact h
    · exfalso
      have hp : ∀ {l : List BoolFn}, l.Pairwise (fun G H => ¬ SameFn n G H) → G ∈ l → G' ∈ l → False := by
        intro l
        induction l with
        | nil => intro _ h; cases h
        | cons K l ih =>
          intro hp m1 m2
          have hp' := List.pairwise_cons.1 hp
          rcases List.mem_cons.1 m1 with e1 | m1 <;> rcases List.mem_cons.1 m2 with e2 | m2
          · exact h (e1.trans e2.symm)
          · exact hp'.1 _ m2 (e1 ▸ hsame)
          · exact hp'.1 _ m1 (e2 ▸ hsame')
          · exact ih hp'.2 m1 m2
      exact hp h1.distinct hG hG'

theorem sorted_unique : ∀ {l m : List Nat}, l.Pairwise (· < ·) → m.Pairwise (· < ·) → (∀ v, v ∈ l ↔ v ∈ m) → l = m
  | [], [], _, _, _ => rfl
  | [], b :: m, _, _, h => absurd ((h b).2 (by simp)) (by simp)
  | a :: l, [], _, _, h => absurd ((h a).1 (by simp)) (by simp)
  | a :: l, b :: m, h1, h2, h => by
    have p1 := List.pairwise_cons.1 h1
    have p2 := List.pairwise_cons.1 h2
    have hab : a = b := by
      rcases List.mem_cons.1 ((h a).1 (by simp)) with e | e
      · exact e
      · rcases List.mem_cons.1 ((h b).2 (by simp)) with e' | e'
        · exact e'.symm
        · have := p1.1 _ e'
          have := p2.1 _ e
          omega
    subst hab
    rw [sorted_unique p1.2 p2.2 fun v => ?_]
    constructor
    · intro hv
      rcases List.mem_cons.1 ((h v).1 (by simp [hv])) with e | e
      · have := p1.1 _ hv; omega
      · exact e
    · intro hv
      rcases List.mem_cons.1 ((h v).2 (by simp [hv])) with e | e
      · have := p2.1 _ hv; omega
      · exact e

theorem bool_of_iff {b c : Bool} {P : Prop} (h1 : b = true ↔ P) (h2 : c = true ↔ P) : b = c := by
  cases b <;> cases c <;> simp_all

/-- Every question has at most one right answer. -/
theorem C85_unique {q : Query} {r r' : Answer} (h : q.Right S r) (h' : q.Right S r') : r = r' := by
  cases q with
  | nrVariables => exact Eq.trans h (Eq.symm h')
  | evaluate i x =>
    obtain ⟨F, h1, rfl⟩ := h
    obtain ⟨F', h1', rfl⟩ := h'
    rw [h1] at h1'; cases h1'; rfl
  | equal i j =>
    obtain ⟨o, w, b, h1, h2, rfl, h3⟩ := h
    obtain ⟨o', w', b', h1', h2', rfl, h3'⟩ := h'
    rw [h1] at h1'; cases h1'
    rw [h2] at h2'; cases h2'
    rw [bool_of_iff h3 h3']
  | isBotsink i =>
    obtain ⟨F, b, h1, rfl, h3⟩ := h
    obtain ⟨F', b', h1', rfl, h3'⟩ := h'
    rw [h1] at h1'; cases h1'
    rw [bool_of_iff h3 h3']
  | isTopsink i =>
    obtain ⟨F, b, h1, rfl, h3⟩ := h
    obtain ⟨F', b', h1', rfl, h3'⟩ := h'
    rw [h1] at h1'; cases h1'
    rw [bool_of_iff h3 h3']
  | isTerminal i =>
    obtain ⟨F, b, h1, rfl, h3⟩ := h
    obtain ⟨F', b', h1', rfl, h3'⟩ := h'
    rw [h1] at h1'; cases h1'
    rw [bool_of_iff h3 h3']
  | topVariable i =>
    obtain ⟨F, v, h1, rfl, _, h3, h4⟩ := h
    obtain ⟨F', v', h1', rfl, _, h3', h4'⟩ := h'
    rw [h1] at h1'; cases h1'
    rw [Nat.le_antisymm (h4 _ h3') (h4' _ h3)]
  | nrNodes i =>
    obtain ⟨F, Gs, h1, h2, rfl⟩ := h
    obtain ⟨F', Gs', h1', h2', rfl⟩ := h'
    rw [h1] at h1'; cases h1'
    rw [Nat.le_antisymm (residuals_le h2 h2') (residuals_le h2' h2)]
  | variables i =>
    obtain ⟨F, l, h1, rfl, h3, h4⟩ := h
    obtain ⟨F', l', h1', rfl, h3', h4'⟩ := h'
    rw [h1] at h1'; cases h1'
    rw [sorted_unique h3 h3' fun v => (h4 v).trans (h4' v).symm]
  | exactlyOneSolution i =>
    obtain ⟨F, b, h1, rfl, h3⟩ := h
    obtain ⟨F', b', h1', rfl, h3'⟩ := h'
    rw [h1] at h1'; cases h1'
    rw [bool_of_iff h3 h3']

/-- **C85** Two clients, with any histories and in any environments, whose handles stand for the same functions get the same answers. -/
theorem C85_same_answers (hR : Reachable cfg .ordered a) (h : Looks cfg a S) {cfg' : Cfg} {a' : Api} (hR' : Reachable cfg' .ordered a') (h' : Looks cfg' a' S) {q : Query}
    (hq : q.Legal cfg S) (hq' : q.Legal cfg' S) : ∃ r, q.run cfg a = .ok r a ∧ q.run cfg' a' = .ok r a' := by
  obtain ⟨r, e, w⟩ := C85_answers hR h hq
  obtain ⟨r', e', w'⟩ := C85_answers hR' h' hq'
  cases C85_unique w w'
  exact ⟨r, e, e'⟩

end

/-! ### The same history in two environments -/
section
variable {cfg1 cfg2 : Cfg} {a b : Api} {S : Store} {ops : List Op}

theorem SameHistory.looks (h : SameHistory .ordered cfg1 cfg2 ops a b) (hl : ∀ op ∈ ops, ¬ op.IsLimited) (hL : Looks cfg1 a S) : Looks cfg2 b S := by
  obtain ⟨h1, h2, h3, _, h5, _⟩ := C14_same_results_partial (by decide) h hl
  refine ⟨h1.symm.trans hL.nvars, h2.symm.trans hL.len, ?_⟩
  intro i o w ho hw
  have li : i < a.hs.length := by rw [h2]; exact (List.getElem?_eq_some_iff.1 ho).1
  have di := List.getElem?_eq_getElem li
  have si := hL.slot i _ _ di hw
  cases o with
  | none =>
    have := (h3 i).2 ho
    rw [di] at this
    injection this with this
    rw [this] at si
    cases w with
    | none => trivial
    | some F => exact si.elim
  | some q =>
    cases e : a.hs[i] with
    | none =>
      rw [e] at di
      rw [(h3 i).1 di] at ho
      cases ho
    | some p =>
      rw [e] at di si
      cases w with
      | none => exact si.elim
      | some F => exact ((h5 i p q di ho).1 F).1 si

/-- Every reachable state looks like some store. -/
theorem looks_exists {cfg : Cfg} {u : Use} (hR : Reachable cfg u a) : ∃ S, Looks cfg a S := by
  refine ⟨⟨a.mgr.nvars, a.hs.map fun o => o.map fun p x => match evaluate cfg a.mgr p x with | .ok b _ => b | _ => false⟩, rfl, by simp, ?_⟩
  intro i o w ho hw
  have hw : (a.hs.map _)[i]? = some w := hw
  rw [List.getElem?_map, ho] at hw
  cases o with
  | none => cases hw; trivial
  | some p =>
    cases hw
    obtain ⟨t, ht⟩ := hR.good.any (List.mem_of_getElem? ho)
    intro x hx
    have := denotes_repr hR.good ht x hx
    unfold EvalsTo at this ⊢
    show evaluate cfg a.mgr p x = .ok (match evaluate cfg a.mgr p x with | .ok b _ => b | _ => false) ()
    rw [this]

/-- **C85** The same history of calls (without `and_rec_limited`) in two environments: all answers agree. -/
theorem C85_two_runs (h : SameHistory .ordered cfg1 cfg2 ops a b) (hl : ∀ op ∈ ops, ¬ op.IsLimited) : ∃ S, Looks cfg1 a S ∧ Looks cfg2 b S ∧
    ∀ q : Query, q.Legal cfg1 S → q.Legal cfg2 S → ∃ r, q.Right S r ∧ q.run cfg1 a = .ok r a ∧ q.run cfg2 b = .ok r b := by
  obtain ⟨S, hS⟩ := looks_exists h.left
  have hS' := h.looks hl hS
  refine ⟨S, hS, hS', fun q hq hq' => ?_⟩
  obtain ⟨r, e, w⟩ := C85_answers h.left hS hq
  obtain ⟨r', e', w'⟩ := C85_answers h.right hS' hq'
  cases C85_unique w w'
  exact ⟨r, w, e, e'⟩

end

/-! ### Concrete cases -/

/-- Questions about the handles x0, x1, x2, x0∧x1, ¬(x0∧x1), (x0∧x1)∨x2, true. -/
def someQueries : List Query :=
  [.nrVariables, .evaluate 5 [true, true, false], .evaluate 5 [true, false, false], .equal 3 3, .equal 3 4, .isBotsink 3, .isTopsink 6, .isTerminal 5, .topVariable 5, .topVariable 1,
    .nrNodes 5, .variables 5, .exactlyOneSolution 3, .exactlyOneSolution 5]

def answerOf : Res Api Answer → Option Answer
  | .ok r _ => some r
  | _ => none

theorem demoOf_hs (nd : Bool) : (demoOf nd).hs = [some 2, some 3, some 4, some 5, some 7, some 9, some 1] := by
  cases nd <;> decide +kernel

theorem demoOf_not_const (nd : Bool) {S : Store} (h : Looks (envOf nd) (demoOf nd) S) {i p : Nat} {F : BoolFn} (hF : S.slots[i]? = some (some F))
    (hp : (demoOf nd).hs[i]? = some (some p)) (e1 : evalsB (envOf nd) (demoOf nd).mgr p [true, true, true] true = true)
    (e2 : evalsB (envOf nd) (demoOf nd).mgr p [false, false, false] false = true) : ¬ ConstFn S.n F := by
  have hn : S.n = 3 := by rw [← h.nvars]; cases nd <;> decide +kernel
  obtain ⟨q, hq, dF⟩ := h.handle hF
  rw [hp] at hq
  cases hq
  intro hc
  have c : ∀ x : List Bool, x.length = 3 → Covers (demoOf nd).mgr x := fun x hx => by unfold Covers; rw [h.nvars, hn, hx]; exact Nat.le_refl _
  have h1 := dF _ (c [true, true, true] rfl)
  have h2 := dF _ (c [false, false, false] rfl)
  unfold EvalsTo at h1 h2
  rw [evalsB_sound e1] at h1
  rw [evalsB_sound e2] at h2
  have := hc [true, true, true] [false, false, false] (by rw [hn]; decide) (by rw [hn]; decide)
  injection h1 with h1
  injection h2 with h2
  rw [← h1, ← h2] at this
  cases this

/-- The hypotheses of C85 hold for these questions, and these are the answers (all but the one of `variables()`). -/
theorem C85_concrete (nd : Bool) : ∃ S, Looks (envOf nd) (demoOf nd) S ∧ (∀ q ∈ someQueries, q.Legal (envOf nd) S ∧ ∃ r, q.run (envOf nd) (demoOf nd) = .ok r (demoOf nd) ∧ q.Right S r) ∧
    (someQueries.eraseIdx 11).map (fun q => answerOf (q.run (envOf nd) (demoOf nd))) =
      [some (.num 3), some (.bool true), some (.bool false), some (.bool true), some (.bool false), some (.bool false), some (.bool true), some (.bool false), some (.num 0),
        some (.num 1), some (.num 3), some (.bool true), some (.bool false)] := by
  obtain ⟨S, h⟩ := looks_exists (demoOf_reachable nd)
  have hn : S.n = 3 := by rw [← h.nvars]; cases nd <;> decide +kernel
  have hl : S.slots.length = 7 := by rw [← h.len, demoOf_hs]; rfl
  have slot : ∀ i, i < 7 → ∃ F, S.slots[i]? = some (some F) := by
    intro i hi
    have e := List.getElem?_eq_getElem (l := S.slots) (i := i) (by omega)
    have hi' : i < (demoOf nd).hs.length := by rw [demoOf_hs]; exact hi
    have e' := List.getElem?_eq_getElem hi'
    have hs := h.slot i _ _ e' e
    cases e1 : S.slots[i] with
    | some F => rw [e1] at e; exact ⟨F, e⟩
    | none =>
      exfalso
      rw [e1] at hs
      have hsome : (demoOf nd).hs[i]?.join.isSome = true := by
        rw [demoOf_hs]
        rcases i with _ | _ | _ | _ | _ | _ | _ | i <;> first | rfl | omega
      rw [e'] at hsome
      cases e2 : (demoOf nd).hs[i] with
      | none => rw [e2] at hsome; cases hsome
      | some p => rw [e2] at hs; exact hs
  have nc5 : ∀ F, S.slots[5]? = some (some F) → ¬ ConstFn S.n F := fun F hF =>
    demoOf_not_const nd h hF (p := 9) (by rw [demoOf_hs]; rfl) (by cases nd <;> decide +kernel) (by cases nd <;> decide +kernel)
  have nc1 : ∀ F, S.slots[1]? = some (some F) → ¬ ConstFn S.n F := fun F hF =>
    demoOf_not_const nd h hF (p := 3) (by rw [demoOf_hs]; rfl) (by cases nd <;> decide +kernel) (by cases nd <;> decide +kernel)
  obtain ⟨F1, h1⟩ := slot 1 (by omega)
  obtain ⟨F3, h3⟩ := slot 3 (by omega)
  obtain ⟨F5, h5⟩ := slot 5 (by omega)
  obtain ⟨F6, h6⟩ := slot 6 (by omega)
  refine ⟨S, h, fun q hq => ?_, by cases nd <;> decide +kernel⟩
  have legal : q.Legal (envOf nd) S := by
    simp only [someQueries, List.mem_cons, List.not_mem_nil, or_false] at hq
    rcases hq with rfl | rfl | rfl | rfl | rfl | rfl | rfl | rfl | rfl | rfl | rfl | rfl | rfl | rfl
    · trivial
    · exact ⟨⟨F5, h5⟩, by rw [hn]; decide⟩
    · exact ⟨⟨F5, h5⟩, by rw [hn]; decide⟩
    · exact ⟨by omega, by omega⟩
    · exact ⟨by omega, by omega⟩
    · exact ⟨F3, h3⟩
    · exact ⟨F6, h6⟩
    · exact ⟨F5, h5⟩
    · exact ⟨F5, h5, nc5 _ h5⟩
    · exact ⟨F1, h1, nc1 _ h1⟩
    · exact ⟨F5, h5, Or.inr (nc5 _ h5)⟩
    · exact ⟨F5, h5⟩
    · exact ⟨F3, h3⟩
    · exact ⟨F5, h5⟩
  exact ⟨legal, C85_answers (demoOf_reachable nd) h legal⟩

/-- In histories that do not respect the variable order the answers can be wrong: a handle that stands for the constant false is not a sink. -/
theorem C85_refuted : ∀ nd : Bool, ∃ a S i r, Reachable (envOf nd) .parity a ∧ Looks (envOf nd) a S ∧ (Query.isBotsink i).Legal (envOf nd) S ∧
    (Query.isBotsink i).run (envOf nd) a = .ok r a ∧ ¬ (Query.isBotsink i).Right S r := by
  intro nd
  obtain ⟨a, p, hR, hh, hb, ht, dF⟩ := C66_refuted nd
  obtain ⟨S, h⟩ := looks_exists hR
  obtain ⟨i, hi, e⟩ := List.getElem_of_mem hh
  have hp : a.hs[i]? = some (some p) := by rw [List.getElem?_eq_getElem hi, e]
  have hF : ∃ F, S.slots[i]? = some (some F) := by
    have li : i < S.slots.length := by rw [← h.len]; exact hi
    have e1 := List.getElem?_eq_getElem li
    have hs := h.slot i _ _ hp e1
    cases e2 : S.slots[i] with
    | none => rw [e2] at hs; exact hs.elim
    | some F => rw [e2] at e1; exact ⟨F, e1⟩
  obtain ⟨F, hF⟩ := hF
  refine ⟨a, S, i, .bool (decide (p = botId)), hR, h, ⟨F, hF⟩, ?_, ?_⟩
  · show (onSlot i (isBot (envOf nd)) >>= fun b => Pure.pure (Answer.bool b)) a = _
    rw [M.bind_ok (onSlot_ok hp (C65_sinks hR hh).1)]; rfl
  · rintro ⟨F', b, hF', e', h'⟩
    rw [hF] at hF'
    cases hF'
    cases e'
    have := h'.2 (fun x hx => (h.slot i _ _ hp hF : Denotes _ _ _ _).eq dF (by unfold Covers; rw [h.nvars]; exact hx))
    exact hb (of_decide_eq_true this)

/-- The hypotheses of `C85_two_runs` hold for the demo history in two environments. -/
theorem C85_two_runs_concrete : ∃ a b S, SameHistory .ordered (envOf false) otherEnv demoOps.reverse a b ∧ a.hs.length = 7 ∧ Looks (envOf false) a S ∧ Looks otherEnv b S ∧
    ∀ q : Query, q.Legal (envOf false) S → q.Legal otherEnv S → ∃ r, q.Right S r ∧ q.run (envOf false) a = .ok r a ∧ q.run otherEnv b = .ok r b := by
  obtain ⟨⟨a, b⟩, e⟩ := twinDemo_some
  have h : SameHistory .ordered (envOf false) otherEnv demoOps.reverse a b := by simpa using runBoth_same _ _ _ _ a b .init e
  have hl : ∀ op ∈ demoOps.reverse, ¬ op.IsLimited := by
    rintro op ho ⟨n, is, rfl⟩
    simp [demoOps] at ho
  have h7 : a.hs.length = 7 := by
    have : (twinDemo.map fun ab => ab.1.hs.length) = some 7 := by decide +kernel
    rw [e] at this
    simpa using this
  obtain ⟨S, h1, h2, h3⟩ := C85_two_runs h hl
  exact ⟨a, b, S, h, h7, h1, h2, h3⟩

end LBDD
