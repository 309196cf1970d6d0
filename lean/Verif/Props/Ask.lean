import Verif.Props.Seen
/-!
# Questions leave no trace (C91)
-/
namespace LBDD
section
variable {cfg : Cfg} {u : Use} {a : Api}

theorem Good.live (hi : Good cfg u a) {p : Nat} (hp : a.Holds p) : (a.mgr.cells p).live = true :=
  hi.heapOk.held p (List.count_pos_iff.2 hp)

theorem nodeVar_same (hi : Good cfg u a) {p : Nat} (hp : a.Holds p) : nodeVar p a.mgr = .ok (a.mgr.cells p).index a.mgr := by
  unfold nodeVar
  rw [M.get_bind_apply, hi.live hp]
  rfl

theorem Good.sinks (hi : Good cfg u a) {p : Nat} (hp : a.Holds p) :
    isBot cfg p a.mgr = .ok (decide (p = botId)) a.mgr ∧ isTop cfg p a.mgr = .ok (decide (p = topId)) a.mgr ∧
      isTerm cfg p a.mgr = .ok (decide (p = botId ∨ p = topId)) a.mgr := by
  obtain ⟨t, ht⟩ := hi.any hp
  refine ⟨isBot_ok hi ht, isTop_ok hi ht, ?_⟩
  rw [isTerm_ok hi ht rfl]
  congr 1
  rw [decide_eq_decide]
  show p < 2 ↔ p = 0 ∨ p = 1
  omega

theorem slot_map {α β : Type} {i p : Nat} {m : Nat → M Mgr α} {r : α} (g : α → β) (h : a.hs[i]? = some (some p)) (e : m p a.mgr = .ok r a.mgr) :
    (onSlot i m >>= fun b => Pure.pure (g b)) a = .ok (g r) a := by
  rw [M.bind_ok (onSlot_ok h e)]; rfl

theorem Good.answered (hi : Good cfg u a) {q : Query} (hq : q.Admissible cfg a) : ∃ r, q.run cfg a = .ok r a := by
  cases q with
  | nrVariables => exact ⟨_, rfl⟩
  | evaluate i x =>
    obtain ⟨⟨p, hp⟩, hx⟩ := hq
    obtain ⟨t, ht⟩ := hi.any (List.mem_of_getElem? hp)
    exact ⟨_, slot_map _ hp (evaluateM_ok (denotes_repr hi ht x hx))⟩
  | equal i j =>
    obtain ⟨h1, h2⟩ := hq
    refine ⟨.bool (a.hs[i] == a.hs[j]), ?_⟩
    show (M.get >>= fun a => _) a = _
    rw [M.get_bind_apply, List.getElem?_eq_getElem h1, List.getElem?_eq_getElem h2]; rfl
  | isBotsink i =>
    obtain ⟨p, hp⟩ := hq
    exact ⟨_, slot_map _ hp (hi.sinks (List.mem_of_getElem? hp)).1⟩
  | isTopsink i =>
    obtain ⟨p, hp⟩ := hq
    exact ⟨_, slot_map _ hp (hi.sinks (List.mem_of_getElem? hp)).2.1⟩
  | isTerminal i =>
    obtain ⟨p, hp⟩ := hq
    exact ⟨_, slot_map _ hp (hi.sinks (List.mem_of_getElem? hp)).2.2⟩
  | topVariable i =>
    obtain ⟨p, hp⟩ := hq
    exact ⟨_, slot_map _ hp (nodeVar_same hi (List.mem_of_getElem? hp))⟩
  | nrNodes i =>
    obtain ⟨p, hp, hs⟩ := hq
    obtain ⟨t, ht⟩ := hi.any (List.mem_of_getElem? hp)
    obtain ⟨l, _, e⟩ := nrNodes_ok hi ht (.of hi (hs.imp id fun ⟨h0, h1⟩ => by
      have h0' : p ≠ 0 := h0
      have h1' : p ≠ 1 := h1
      omega))
    exact ⟨_, slot_map _ hp e⟩
  | variables i =>
    obtain ⟨p, hp⟩ := hq
    obtain ⟨t, ht⟩ := hi.any (List.mem_of_getElem? hp)
    obtain ⟨l, e, _⟩ := variables_ok hi ht
    exact ⟨_, slot_map _ hp e⟩
  | exactlyOneSolution i =>
    obtain ⟨p, hp⟩ := hq
    obtain ⟨t, ht⟩ := hi.any (List.mem_of_getElem? hp)
    obtain ⟨b, e⟩ := exactlyOneSolution_same hi ht
    exact ⟨_, slot_map _ hp e⟩

/-- **C91** In every state of every history, of any discipline, every admissible question is answered, and asking changes nothing. -/
theorem C91_answered (hR : Reachable cfg u a) {q : Query} (hq : q.Admissible cfg a) : ∃ r, q.run cfg a = .ok r a := hR.good.answered hq

theorem nrNodes_mark {p : Nat} {s s' : Mgr} {k : Nat} (e : nrNodes cfg p s = .ok k s') : MarkOk cfg s p := by
  by_cases h2 : 2 ≤ p
  · exact Or.inl h2
  by_cases hd : cfg.ndebug = true
  · exact Or.inr (Or.inl hd)
  cases hm : s.marks p with
  | false => exact Or.inr (Or.inr hm)
  | true =>
    exfalso
    unfold nrNodes at e
    rw [M.get_bind_apply] at e
    obtain ⟨m, s1, e1, e2⟩ := bind_ok_inv e
    cases e1
    obtain ⟨_, _, e3, _⟩ := bind_ok_inv e2
    unfold M.assert at e3
    rw [hm] at e3
    simp [hd] at e3

theorem onSlot_inv {α : Type} {i : Nat} {m : Nat → M Mgr α} {r : α} {a' : Api} (e : onSlot i m a = .ok r a') :
    ∃ p, a.hs[i]? = some (some p) ∧ m p a.mgr = .ok r a'.mgr ∧ a'.hs = a.hs := by
  unfold onSlot at e
  rw [M.get_bind_apply] at e
  cases h : a.hs[i]? with
  | none => rw [h] at e; cases e
  | some o =>
    rw [h] at e
    cases o with
    | none => cases e
    | some p =>
      obtain ⟨e1, e2⟩ := onMgr_ok e
      exact ⟨p, rfl, e1, e2⟩

theorem slot_inv {α β : Type} {i : Nat} {m : Nat → M Mgr α} {g : α → β} {r : β} {a' : Api} (e : (onSlot i m >>= fun b => Pure.pure (g b)) a = .ok r a')
    (h : ∀ p, a.hs[i]? = some (some p) → ∀ k s', m p a.mgr = .ok k s' → s' = a.mgr) : a' = a := by
  obtain ⟨k, a1, e1, e2⟩ := bind_ok_inv e
  cases e2
  obtain ⟨p, h1, h2, h3⟩ := onSlot_inv e1
  have := h p h1 _ _ h2
  cases a'; cases a
  simp only at this h3
  rw [this, h3]

theorem Good.no_change (hi : Good cfg u a) {q : Query} {r : Answer} {a' : Api} (e : q.run cfg a = .ok r a') : a' = a := by
  have same : ∀ {α : Type} {m : M Mgr α} {k k' : α} {s' : Mgr}, m a.mgr = .ok k a.mgr → m a.mgr = .ok k' s' → s' = a.mgr := by
    intro α m k k' s' h1 h2
    rw [h1] at h2
    injection h2 with _ h2
    exact h2.symm
  cases q with
  | nrVariables => cases e; rfl
  | evaluate i x =>
    refine slot_inv e fun p _ k s' h => ?_
    unfold evaluateM at h
    cases h1 : evaluate cfg a.mgr p x with
    | ok b _ => rw [h1] at h; cases h; rfl
    | throw _ => rw [h1] at h; cases h
    | assertFail => rw [h1] at h; cases h
    | ub => rw [h1] at h; cases h
    | hang => rw [h1] at h; cases h
  | equal i j =>
    have e : (M.get >>= fun a : Api => (match a.hs[i]?, a.hs[j]? with
      | some p, some q => pure (Answer.bool (p == q))
      | _, _ => M.ub : M Api Answer)) a = .ok r a' := e
    rw [M.get_bind_apply] at e
    cases h1 : a.hs[i]? with
    | none => rw [h1] at e; cases e
    | some o =>
      cases h2 : a.hs[j]? with
      | none => rw [h1, h2] at e; cases e
      | some w => rw [h1, h2] at e; cases e; rfl
  | isBotsink i => exact slot_inv e fun p hp k s' h => same (hi.sinks (List.mem_of_getElem? hp)).1 h
  | isTopsink i => exact slot_inv e fun p hp k s' h => same (hi.sinks (List.mem_of_getElem? hp)).2.1 h
  | isTerminal i => exact slot_inv e fun p hp k s' h => same (hi.sinks (List.mem_of_getElem? hp)).2.2 h
  | topVariable i => exact slot_inv e fun p hp k s' h => same (nodeVar_same hi (List.mem_of_getElem? hp)) h
  | nrNodes i =>
    refine slot_inv e fun p hp k s' h => ?_
    obtain ⟨t, ht⟩ := hi.any (List.mem_of_getElem? hp)
    obtain ⟨l, _, h'⟩ := nrNodes_ok hi ht (nrNodes_mark h)
    exact same h' h
  | variables i =>
    refine slot_inv e fun p hp k s' h => ?_
    obtain ⟨t, ht⟩ := hi.any (List.mem_of_getElem? hp)
    obtain ⟨l, h', _⟩ := variables_ok hi ht
    exact same h' h
  | exactlyOneSolution i =>
    refine slot_inv e fun p hp k s' h => ?_
    obtain ⟨t, ht⟩ := hi.any (List.mem_of_getElem? hp)
    obtain ⟨b, h'⟩ := exactlyOneSolution_same hi ht
    exact same h' h

/-- **C91** An answered question, admissible or not, changes nothing. -/
theorem C91_no_change (hR : Reachable cfg u a) {q : Query} {r : Answer} {a' : Api} (e : q.run cfg a = .ok r a') : a' = a := hR.good.no_change e

theorem slot_hang {α β : Type} {i : Nat} {m : Nat → M Mgr α} {g : α → β} (e : (onSlot i m >>= fun b => Pure.pure (g b)) a = .hang) :
    ∃ p, a.hs[i]? = some (some p) ∧ m p a.mgr = .hang := by
  have e : M.bind (onSlot i m) (fun b => Pure.pure (g b)) a = .hang := e
  unfold M.bind onSlot at e
  rw [M.get_bind_apply] at e
  cases h : a.hs[i]? with
  | none => rw [h] at e; cases e
  | some o =>
    rw [h] at e
    cases o with
    | none => cases e
    | some p =>
      refine ⟨p, rfl, ?_⟩
      dsimp only at e
      unfold onMgr at e
      cases h1 : m p a.mgr with
      | hang => rfl
      | ok r s => rw [h1] at e; cases e
      | throw s => rw [h1] at e; cases e
      | assertFail => rw [h1] at e; cases e
      | ub => rw [h1] at e; cases e

theorem evaluateAux_no_hang {md : Md} {refs : Nat → Nat} {s : Mgr} (hi : Inv cfg md refs s) (x : List Bool) : ∀ (n p : Nat) (t : Tree), Repr s.cells p t →
    t.height + 1 ≤ n → evaluateAux cfg s x n p ≠ .hang := by
  intro n
  induction n with
  | zero => intro p t _ h; omega
  | succ n ih =>
    intro p t hp hn e
    unfold evaluateAux at e
    dsimp only at e
    split at e
    · cases e
    split at e
    · cases e
    rename_i n1
    split at e
    · cases e
    rename_i n2
    split at e
    · cases e
    cases hp with
    | bot => exact n1 hi.bot.1
    | top => exact n2 hi.top.1
    | node h2 hl hx hlo hhi =>
      simp only [Tree.height] at hn
      split at e
      · split at e <;> cases e
      · exact ih _ _ hhi (by omega) e
      · exact ih _ _ hlo (by omega) e

/-- **C91** A question throws no exception and does not loop for ever. -/
theorem C91_ends (hR : Reachable cfg u a) (q : Query) : q.run cfg a ≠ .hang ∧ ∀ a', q.run cfg a ≠ .throw a' := by
  constructor
  · have hi := hR.good
    intro e
    cases q with
    | nrVariables => cases e
    | evaluate i x =>
      obtain ⟨p, hp, h⟩ := slot_hang e
      obtain ⟨t, ht⟩ := hi.any (List.mem_of_getElem? hp)
      unfold evaluateM at h
      cases h1 : evaluate cfg a.mgr p x with
      | ok b _ => rw [h1] at h; cases h
      | throw _ => rw [h1] at h; cases h
      | assertFail => rw [h1] at h; cases h
      | ub => rw [h1] at h; cases h
      | hang => exact evaluateAux_no_hang hi x _ p t ht (by have := hi.ht _ _ ht; unfold fuel1; omega) h1
    | equal i j =>
      have e : (M.get >>= fun a : Api => (match a.hs[i]?, a.hs[j]? with
        | some p, some q => pure (Answer.bool (p == q))
        | _, _ => M.ub : M Api Answer)) a = .hang := e
      rw [M.get_bind_apply] at e
      cases h1 : a.hs[i]? with
      | none => rw [h1] at e; cases e
      | some o =>
        cases h2 : a.hs[j]? with
        | none => rw [h1, h2] at e; cases e
        | some w => rw [h1, h2] at e; cases e
    | isBotsink i =>
      obtain ⟨p, hp, h⟩ := slot_hang e
      rw [(C65_sinks hR (List.mem_of_getElem? hp)).1] at h; cases h
    | isTopsink i =>
      obtain ⟨p, hp, h⟩ := slot_hang e
      rw [(C65_sinks hR (List.mem_of_getElem? hp)).2.1] at h; cases h
    | isTerminal i =>
      obtain ⟨p, hp, h⟩ := slot_hang e
      rw [(C65_sinks hR (List.mem_of_getElem? hp)).2.2] at h; cases h
    | topVariable i =>
      obtain ⟨p, hp, h⟩ := slot_hang e
      rw [nodeVar_same hR.good (List.mem_of_getElem? hp)] at h; cases h
    | nrNodes i =>
      obtain ⟨p, hp, h⟩ := slot_hang e
      obtain ⟨t, ht⟩ := hi.any (List.mem_of_getElem? hp)
      by_cases hm : MarkOk cfg a.mgr p
      · obtain ⟨l, _, h'⟩ := nrNodes_ok hi ht hm
        rw [h'] at h; cases h
      · have h2 : cfg.ndebug = false := by
          cases e : cfg.ndebug with
          | false => rfl
          | true => exact absurd (Or.inr (Or.inl e)) hm
        have h3 : a.mgr.marks p = true := by
          cases e : a.mgr.marks p with
          | true => rfl
          | false => exact absurd (Or.inr (Or.inr e)) hm
        unfold nrNodes at h
        rw [M.get_bind_apply, M.bind_ok (getMark_ok a.mgr p), h3] at h
        have h : M.bind (M.assert cfg.ndebug (!true)) _ a.mgr = .hang := h
        unfold M.bind M.assert at h
        rw [h2] at h
        cases h
    | variables i =>
      obtain ⟨p, hp, h⟩ := slot_hang e
      obtain ⟨t, ht⟩ := hi.any (List.mem_of_getElem? hp)
      obtain ⟨l, h', _⟩ := variables_ok hi ht
      rw [h'] at h; cases h
    | exactlyOneSolution i =>
      obtain ⟨p, hp, h⟩ := slot_hang e
      obtain ⟨t, ht⟩ := hi.any (List.mem_of_getElem? hp)
      obtain ⟨b, h'⟩ := exactlyOneSolution_same hi ht
      rw [h'] at h; cases h
  · intro a' e
    have h := Query.same (cfg := cfg) (.refl a) hR.good.heapOk q
    rw [e] at h
    generalize hx : (Res.throw a' : Res Api Answer) = x at h
    cases h <;> cases hx

/-- **C91** Questions leave no trace: a session of calls, handle operations, collections and questions ends in the state in which the same session without the
questions ends, whether it returns or throws. -/
theorem C91_no_trace : ∀ (es : List Event) {a : Api}, Reachable cfg u a → SessionLegal cfg u a es →
    (∀ rs z, session cfg es a = .ok rs z → session cfg (dropAsk es) a = .ok [] z) ∧
    (∀ z, session cfg es a = .throw z → session cfg (dropAsk es) a = .throw z) := by
  intro es
  induction es with
  | nil =>
    intro a hR _
    refine ⟨fun rs z e => ?_, fun z e => ?_⟩
    · cases e; rfl
    · cases e
  | cons ev es ih =>
    intro a hR hl
    cases ev with
    | ask q =>
      have key : ∀ r, q.run cfg a = .ok r a → SessionLegal cfg u a es := by
        intro r e pre post o he rs a1 e1
        refine hl (.ask q :: pre) post o (by rw [he]; rfl) (r :: rs) a1 ?_
        show (q.run cfg >>= fun r => session cfg pre >>= fun rs => Pure.pure (r :: rs)) a = _
        rw [M.bind_ok e, M.bind_ok e1]; rfl
      refine ⟨fun rs z e => ?_, fun z e => ?_⟩
      · obtain ⟨r, a1, e1, e2⟩ := bind_ok_inv (m := q.run cfg) (f := fun r => session cfg es >>= fun rs => Pure.pure (r :: rs)) e
        cases C91_no_change hR e1
        obtain ⟨rs', z', e3, e4⟩ := bind_ok_inv e2
        cases e4
        exact (ih hR (key _ e1)).1 _ _ e3
      · have e : M.bind (q.run cfg) (fun r => M.bind (session cfg es) (fun rs => Pure.pure (r :: rs))) a = .throw z := e
        unfold M.bind at e
        cases hq : q.run cfg a with
        | ok r a1 =>
          rw [hq] at e
          cases C91_no_change hR hq
          dsimp only at e
          cases hs : session cfg es a with
          | ok rs z' => rw [hs] at e; cases e
          | throw z' => rw [hs] at e; cases e; exact (ih hR (key _ hq)).2 _ hs
          | assertFail => rw [hs] at e; cases e
          | ub => rw [hs] at e; cases e
          | hang => rw [hs] at e; cases e
        | throw a1 => exact absurd hq ((C91_ends hR q).2 a1)
        | assertFail => rw [hq] at e; cases e
        | ub => rw [hq] at e; cases e
        | hang => rw [hq] at e; cases e
    | op o =>
      have hlo : Legal cfg u a o := hl [] es o rfl [] a rfl
      have key : ∀ a', step cfg o a = .ok () a' → SessionLegal cfg u a' es := by
        intro a' e pre post o' he rs a1 e1
        refine hl (.op o :: pre) post o' (by rw [he]; rfl) rs a1 ?_
        show (step cfg o >>= fun _ => session cfg pre) a = _
        rw [M.bind_ok e, e1]
      refine ⟨fun rs z e => ?_, fun z e => ?_⟩
      · obtain ⟨_, a1, e1, e2⟩ := bind_ok_inv (m := step cfg o) (f := fun _ => session cfg es) e
        show (step cfg o >>= fun _ => session cfg (dropAsk es)) a = _
        rw [M.bind_ok e1]
        exact (ih (.step hR hlo e1) (key _ e1)).1 _ _ e2
      · have e : M.bind (step cfg o) (fun _ => session cfg es) a = .throw z := e
        show M.bind (step cfg o) (fun _ => session cfg (dropAsk es)) a = .throw z
        unfold M.bind at e ⊢
        cases hs : step cfg o a with
        | ok r a1 =>
          rw [hs] at e
          dsimp only at e ⊢
          exact (ih (.step hR hlo hs) (key _ hs)).2 _ e
        | throw a1 => rw [hs] at e; exact e
        | assertFail => rw [hs] at e; cases e
        | ub => rw [hs] at e; cases e
        | hang => rw [hs] at e; cases e

/-- Execute a session, checking that its operations are admissible. -/
def sessionLegalB (cfg : Cfg) (u : Use) : List Event → Api → Bool
  | [], _ => true
  | .op o :: es, a => legalCheck u a o && (match step cfg o a with
    | .ok _ a' => sessionLegalB cfg u es a'
    | _ => true)
  | .ask q :: es, a => match q.run cfg a with
    | .ok _ a' => sessionLegalB cfg u es a'
    | _ => true

theorem sessionLegalB_sound : ∀ (es : List Event) {a : Api}, sessionLegalB cfg u es a = true → SessionLegal cfg u a es := by
  intro es
  induction es with
  | nil => intro a _ pre post o e; cases pre <;> cases e
  | cons ev es ih =>
    intro a h pre post o he rs a1 e1
    cases pre with
    | nil =>
      cases e1
      cases he
      simp only [sessionLegalB, Bool.and_eq_true] at h
      exact legalCheck_sound h.1
    | cons p pre =>
      injection he with h1 h2
      subst h1
      cases ev with
      | op o' =>
        obtain ⟨_, a2, e2, e3⟩ := bind_ok_inv (m := step cfg o') (f := fun _ => session cfg pre) e1
        simp only [sessionLegalB, e2, Bool.and_eq_true] at h
        exact ih h.2 pre post o h2 _ _ e3
      | ask q =>
        obtain ⟨r, a2, e2, e3⟩ := bind_ok_inv (m := q.run cfg) (f := fun r => session cfg pre >>= fun rs => Pure.pure (r :: rs)) e1
        obtain ⟨rs', a3, e4, e5⟩ := bind_ok_inv e3
        cases e5
        simp only [sessionLegalB, e2] at h
        exact ih h pre post o h2 _ _ e4

end

/-- A session of calls and questions. -/
def askEvents : List Event :=
  [.op (.call (.projection 0) []), .ask (.isTerminal 0), .op (.call (.projection 1) []), .ask .nrVariables, .op (.call .and [0, 1]), .ask (.nrNodes 2),
    .ask (.evaluate 2 [true, true]), .op (.copy 2), .ask (.equal 2 3), .op (.drop 0), .ask (.isBotsink 2), .ask (.topVariable 3)]

/-- The hypotheses of `C91_no_trace` are met by a session of 5 operations and 7 questions; it ends with four slots and the answers shown, and so does the session
without the questions. -/
theorem C91_concrete (nd : Bool) : ∃ z rs, Reachable (envOf nd) .ordered (Api.init (envOf nd)) ∧ SessionLegal (envOf nd) .ordered (Api.init (envOf nd)) askEvents ∧
    session (envOf nd) askEvents (Api.init (envOf nd)) = .ok rs z ∧ session (envOf nd) (dropAsk askEvents) (Api.init (envOf nd)) = .ok [] z ∧
    rs = [.bool false, .num 2, .num 2, .bool true, .bool true, .bool false, .num 0] ∧ z.hs.length = 4 ∧
    (Query.nrNodes 2).Admissible (envOf nd) z ∧ (Query.evaluate 2 [true, true]).Admissible (envOf nd) z := by
  have hl : SessionLegal (envOf nd) .ordered (Api.init (envOf nd)) askEvents := sessionLegalB_sound _ (by cases nd <;> decide +kernel)
  have hk : (match session (envOf nd) askEvents (Api.init (envOf nd)) with
      | .ok rs z => decide (rs = [.bool false, .num 2, .num 2, .bool true, .bool true, .bool false, .num 0]) && decide (z.hs.length = 4) &&
          decide (z.hs[2]? = some (some 4)) && decide (z.mgr.nvars = 2)
      | _ => false) = true := by cases nd <;> decide +kernel
  cases e : session (envOf nd) askEvents (Api.init (envOf nd)) with
  | ok rs z =>
    rw [e] at hk
    simp only [Bool.and_eq_true, decide_eq_true_eq] at hk
    obtain ⟨⟨⟨h1, h2⟩, h3⟩, h4⟩ := hk
    refine ⟨z, rs, .init, hl, rfl, (C91_no_trace _ .init hl).1 _ _ e, h1, h2, ⟨4, h3, Or.inr ⟨by decide, by decide⟩⟩, ⟨4, h3⟩, ?_⟩
    show z.mgr.nvars ≤ _
    rw [h4]; decide
  | throw _ => rw [e] at hk; cases hk
  | assertFail => rw [e] at hk; cases hk
  | ub => rw [e] at hk; cases hk
  | hang => rw [e] at hk; cases hk

end LBDD
