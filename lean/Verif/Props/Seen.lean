import Verif.Proof.Mirror
import Verif.Proof.GcMarks
import Verif.Props.GcReturn
import Verif.Props.Observe
import Verif.Spec.Seen
/-!
# Collections are invisible (C90)
-/
namespace LBDD
section
variable {cfg : Cfg} {u : Use}

/-- `a` arises from `b` by collections: everything is the same, but some nodes are no longer in use. -/
structure Alongside (b a : Api) : Prop where
  hs : a.hs = b.hs
  cell : ∀ q, (a.mgr.cells q).lo = (b.mgr.cells q).lo ∧ (a.mgr.cells q).hi = (b.mgr.cells q).hi ∧ (a.mgr.cells q).index = (b.mgr.cells q).index
  live : ∀ q, (a.mgr.cells q).live = true → (b.mgr.cells q).live = true
  nvars : a.mgr.nvars = b.mgr.nvars
  rng : a.mgr.rngPos = b.mgr.rngPos
  hw : a.mgr.pool.hw = b.mgr.pool.hw
  marks : a.mgr.marks = b.mgr.marks

theorem Alongside.refl (a : Api) : Alongside a a := ⟨rfl, fun _ => ⟨rfl, rfl, rfl⟩, fun _ h => h, rfl, rfl, rfl, rfl⟩

theorem Alongside.trans {a b c : Api} (h1 : Alongside c b) (h2 : Alongside b a) : Alongside c a where
  hs := h2.hs.trans h1.hs
  cell q := by
    obtain ⟨a1, a2, a3⟩ := h1.cell q
    obtain ⟨b1, b2, b3⟩ := h2.cell q
    exact ⟨b1.trans a1, b2.trans a2, b3.trans a3⟩
  live q h := h1.live q (h2.live q h)
  nvars := h2.nvars.trans h1.nvars
  rng := h2.rng.trans h1.rng
  hw := h2.hw.trans h1.hw
  marks := h2.marks.trans h1.marks

/-- The nodes below the handles. -/
def Api.Below (a : Api) (q : Nat) : Prop := ∃ h, a.Holds h ∧ Reaches a.mgr.cells h q

theorem HeapOk.below {a : Api} (h : HeapOk a.count a.mgr) {q : Nat} (hq : a.Below q) : (a.mgr.cells q).live = true := by
  obtain ⟨p, hp, hr⟩ := hq
  exact h.reach_live (h.held p (List.count_pos_iff.2 hp)) hr

theorem Alongside.mirror {a b : Api} (h : Alongside b a) (ha : HeapOk a.count a.mgr) : Mirror a.Below b.mgr a.mgr where
  cell := h.cell
  live q hq := by rw [ha.below hq, h.live q (ha.below hq)]
  closed q hq _ n1 n2 := by
    have hl := ha.below hq
    obtain ⟨e1, e2, e3⟩ := h.cell q
    have h2 : 2 ≤ q := by
      rcases (show q = 0 ∨ q = 1 ∨ 2 ≤ q by omega) with rfl | rfl | h2
      · exact absurd (e3.symm.trans ha.sink.1) n1
      · exact absurd (e3.symm.trans ha.sink.2) n2
      · exact h2
    obtain ⟨p, hp, hr⟩ := hq
    rw [← e1, ← e2]
    exact ⟨⟨p, hp, hr.trans (.lo h2 hl (.refl _))⟩, ⟨p, hp, hr.trans (.hi h2 hl (.refl _))⟩⟩
  nvars := h.nvars
  rng := h.rng
  hw := h.hw
  marks := h.marks

theorem HeapOk.mark {refs : Nat → Nat} {s : Mgr} (h : HeapOk refs s) (m : Nat → Bool) : HeapOk refs { s with marks := m } :=
  ⟨h.sink, h.child, h.bound, h.count, h.held, h.avail⟩

/-- The same answer, or the same failure. -/
inductive SameAns {α : Type} (b a : Api) : Res Api α → Res Api α → Prop where
  | ok (r : α) (m : Nat → Bool) : SameAns b a (.ok r { b with mgr := { b.mgr with marks := m } }) (.ok r { a with mgr := { a.mgr with marks := m } })
  | assertFail : SameAns b a .assertFail .assertFail
  | ub : SameAns b a .ub .ub
  | hang : SameAns b a .hang .hang

theorem Alongside.ans {α : Type} {a b : Api} (h : Alongside b a) (r : α) : SameAns b a (.ok r b) (.ok r a) := by
  have := SameAns.ok (b := b) (a := a) r b.mgr.marks
  have e : ({ a with mgr := { a.mgr with marks := b.mgr.marks } } : Api) = a := by rw [← h.marks]
  rw [e] at this
  exact this

theorem onSlot_same {α : Type} {a b : Api} (h : Alongside b a) (ha : HeapOk a.count a.mgr) {m : Nat → M Mgr α}
    (hm : ∀ p, a.Below p → Alike a.Below (fun _ => True) (m p) (m p)) (i : Nat) : SameAns b a (onSlot i m b) (onSlot i m a) := by
  unfold onSlot
  rw [M.get_bind_apply, M.get_bind_apply, h.hs]
  cases e : b.hs[i]? with
  | none => exact .ub
  | some o =>
    cases o with
    | none => exact .ub
    | some p =>
      dsimp only
      have hp : a.Below p := ⟨p, by unfold Api.Holds; rw [h.hs]; exact List.mem_of_getElem? e, .refl _⟩
      have hs := hm p hp _ _ (h.mirror ha)
      unfold onMgr
      generalize m p b.mgr = x at hs
      generalize m p a.mgr = y at hs
      cases hs with
      | ok k _ => exact .ok _ k
      | assertFail => exact .assertFail
      | ub => exact .ub
      | hang => exact .hang

theorem SameAns.map {α β : Type} {a b : Api} {f : M Api α} (g : α → β) (h : SameAns b a (f b) (f a)) :
    SameAns b a ((f >>= fun r => Pure.pure (g r)) b) ((f >>= fun r => Pure.pure (g r)) a) := by
  show SameAns b a (M.bind f _ b) (M.bind f _ a)
  unfold M.bind
  generalize f b = x at h
  generalize f a = y at h
  cases h with
  | ok r m => exact .ok (g r) m
  | assertFail => exact .assertFail
  | ub => exact .ub
  | hang => exact .hang

theorem Query.same {a b : Api} (h : Alongside b a) (ha : HeapOk a.count a.mgr) (q : Query) : SameAns b a (q.run cfg b) (q.run cfg a) := by
  cases q with
  | nrVariables =>
    show SameAns b a (.ok (Answer.num b.mgr.nvars) b) (.ok (Answer.num a.mgr.nvars) a)
    rw [h.nvars]
    exact h.ans _
  | evaluate i x => exact (onSlot_same h ha (fun p hp => evaluateM_alike hp x) i).map _
  | equal i j =>
    show SameAns b a ((M.get >>= _) b) ((M.get >>= _) a)
    rw [M.get_bind_apply, M.get_bind_apply, h.hs]
    cases b.hs[i]? with
    | none => exact .ub
    | some o =>
      cases b.hs[j]? with
      | none => exact .ub
      | some w => exact h.ans _
  | isBotsink i => exact (onSlot_same h ha (fun p _ => isBot_alike p) i).map _
  | isTopsink i => exact (onSlot_same h ha (fun p _ => isTop_alike p) i).map _
  | isTerminal i => exact (onSlot_same h ha (fun p _ => isTerm_alike p) i).map _
  | topVariable i => exact (onSlot_same h ha (fun p hp => nodeVar_alike hp) i).map _
  | nrNodes i => exact (onSlot_same h ha (fun p hp => nrNodes_alike hp) i).map _
  | variables i => exact (onSlot_same h ha (fun p hp => variables_alike hp) i).map _
  | exactlyOneSolution i => exact (onSlot_same h ha (fun p hp => exactlyOneSolution_alike hp) i).map _

/-! ### Handle operations -/

/-- The managers of `Alongside`. -/
structure Beside (s s' : Mgr) : Prop where
  cell : ∀ q, (s'.cells q).lo = (s.cells q).lo ∧ (s'.cells q).hi = (s.cells q).hi ∧ (s'.cells q).index = (s.cells q).index
  live : ∀ q, (s'.cells q).live = true → (s.cells q).live = true
  nvars : s'.nvars = s.nvars
  rng : s'.rngPos = s.rngPos
  hw : s'.pool.hw = s.pool.hw
  marks : s'.marks = s.marks

theorem Alongside.beside {a b : Api} (h : Alongside b a) : Beside b.mgr a.mgr := ⟨h.cell, h.live, h.nvars, h.rng, h.hw, h.marks⟩
theorem Beside.along {a b : Api} (h : Beside b.mgr a.mgr) (e : a.hs = b.hs) : Alongside b a := ⟨e, h.cell, h.live, h.nvars, h.rng, h.hw, h.marks⟩

theorem Beside.xref {s s' : Mgr} (h : Beside s s') (p : Nat) (x y : Int) :
    Beside { s with cells := upd s.cells p { s.cells p with xref := x } } { s' with cells := upd s'.cells p { s'.cells p with xref := y } } := by
  refine ⟨fun q => ?_, fun q hq => ?_, h.nvars, h.rng, h.hw, h.marks⟩
  · show (upd s'.cells p _ q).lo = (upd s.cells p _ q).lo ∧ (upd s'.cells p _ q).hi = (upd s.cells p _ q).hi ∧
      (upd s'.cells p _ q).index = (upd s.cells p _ q).index
    by_cases e : q = p
    · subst e; rw [upd_same, upd_same]; exact h.cell q
    · rw [upd_ne _ _ e, upd_ne _ _ e]; exact h.cell q
  · have hq' : (upd s'.cells p { s'.cells p with xref := y } q).live = true := hq
    show (upd s.cells p { s.cells p with xref := x } q).live = true
    by_cases e : q = p
    · subst e; rw [upd_same] at hq' ⊢; exact h.live q hq'
    · rw [upd_ne _ _ e] at hq' ⊢; exact h.live q hq'

theorem acquire_beside {s s' : Mgr} (h : Beside s s') (o : Option Nat) :
    ∃ t t', optM o acquire s = .ok () t ∧ optM o acquire s' = .ok () t' ∧ Beside t t' := by
  cases o with
  | none => exact ⟨s, s', rfl, rfl, h⟩
  | some p => exact ⟨_, _, rfl, rfl, h.xref p _ _⟩

theorem releaseNoAssert_beside {s s' : Mgr} (h : Beside s s') (o : Option Nat) :
    ∃ t t', optM o releaseNoAssert s = .ok () t ∧ optM o releaseNoAssert s' = .ok () t' ∧ Beside t t' := by
  cases o with
  | none => exact ⟨s, s', rfl, rfl, h⟩
  | some p => exact ⟨_, _, rfl, rfl, h.xref p _ _⟩

theorem release_ok' {refs : Nat → Nat} {s : Mgr} (h : HeapOk refs s) {p : Nat} (hp : 0 < refs p) :
    release cfg p s = .ok () { s with cells := upd s.cells p { s.cells p with xref := (s.cells p).xref - 1 } } := by
  have hx : 0 < (s.cells p).xref := by
    have := h.count p (h.held p hp)
    split at this <;> omega
  unfold release
  rw [M.get_bind_apply, M.assert_bind_apply (by simpa using hx)]
  rfl

theorem onMgr_ok_of {α : Type} {m : M Mgr α} {a : Api} {r : α} {s : Mgr} (e : m a.mgr = .ok r s) : onMgr m a = .ok r { a with mgr := s } := by
  unfold onMgr; rw [e]

/-- A handle operation succeeds in both states, or fails in both because it names a slot that does not exist. -/
theorem handle_along {a b : Api} (h : Alongside b a) (ha : HeapOk a.count a.mgr) (hb : HeapOk b.count b.mgr) {o : Op} (hc : ∀ f is, o ≠ .call f is)
    (hg : o ≠ .gc) : (∃ a' b', step cfg o a = .ok () a' ∧ step cfg o b = .ok () b' ∧ Alongside b' a') ∨ (step cfg o a = .ub ∧ step cfg o b = .ub) := by
  cases o with
  | call f is => exact absurd rfl (hc f is)
  | gc => exact absurd rfl hg
  | copy i =>
    simp only [LBDD.step]
    rw [M.get_bind_apply, M.get_bind_apply, h.hs]
    cases b.hs[i]? with
    | none => exact Or.inr ⟨rfl, rfl⟩
    | some o =>
      obtain ⟨t, t', e1, e2, ht⟩ := acquire_beside h.beside o
      dsimp only
      rw [M.bind_ok (onMgr_ok_of e1), M.bind_ok (onMgr_ok_of e2)]
      exact Or.inl ⟨_, _, rfl, rfl, ht.along (by show a.hs ++ [o] = b.hs ++ [o]; rw [h.hs])⟩
  | move i =>
    simp only [LBDD.step]
    rw [M.get_bind_apply, M.get_bind_apply, h.hs]
    cases b.hs[i]? with
    | none => exact Or.inr ⟨rfl, rfl⟩
    | some o => exact Or.inl ⟨_, _, rfl, rfl, ⟨rfl, h.cell, h.live, h.nvars, h.rng, h.hw, h.marks⟩⟩
  | assign i j =>
    simp only [LBDD.step]
    rw [M.get_bind_apply, M.get_bind_apply, h.hs]
    cases b.hs[i]? with
    | none => exact Or.inr ⟨rfl, rfl⟩
    | some oi =>
      cases b.hs[j]? with
      | none => exact Or.inr ⟨rfl, rfl⟩
      | some oj =>
        obtain ⟨t, t', e1, e2, ht⟩ := releaseNoAssert_beside h.beside oi
        obtain ⟨w, w', k1, k2, hw⟩ := acquire_beside ht oj
        dsimp only
        rw [M.bind_ok (onMgr_ok_of e1), M.bind_ok (onMgr_ok_of e2)]
        rw [M.bind_ok (onMgr_ok_of (a := ⟨t, b.hs⟩) k1), M.bind_ok (onMgr_ok_of (a := ⟨t', a.hs⟩) k2)]
        exact Or.inl ⟨_, _, rfl, rfl, hw.along (by show a.hs.set i oj = b.hs.set i oj; rw [h.hs])⟩
  | drop i =>
    simp only [LBDD.step]
    rw [M.get_bind_apply, M.get_bind_apply, h.hs]
    cases e : b.hs[i]? with
    | none => exact Or.inr ⟨rfl, rfl⟩
    | some o =>
      dsimp only
      cases o with
      | none => 
        exact Or.inl ⟨_, _, rfl, rfl, ⟨(by show a.hs.set i none = b.hs.set i none; rw [h.hs]), h.cell, h.live, h.nvars, h.rng, h.hw, h.marks⟩⟩
      | some p =>
        have e' : a.hs[i]? = some (some p) := by rw [h.hs]; exact e
        rw [M.bind_ok (onMgr_ok_of (show optM (some p) (release cfg) b.mgr = _ from release_ok' hb (count_pos e))),
          M.bind_ok (onMgr_ok_of (show optM (some p) (release cfg) a.mgr = _ from release_ok' ha (count_pos e')))]
        exact Or.inl ⟨_, _, rfl, rfl, (h.beside.xref p _ _).along (by show a.hs.set i none = b.hs.set i none; rw [h.hs])⟩

theorem gc_along {a a' b : Api} (h : Alongside b a) (ha : HeapOk a.count a.mgr) (e : step cfg .gc a = .ok () a') : Alongside b a' := by
  obtain ⟨e1, e2⟩ := onMgr_ok e
  have hg := (collectGarbage_run ha e1).frees
  refine h.trans ⟨e2, fun q => ?_, hg.live, hg.nvars, hg.rng, hg.hw, collectGarbage_marks e1⟩
  obtain ⟨h1, h2, h3, _⟩ := hg.same q
  exact ⟨h1, h2, h3⟩

/-- The same answers in states that differ by collections, or the same failure. -/
inductive BothEnd {α : Type} : Res Api α → Res Api α → Prop where
  | ok {r : α} {b a : Api} : Alongside b a → HeapOk a.count a.mgr → HeapOk b.count b.mgr → BothEnd (.ok r a) (.ok r b)
  | assertFail : BothEnd .assertFail .assertFail
  | ub : BothEnd .ub .ub
  | hang : BothEnd .hang .hang

theorem session_along : ∀ (es : List Event) {a b : Api}, Alongside b a → HeapOk a.count a.mgr → HeapOk b.count b.mgr → NoCalls es →
    (∀ pre post, es = pre ++ .op .gc :: post → ∀ rs a1, session cfg pre a = .ok rs a1 → ∃ a2, step cfg .gc a1 = .ok () a2) →
    BothEnd (session cfg es a) (session cfg (dropGc es) b) := by
  intro es
  induction es with
  | nil => intro a b h ha hb _ _; exact .ok h ha hb
  | cons e es ih =>
    intro a b h ha hb hn hr
    have hn' : NoCalls es := fun f is hm => hn f is (List.mem_cons_of_mem _ hm)
    cases e with
    | ask q =>
      have hq := Query.same (cfg := cfg) h ha q
      have hr' : ∀ r a', q.run cfg a = .ok r a' → ∀ pre post, es = pre ++ .op .gc :: post → ∀ rs a1, session cfg pre a' = .ok rs a1 →
          ∃ a2, step cfg .gc a1 = .ok () a2 := by
        intro r a' e pre post he rs a1 e1
        refine hr (.ask q :: pre) post (by rw [he]; rfl) (r :: rs) a1 ?_
        show (q.run cfg >>= fun r => session cfg pre >>= fun rs => Pure.pure (r :: rs)) a = _
        rw [M.bind_ok e, M.bind_ok e1]; rfl
      show BothEnd ((q.run cfg >>= fun r => session cfg es >>= fun rs => Pure.pure (r :: rs)) a)
        ((q.run cfg >>= fun r => session cfg (dropGc es) >>= fun rs => Pure.pure (r :: rs)) b)
      show BothEnd (M.bind _ _ a) (M.bind _ _ b)
      unfold M.bind
      generalize q.run cfg a = x at hq hr'
      generalize q.run cfg b = y at hq
      cases hq with
      | ok r m =>
        have h' := ih (a := { a with mgr := { a.mgr with marks := m } }) (b := { b with mgr := { b.mgr with marks := m } })
          ⟨h.hs, h.cell, h.live, h.nvars, h.rng, h.hw, rfl⟩ (ha.mark m) (hb.mark m) hn' (hr' _ _ rfl)
        dsimp only
        show BothEnd (M.bind (session cfg es) (fun rs => Pure.pure (r :: rs)) _) (M.bind (session cfg (dropGc es)) (fun rs => Pure.pure (r :: rs)) _)
        unfold M.bind
        generalize session cfg es _ = x at h'
        generalize session cfg (dropGc es) _ = y at h'
        cases h' with
        | ok h1 h2 h3 => exact .ok h1 h2 h3
        | assertFail => exact .assertFail
        | ub => exact .ub
        | hang => exact .hang
      | assertFail => exact .assertFail
      | ub => exact .ub
      | hang => exact .hang
    | op o =>
      have hc : ∀ f is, o ≠ .call f is := fun f is e => hn f is (by rw [e]; simp)
      have hr' : ∀ a', step cfg o a = .ok () a' → ∀ pre post, es = pre ++ .op .gc :: post → ∀ rs a1, session cfg pre a' = .ok rs a1 →
          ∃ a2, step cfg .gc a1 = .ok () a2 := by
        intro a' e pre post he rs a1 e1
        refine hr (.op o :: pre) post (by rw [he]; rfl) rs a1 ?_
        show (step cfg o >>= fun _ => session cfg pre) a = _
        rw [M.bind_ok e, e1]
      by_cases hg : o = .gc
      · subst hg
        obtain ⟨a2, e2⟩ := hr [] es rfl [] a rfl
        show BothEnd ((step cfg .gc >>= fun _ => session cfg es) a) (session cfg (dropGc es) b)
        rw [M.bind_ok e2]
        exact ih (gc_along h ha e2) (ha.step hc e2) hb hn' (hr' _ e2)
      · have hd : dropGc (.op o :: es) = .op o :: dropGc es := by
          cases o with
          | gc => exact absurd rfl hg
          | _ => rfl
        rw [hd]
        show BothEnd ((step cfg o >>= fun _ => session cfg es) a) ((step cfg o >>= fun _ => session cfg (dropGc es)) b)
        rcases handle_along h ha hb hc hg with ⟨a', b', e1, e2, h'⟩ | ⟨e1, e2⟩
        · rw [M.bind_ok e1, M.bind_ok e2]
          exact ih h' (ha.step hc e1) (hb.step hc e2) hn' (hr' _ e1)
        · show BothEnd (M.bind _ _ a) (M.bind _ _ b)
          unfold M.bind
          rw [e1, e2]
          exact .ub

/-- **C90** In any state of any history, for any sequence of handle operations, questions and collections that return — whatever the state of the
unique tables: collections give no answer away. All answers, all handles and also all failures are those of the sequence without the collections. -/
theorem C90_invisible {a : Api} (hR : Reachable cfg u a) {es : List Event} (hn : NoCalls es)
    (hr : ∀ pre post, es = pre ++ .op .gc :: post → ∀ rs a1, session cfg pre a = .ok rs a1 → ∃ a2, step cfg .gc a1 = .ok () a2) :
    SeenAs (session cfg es a) (session cfg (dropGc es) a) := by
  have h := session_along es (.refl a) hR.good.heapOk hR.good.heapOk hn hr
  generalize session cfg es a = x at h
  generalize session cfg (dropGc es) a = y at h
  cases h with
  | ok h1 _ _ => exact ⟨rfl, h1.hs, h1.nvars⟩
  | assertFail => trivial
  | ub => trivial
  | hang => trivial

/-- If a session returns, all its collections return. -/
theorem session_returns : ∀ (es : List Event) {a z : Api} {ws : List Answer}, session cfg es a = .ok ws z →
    ∀ pre post, es = pre ++ .op .gc :: post → ∀ rs a1, session cfg pre a = .ok rs a1 → ∃ a2, step cfg .gc a1 = .ok () a2 := by
  intro es a z ws hz pre post he rs a1 e1
  subst he
  induction pre generalizing a z ws rs with
  | nil =>
    cases e1
    obtain ⟨_, a2, e2, _⟩ := bind_ok_inv (m := step cfg .gc) (f := fun _ => session cfg post) hz
    exact ⟨a2, e2⟩
  | cons e pre ih =>
    cases e with
    | op o =>
      obtain ⟨_, a2, e2, e3⟩ := bind_ok_inv (m := step cfg o) (f := fun _ => session cfg (pre ++ .op .gc :: post)) hz
      obtain ⟨_, a2', e2', e3'⟩ := bind_ok_inv (m := step cfg o) (f := fun _ => session cfg pre) e1
      rw [e2] at e2'
      cases e2'
      exact ih _ e3' e3
    | ask q =>
      obtain ⟨r, a2, e2, e3⟩ := bind_ok_inv (m := q.run cfg) (f := fun r => session cfg (pre ++ .op .gc :: post) >>= fun rs => Pure.pure (r :: rs)) hz
      obtain ⟨r', a2', e2', e3'⟩ := bind_ok_inv (m := q.run cfg) (f := fun r => session cfg pre >>= fun rs => Pure.pure (r :: rs)) e1
      rw [e2] at e2'
      cases e2'
      obtain ⟨_, _, e4, _⟩ := bind_ok_inv e3
      obtain ⟨_, _, e4', e5⟩ := bind_ok_inv e3'
      cases e5
      exact ih _ e4' e4

/-- **C90** A session that returns gives the answers of the session without its collections. -/
theorem C90_same_answers {a z : Api} (hR : Reachable cfg u a) {es : List Event} (hn : NoCalls es) {rs : List Answer} (e : session cfg es a = .ok rs z) :
    ∃ b, session cfg (dropGc es) a = .ok rs b ∧ z.hs = b.hs ∧ z.mgr.nvars = b.mgr.nvars := by
  have h := C90_invisible hR hn (session_returns es e)
  rw [e] at h
  generalize session cfg (dropGc es) a = y at h
  cases y with
  | ok rs' b =>
    obtain ⟨h1, h2, h3⟩ := h
    subst h1
    exact ⟨b, rfl, h2, h3⟩
  | throw _ => exact h.elim
  | assertFail => exact h.elim
  | ub => exact h.elim
  | hang => exact h.elim

/-! ### Answers after collections are right -/

theorem Collected.shadow {a : Api} (h : Collected cfg u a) : ∃ b, Reachable cfg u b ∧ Alongside b a := by
  induction h with
  | @base a h => exact ⟨a, h, .refl a⟩
  | @step a a' op hC hop e ih =>
    obtain ⟨b, hb, hs⟩ := ih
    by_cases hg : op = .gc
    · subst hg
      exact ⟨b, hb, gc_along hs hC.heap e⟩
    · rcases handle_along (cfg := cfg) hs hC.heap hb.good.heapOk hop hg with ⟨x, b', e1, e2, h'⟩ | ⟨e1, _⟩
      · rw [e] at e1
        cases e1
        refine ⟨b', .step hb ?_ e2, h'⟩
        cases op with
        | call f is => exact absurd rfl (hop f is)
        | gc => exact absurd rfl hg
        | _ => trivial
      · rw [e] at e1
        cases e1

theorem Alongside.looks {a b : Api} {S : Store} (h : Alongside b a) (ha : HeapOk a.count a.mgr) : Looks cfg a S ↔ Looks cfg b S := by
  have key : ∀ p, a.Holds p → ∀ x, evaluate cfg a.mgr p x = evaluate cfg b.mgr p x := by
    intro p hp x
    have hm := h.mirror ha
    unfold evaluate
    rw [fuel1_alike hm]
    exact evaluateAux_alike hm x _ ⟨p, hp, .refl _⟩
  constructor
  · intro hl
    refine ⟨by rw [← h.nvars]; exact hl.nvars, by rw [← h.hs]; exact hl.len, fun i o w ho hw => ?_⟩
    rw [← h.hs] at ho
    have := hl.slot i o w ho hw
    cases o with
    | none => cases w with
      | none => trivial
      | some F => exact this.elim
    | some p => cases w with
      | none => exact this.elim
      | some F =>
        intro x hx
        show evaluate cfg b.mgr p x = _
        rw [← key p (List.mem_of_getElem? ho)]
        exact this x (by unfold Covers; rw [h.nvars]; exact hx)
  · intro hl
    refine ⟨by rw [h.nvars]; exact hl.nvars, by rw [h.hs]; exact hl.len, fun i o w ho hw => ?_⟩
    have ho' := ho
    rw [h.hs] at ho'
    have := hl.slot i o w ho' hw
    cases o with
    | none => cases w with
      | none => trivial
      | some F => exact this.elim
    | some p => cases w with
      | none => exact this.elim
      | some F =>
        intro x hx
        show evaluate cfg a.mgr p x = _
        rw [key p (List.mem_of_getElem? ho)]
        exact this x (by unfold Covers; rw [← h.nvars]; exact hx)

/-- **C90** A collection that returns leaves the store of Boolean functions that the client holds as it is. -/
theorem C90_store {a a' : Api} {S : Store} (hC : Collected cfg u a) (e : step cfg .gc a = .ok () a') : Looks cfg a' S ↔ Looks cfg a S :=
  (gc_along (.refl a) hC.heap e).looks (hC.heap.step (fun _ _ e => by cases e) e)

/-- **C90** In ordered histories followed by any handle operations and collections that return, every admissible question is answered right, and asking
changes nothing. -/
theorem C90_right {a : Api} {S : Store} (hC : Collected cfg .ordered a) (h : Looks cfg a S) {q : Query} (hq : q.Legal cfg S) :
    ∃ r, q.run cfg a = .ok r a ∧ q.Right S r := by
  obtain ⟨b, hb, hs⟩ := hC.shadow
  obtain ⟨r, e, hr⟩ := C85_answers hb ((hs.looks hC.heap).1 h) hq
  refine ⟨r, ?_, hr⟩
  have hq := Query.same (cfg := cfg) hs hC.heap q
  rw [e] at hq
  generalize hy : q.run cfg a = y at hq
  generalize hx : (Res.ok r b : Res Api Answer) = x at hq
  cases hq with
  | ok r' m =>
    injection hx with h1 h2
    subst h1
    have hm : m = a.mgr.marks := by rw [hs.marks, h2]
    rw [hm]
  | assertFail => cases hx
  | ub => cases hx
  | hang => cases hx

end

/-! ### Concrete cases -/

/-- A session with two collections. In `dupState` the first one stores node 4 a second time and frees another node. -/
def seenEvents : List Event :=
  [.ask (.nrNodes 2), .op .gc, .ask (.nrNodes 2), .ask (.evaluate 2 [true, false]), .op (.copy 2), .op .gc, .ask (.equal 2 3), .ask (.topVariable 3), .op (.drop 1),
    .ask (.isTerminal 3), .ask (.evaluate 3 [true, true])]

/-- The hypotheses of C90 are met by a session in which a collection does harm to the unique table (`C31_refuted_double_free`); these are the answers, with and
without the collections. The two final states differ. -/
theorem C90_concrete (nd : Bool) : ∃ z b rs, Reachable (gcEnv nd 63 0) .ordered (dupState nd) ∧ NoCalls seenEvents ∧
    session (gcEnv nd 63 0) seenEvents (dupState nd) = .ok rs z ∧ session (gcEnv nd 63 0) (dropGc seenEvents) (dupState nd) = .ok rs b ∧
    rs = [.num 2, .num 2, .bool false, .bool true, .num 0, .bool false, .bool true] ∧ z.hs = b.hs ∧ z.mgr.pool.total < b.mgr.pool.total := by
  have hR : Reachable (gcEnv nd 63 0) .ordered (dupState nd) := stateAfter_reachable _ _ _
  have hn : NoCalls seenEvents := by
    intro f is h
    simp [seenEvents] at h
  have hk : (match session (gcEnv nd 63 0) seenEvents (dupState nd), session (gcEnv nd 63 0) (dropGc seenEvents) (dupState nd) with
      | .ok rs z, .ok _ b => decide (rs = [.num 2, .num 2, .bool false, .bool true, .num 0, .bool false, .bool true]) && decide (z.mgr.pool.total < b.mgr.pool.total)
      | _, _ => false) = true := by cases nd <;> decide +kernel
  cases e : session (gcEnv nd 63 0) seenEvents (dupState nd) with
  | ok rs z =>
    obtain ⟨b, e1, e2, _⟩ := C90_same_answers hR hn e
    rw [e, e1] at hk
    simp only [Bool.and_eq_true, decide_eq_true_eq] at hk
    exact ⟨z, b, rs, hR, hn, rfl, e1, hk.1, e2, hk.2⟩
  | throw _ => rw [e] at hk; cases hk
  | assertFail => rw [e] at hk; cases hk
  | ub => rw [e] at hk; cases hk
  | hang => rw [e] at hk; cases hk

/-- The hypotheses of `C90_right` and `C90_store` where the collection has done harm. -/
theorem C90_right_concrete (nd : Bool) : ∃ a' S, Collected (gcEnv nd 63 0) .ordered a' ∧ Looks (gcEnv nd 63 0) (dupState nd) S ∧ Looks (gcEnv nd 63 0) a' S ∧
    step (gcEnv nd 63 0) .gc (dupState nd) = .ok () a' ∧ (a'.mgr.tabs 0).slots 0 = some 4 ∧ (a'.mgr.tabs 0).slots 63 = some 4 ∧
    (Query.variables 2).Legal (gcEnv nd 63 0) S := by
  have e : step (gcEnv nd 63 0) .gc (dupState nd) = .ok () (stA (step (gcEnv nd 63 0) .gc (dupState nd)) (dupState nd)) :=
    okA_sound (by cases nd <;> decide +kernel)
  have hR : Reachable (gcEnv nd 63 0) .ordered (dupState nd) := stateAfter_reachable _ _ _
  obtain ⟨S, hS⟩ := looks_exists hR
  have hl : (dupState nd).hs[2]? = some (some 4) := by cases nd <;> decide +kernel
  refine ⟨_, S, .step (.base hR) (fun _ _ e => by cases e) e, hS, (C90_store (.base hR) e).2 hS, e, ?_, ?_, ?_⟩
  · cases nd <;> decide +kernel
  · cases nd <;> decide +kernel
  · show ∃ F, S.slots[2]? = some (some F)
    have hlen : 2 < S.slots.length := by
      rw [← hS.len]
      exact (List.getElem?_eq_some_iff.1 hl).1
    have e2 := List.getElem?_eq_getElem hlen
    have hs := hS.slot 2 _ _ hl e2
    cases e3 : S.slots[2] with
    | none => rw [e3] at hs; exact hs.elim
    | some F => rw [e3] at e2; exact ⟨F, e2⟩

end LBDD
