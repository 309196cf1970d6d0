import Verif.Props.Canon
import Verif.Proof.GcFuel
/-!
# Garbage collection (C31–C35): what holds in general

The refutations are in `Props/GcBad.lean`.
-/
namespace LBDD
section
variable {cfg : Cfg} {u : Use} {a a' : Api}

/-! ## C31 -/

/-- States reached by a legal history followed by arbitrarily many further handle operations and garbage collections, safe or not, as
long as these return. -/
inductive Collected (cfg : Cfg) (u : Use) : Api → Prop
  | base {a : Api} : Reachable cfg u a → Collected cfg u a
  | step {a a' : Api} {op : Op} : Collected cfg u a → (∀ f is, op ≠ .call f is) → step cfg op a = .ok () a' → Collected cfg u a'

/-- The parts of the state that `HeapOk` needs when only a reference count changes. -/
theorem HeapOk.setXref {refs : Nat → Nat} {s : Mgr} (h : HeapOk refs s) {p n : Nat} {x : Int} (hl : (s.cells p).live = true)
    (hx : x = n + arcsTo s.cells p s.pool.hw + (if p < 2 then 1 else 0)) :
    HeapOk (upd refs p n) { s with cells := upd s.cells p { s.cells p with xref := x } } := by
  have same : ∀ q, (upd s.cells p { s.cells p with xref := x } q).live = (s.cells q).live ∧
      (upd s.cells p { s.cells p with xref := x } q).lo = (s.cells q).lo ∧
      (upd s.cells p { s.cells p with xref := x } q).hi = (s.cells q).hi ∧
      (upd s.cells p { s.cells p with xref := x } q).index = (s.cells q).index := by
    intro q
    by_cases hq : q = p
    · subst hq; simp
    · simp [upd_ne _ _ hq]
  have harc : ∀ q m, arcsTo (upd s.cells p { s.cells p with xref := x }) q m = arcsTo s.cells q m := by
    intro q m
    induction m with
    | zero => rfl
    | succ m ih =>
      obtain ⟨a1, a2, a3, _⟩ := same m
      simp only [arcsTo, ih, a1, a2, a3]
  constructor
  · show (upd s.cells p _ 0).index = botsinkIndex ∧ (upd s.cells p _ 1).index = topsinkIndex
    rw [(same 0).2.2.2, (same 1).2.2.2]; exact h.sink
  · intro q q2 hq
    show (upd s.cells p _ (upd s.cells p _ q).lo).live = true ∧ (upd s.cells p _ (upd s.cells p _ q).hi).live = true
    rw [(same q).2.1, (same q).2.2.1, (same _).1, (same _).1]
    exact h.child q q2 ((same q).1 ▸ hq)
  · intro q hq
    exact h.bound q ((same q).1 ▸ hq)
  · intro q hq
    show (upd s.cells p _ q).xref = (upd refs p n q : Nat) + (arcsTo (upd s.cells p _) q s.pool.hw : Nat) + _
    rw [harc]
    by_cases hqp : q = p
    · subst hqp; simp [hx]
    · rw [upd_ne _ _ hqp, upd_ne _ _ hqp]
      exact h.count q ((same q).1 ▸ hq)
  · intro q hq
    show (upd s.cells p _ q).live = true
    rw [(same q).1]
    by_cases hqp : q = p
    · subst hqp; exact hl
    · rw [upd_ne _ _ hqp] at hq; exact h.held q hq
  · intro q hq
    show (upd s.cells p _ q).live = false
    rw [(same q).1]; exact h.avail q hq

theorem HeapOk.congr_refs {refs refs' : Nat → Nat} {s : Mgr} (hi : HeapOk refs s) (h : ∀ p, refs' p = refs p) : HeapOk refs' s := by
  have : refs' = refs := funext h
  rw [this]; exact hi

theorem HeapOk.acquire {refs : Nat → Nat} {s s' : Mgr} (h : HeapOk refs s) {o : Option Nat}
    (hl : ∀ p, o = some p → (s.cells p).live = true) (e : optM o LBDD.acquire s = .ok () s') :
    HeapOk (fun q => refs q + (if o = some q then 1 else 0)) s' := by
  cases o with
  | none => cases e; exact h.congr_refs (by intro q; simp)
  | some p =>
    cases e
    have hl := hl p rfl
    refine (h.setXref (n := refs p + 1) hl (by rw [h.count p hl]; push_cast; omega)).congr_refs ?_
    intro q
    by_cases hq : q = p
    · subst hq; simp
    · simp [upd_ne _ _ hq, Ne.symm hq]

theorem HeapOk.release {refs : Nat → Nat} {s s' : Mgr} (h : HeapOk refs s) {o : Option Nat}
    (hr : ∀ p, o = some p → 0 < refs p) (e : optM o releaseNoAssert s = .ok () s') :
    HeapOk (fun q => refs q - (if o = some q then 1 else 0)) s' ∧ ∀ q, (s'.cells q).live = (s.cells q).live := by
  cases o with
  | none => cases e; exact ⟨h.congr_refs (by intro q; simp), fun _ => rfl⟩
  | some p =>
    cases e
    have hr := hr p rfl
    have hl := h.held p hr
    refine ⟨(h.setXref (n := refs p - 1) hl (by rw [h.count p hl]; omega)).congr_refs ?_, ?_⟩
    · intro q
      by_cases hq : q = p
      · subst hq; simp
      · simp [upd_ne _ _ hq, Ne.symm hq]
    · intro q
      show (upd s.cells p _ q).live = _
      by_cases hq : q = p
      · subst hq; simp
      · simp [upd_ne _ _ hq]

theorem release_noAssert {p : Nat} {s s' : Mgr} (e : release cfg p s = .ok () s') : releaseNoAssert p s = .ok () s' := by
  unfold release at e
  rw [M.get_bind_apply] at e
  obtain ⟨_, s1, e1, e2⟩ := bind_ok_inv e
  unfold M.assert at e1
  split at e1
  · cases e1; cases e2; rfl
  · cases e1

/-- Handle operations, and collections that return, keep the reference counts right. -/
theorem HeapOk.step {op : Op} (ih : HeapOk a.count a.mgr) (hop : ∀ f is, op ≠ .call f is) (e : step cfg op a = .ok () a') : HeapOk a'.count a'.mgr := by
  cases op with
  | call f is => exact absurd rfl (hop f is)
  | gc =>
    obtain ⟨e1, e2⟩ := onMgr_ok e
    refine (collectGarbage_run ih e1).ok.congr_refs ?_
    intro p; unfold Api.count; rw [e2]
  | copy i =>
    simp only [LBDD.step] at e
    rw [M.get_bind_apply] at e
    cases e1 : a.hs[i]? with
    | none => rw [e1] at e; cases e
    | some o =>
      rw [e1] at e
      dsimp only at e
      obtain ⟨_, a1, e2, e3⟩ := bind_ok_inv e
      obtain ⟨e4, e5⟩ := onMgr_ok e2
      cases e3
      refine (ih.acquire (fun p hp => ?_) e4).congr_refs ?_
      · subst hp; exact ih.held p (count_pos e1)
      · intro p
        show (a1.hs ++ [o]).count (some p) = _
        rw [e5, List.count_append, List.count_singleton]
        simp [Api.count]
  | move i =>
    simp only [LBDD.step] at e
    rw [M.get_bind_apply] at e
    cases e1 : a.hs[i]? with
    | none => rw [e1] at e; cases e
    | some o =>
      rw [e1] at e
      cases e
      refine ih.congr_refs ?_
      intro p
      show (a.hs.set i none ++ [o]).count (some p) = a.count p
      rw [List.count_append, count_set e1, List.count_singleton]
      by_cases ho : o = some p
      · subst ho
        have := count_pos e1
        simp
        omega
      · simp [ho]
  | assign i j =>
    simp only [LBDD.step] at e
    rw [M.get_bind_apply] at e
    cases e1 : a.hs[i]? with
    | none => rw [e1] at e; cases e
    | some oi =>
      cases e2 : a.hs[j]? with
      | none => rw [e1, e2] at e; cases e
      | some oj =>
        rw [e1, e2] at e
        dsimp only at e
        obtain ⟨_, a1, f1, e⟩ := bind_ok_inv e
        obtain ⟨_, a2, f2, e⟩ := bind_ok_inv e
        obtain ⟨g1, g2⟩ := onMgr_ok f1
        obtain ⟨k1, k2⟩ := onMgr_ok f2
        cases e
        obtain ⟨h1, h2⟩ := ih.release (fun p hp => by subst hp; exact count_pos e1) g1
        refine (h1.acquire (fun p hp => ?_) k1).congr_refs ?_
        · subst hp; rw [h2]; exact ih.held p (count_pos e2)
        · intro p
          show (a2.hs.set i oj).count (some p) = _
          rw [k2, g2]
          exact count_set e1 p
  | drop i =>
    simp only [LBDD.step] at e
    rw [M.get_bind_apply] at e
    cases e1 : a.hs[i]? with
    | none => rw [e1] at e; cases e
    | some o =>
      rw [e1] at e
      dsimp only at e
      obtain ⟨_, a1, f1, e⟩ := bind_ok_inv e
      obtain ⟨g1, g2⟩ := onMgr_ok f1
      cases e
      have g1' : optM o releaseNoAssert a.mgr = .ok () a1.mgr := by
        cases o with
        | none => exact g1
        | some p => exact release_noAssert g1
      refine (ih.release (fun p hp => by subst hp; exact count_pos e1) g1').1.congr_refs ?_
      intro p
      have := count_set (o' := none) e1 p
      simp only [reduceCtorEq, if_false, Nat.add_zero] at this
      show (a1.hs.set i none).count (some p) = _
      rw [g2]; exact this

theorem Collected.heap (h : Collected cfg u a) : HeapOk a.count a.mgr := by
  induction h with
  | base h => exact h.good.heapOk
  | step _ hop e ih => exact ih.step hop e

/-- `evaluate` only looks at nodes reachable from its argument. -/
theorem evaluateAux_congr {s s' : Mgr} {x : List Bool} (hs : (s.cells 0).index = botsinkIndex ∧ (s.cells 1).index = topsinkIndex) : ∀ (n p : Nat), (∀ q, Reaches s.cells p q →
    (s'.cells q).lo = (s.cells q).lo ∧ (s'.cells q).hi = (s.cells q).hi ∧ (s'.cells q).index = (s.cells q).index ∧
    (s'.cells q).live = (s.cells q).live) →
    evaluateAux cfg s' x n p = evaluateAux cfg s x n p := by
  intro n
  induction n with
  | zero => intro p _; rfl
  | succ n ih =>
    intro p h
    obtain ⟨a1, a2, a3, a4⟩ := h p (.refl _)
    unfold evaluateAux
    simp only [a1, a2, a3, a4]
    split
    · rfl
    split
    · rfl
    split
    · rfl
    rename_i n1 n2
    by_cases hl : (s.cells p).live = true
    · have h2 : 2 ≤ p := by
        by_cases h2 : 2 ≤ p
        · exact h2
        · exfalso
          have : p = 0 ∨ p = 1 := by omega
          rcases this with rfl | rfl
          · exact n1 hs.1
          · exact n2 hs.2
      rw [ih _ (fun q hq => h q (.lo h2 hl hq)),
        ih _ (fun q hq => h q (.hi h2 hl hq))]
    · simp [hl]

/-- C31 (every table layout; see `C31_refuted_double_free` and `C31_refuted_stale_handle` for what is missing): whenever `collect_garbage`
returns, every node reachable from a held handle is still in use, is not offered for re-use, has the same variable and children, is still
reachable, and `evaluate` on every held handle gives the same result for every argument. The state before may itself be the result of any
number of earlier collections, but no calls of manager functions come between those that were not `GcSafe` and this one. -/
theorem C31_gc_keeps_partial (hR : Collected cfg u a) (e : step cfg .gc a = .ok () a') :
    a'.hs = a.hs ∧ a'.mgr.nvars = a.mgr.nvars ∧ ∀ h, a.Holds h →
      (∀ q, Reaches a.mgr.cells h q → Reaches a'.mgr.cells h q ∧ (a'.mgr.cells q).live = true ∧ q ∉ a'.mgr.pool.avail ∧
        (a'.mgr.cells q).index = (a.mgr.cells q).index ∧ (a'.mgr.cells q).lo = (a.mgr.cells q).lo ∧
        (a'.mgr.cells q).hi = (a.mgr.cells q).hi) ∧
      ∀ x, evaluate cfg a'.mgr h x = evaluate cfg a.mgr h x := by
  obtain ⟨e1, e2⟩ := onMgr_ok e
  have hh := hR.heap
  have hg := collectGarbage_run hh e1
  refine ⟨e2, hg.frees.nvars, fun h hh' => ?_⟩
  have hc : 0 < a.count h := List.count_pos_iff.2 hh'
  have hl : (a.mgr.cells h).live = true := hh.held h hc
  constructor
  · intro q hq
    have hlq := hg.keeps h q hc hq
    obtain ⟨s1, s2, s3, _⟩ := hg.frees.same q
    refine ⟨hg.keeps.reaches hg.frees hc hq, hlq, ?_, s3, s1, s2⟩
    intro hav
    rw [hg.ok.avail q hav] at hlq
    cases hlq
  · intro x
    unfold evaluate fuel1
    rw [hg.frees.rng]
    refine evaluateAux_congr hh.sink _ h (fun q hq => ?_)
    obtain ⟨s1, s2, s3, _⟩ := hg.frees.same q
    exact ⟨s1, s2, s3, by rw [hg.keeps h q hc hq, hh.reach_live hl hq]⟩

/-! ## C32 -/

/-- C32, in the ordered discipline where no defect of the collector is triggered (`GcSafe`; otherwise see `C32_refuted`): after
`collect_garbage` the nodes in use are exactly the sinks and the nodes reachable from held handles, and `nr_nodes()` is their number. -/
theorem C32_gc_complete_partial (hR : Reachable cfg .ordered a) (hs : GcSafe cfg a) (e : step cfg .gc a = .ok () a') :
    (∀ p, (a'.mgr.cells p).live = true ↔ a'.Kept p) ∧
    ∃ l : List Nat, l.Nodup ∧ (∀ p, p ∈ l ↔ 2 ≤ p ∧ ∃ h, a'.Holds h ∧ Reaches a'.mgr.cells h p) ∧ a'.mgr.pool.total = l.length + 2 := by
  have hR' : Reachable cfg .ordered a' := .step (op := .gc) hR hs e
  obtain ⟨s', e', _, _, _, hk⟩ := gc_good hR.good hs
  rw [e'] at e
  cases e
  have key : ∀ p, (s'.cells p).live = true ↔ Api.Kept { a with mgr := s' } p := fun p =>
    ⟨fun h => (kept_iff { a with mgr := s' } p).1 (hk (Use.ordered_iff.2 rfl) p h), fun h => hR'.good.kept_live h⟩
  refine ⟨key, ?_⟩
  obtain ⟨l, l1, l2, l3⟩ := C36_mgr_nr_nodes hR'
  refine ⟨l, l1, fun p => ?_, l3⟩
  rw [l2 p]
  constructor
  · rintro ⟨h2, hl⟩
    refine ⟨h2, ?_⟩
    rcases (key p).1 hl with h | h
    · omega
    · exact h
  · rintro ⟨h2, h⟩
    exact ⟨h2, (key p).2 (Or.inr h)⟩

/-! ## C33 -/

/-- C33, where no defect of the collector is triggered (`GcSafe`; otherwise see `C33_refuted`): `collect_garbage` returns. -/
theorem C33_gc_returns_partial (hR : Reachable cfg u a) (hs : GcSafe cfg a) : ∃ a', step cfg .gc a = .ok () a' := by
  obtain ⟨s', e, _⟩ := gc_good hR.good hs
  exact ⟨_, e⟩

/-- The nodes stored in a table, as a list. -/
theorem stored_list {sl : Nat → Option Nat} : ∀ n, (∀ i j p, i < n → j < n → sl i = some p → sl j = some p → i = j) →
    ∃ l : List Nat, l.Nodup ∧ l.length + countFree sl n = n ∧ ∀ p ∈ l, ∃ i, i < n ∧ sl i = some p := by
  intro n
  induction n with
  | zero => intro _; exact ⟨[], by simp, rfl, by simp⟩
  | succ n ih =>
    intro hinj
    obtain ⟨l, l1, l2, l3⟩ := ih (fun i j p hi hj => hinj i j p (by omega) (by omega))
    cases e : sl n with
    | none =>
      refine ⟨l, l1, ?_, fun p hp => ?_⟩
      · simp only [countFree, e]; simp; omega
      · obtain ⟨i, hi, h⟩ := l3 p hp
        exact ⟨i, by omega, h⟩
    | some q =>
      refine ⟨q :: l, ?_, ?_, ?_⟩
      · rw [List.nodup_cons]
        refine ⟨fun hq => ?_, l1⟩
        obtain ⟨i, hi, h⟩ := l3 q hq
        have := hinj i n q (by omega) (by omega) h e
        omega
      · simp only [countFree, e, List.length_cons]; simp; omega
      · intro p hp
        rcases List.mem_cons.1 hp with rfl | hp
        · exact ⟨n, by omega, e⟩
        · obtain ⟨i, hi, h⟩ := l3 p hp
          exact ⟨i, by omega, h⟩

/-- A manager without garbage meets `GcSafe`. -/
theorem gcSafe_of_no_garbage (hR : Reachable cfg u a) (h : ∀ p, (a.mgr.cells p).live = true → a.Kept p) : GcSafe cfg a := by
  have hi := hR.good
  constructor
  · intro v k p hv hk hp hn
    exact absurd (h p ((hi.tab v hv).slots.sound k p (by omega) hp).2.1) hn
  · intro v hv hm
    have ht := hi.tab v hv
    obtain ⟨l, l1, l2, l3⟩ := stored_list _ ht.slots.inj
    refine ⟨l, l1, fun p hp => ?_, ?_⟩
    · obtain ⟨i, hi', hp⟩ := l3 p hp
      obtain ⟨a1, a2, a3⟩ := ht.slots.sound i p hi' hp
      exact ⟨a1, a3, h p a2⟩
    · have := ht.dense (by omega)
      have := ht.free
      omega
  · intro k hk r hr p hp
    obtain ⟨f, g, tf, tg, tr, h1, h2, h3, h4, h5, h6⟩ := hi.memo.entry k hk r hr
    rcases hp with hp | hp | hp | hp
    · rw [h1] at hp; cases hp; exact h p (hi.live_of h3)
    · rw [h2] at hp; cases hp; exact h p (hi.live_of h4)
    · subst hp; exact h r (hi.live_of h5)
    · rcases h6 with ⟨h6, _⟩ | ⟨h6, _⟩ | ⟨q, tq, h6, h7, _⟩
      · rw [h6] at hp
        have := cfg.addr_big p
        simp [andTag] at hp; omega
      · rw [h6] at hp
        have := cfg.addr_big p
        simp [orTag] at hp; omega
      · rw [h6] at hp
        have := cfg.addr_inj _ _ hp
        subst this
        exact h q (hi.live_of h7)

theorem gcVars_none {s : Mgr} {md : Md} {refs : Nat → Nat} (hi : Inv cfg md refs s) (h : ∀ p, (s.cells p).live = true → 0 < (s.cells p).xref) :
    ∀ n i, i + n = s.nvars → gcVars cfg n i s = .ok () s := by
  intro n
  induction n with
  | zero => intro i _; rfl
  | succ n ih =>
    intro i hn
    have ht := hi.tab i (by omega)
    have e : removeDeadNodes cfg i s = .ok () s := by
      unfold removeDeadNodes
      rw [M.get_bind_apply, M.bind_ok (rdOuter_none ht.cap (fun k p hk hp => h p (ht.slots.sound k p (by omega) hp).2.1) _ 0 (by omega) (by omega))]
      exact shrinkTable_none ht
    unfold gcVars
    rw [M.bind_ok e]
    exact ih (i + 1) (by omega)

/-- C33, C35, without garbage: if every node in use is reachable from a handle, `collect_garbage` returns and changes nothing at all. -/
theorem C33_gc_no_garbage (hR : Reachable cfg u a) (h : ∀ p, (a.mgr.cells p).live = true → a.Kept p) : step cfg .gc a = .ok () a := by
  have hi := hR.good
  have e : collectGarbage cfg a.mgr = .ok () a.mgr := by
    unfold collectGarbage
    rw [M.get_bind_apply, M.bind_ok (gcVars_none hi (fun p hp => ((kept_iff a p).2 (h p hp)).pos hi.heapOk hp) _ 0 (by omega))]
    exact purge_none hi
  show onMgr (collectGarbage cfg) a = _
  unfold onMgr
  rw [e]

/-! ## C34 -/

/-- C34, where the collections trigger no defect (`GcSafe`; otherwise see `C34_refuted`): the state after a collection is again a
reachable state, so that every theorem about reachable states applies to it, and every handle denotes what it denoted before. -/
theorem C34_after_gc_partial (hR : Reachable cfg u a) (hs : GcSafe cfg a) (e : step cfg .gc a = .ok () a') :
    Reachable cfg u a' ∧ a'.hs = a.hs ∧ ∀ p F, a.Holds p → Denotes cfg a.mgr p F → Denotes cfg a'.mgr p F := by
  obtain ⟨h1, h2, h3⟩ := C31_gc_keeps_partial (.base hR) e
  refine ⟨.step (op := .gc) hR hs e, h1, fun p F hp dF x hc => ?_⟩
  show evaluate cfg a'.mgr p x = _
  rw [(h3 p hp).2 x]
  exact dF x (hc.anti (by rw [h2]; exact Nat.le_refl _))

/-- C34 spelled out for `and_rec`: conjunction is right on handles held since before the collection, and the result is in use. -/
theorem C34_and_after_gc_partial (hR : Reachable cfg u a) (hs : GcSafe cfg a) (e : step cfg .gc a = .ok () a') {f g : Nat}
    {F G : List Bool → Bool} (hf : a.Holds f) (hg : a.Holds g) (dF : Denotes cfg a.mgr f F) (dG : Denotes cfg a.mgr g G) :
    Returns (andOp cfg f g a'.mgr) (fun r s' => Denotes cfg s' r (fun x => F x && G x)) := by
  obtain ⟨hR', h1, h2⟩ := C34_after_gc_partial hR hs e
  exact C01_and_correct hR' (by unfold Api.Holds; rw [h1]; exact hf) (by unfold Api.Holds; rw [h1]; exact hg) (h2 f F hf dF) (h2 g G hg dG)

/-- C34 spelled out for `or_rec`. -/
theorem C34_or_after_gc_partial (hR : Reachable cfg u a) (hu : u = .ordered ∨ u = .unordered) (hs : GcSafe cfg a)
    (e : step cfg .gc a = .ok () a') {f g : Nat}
    {F G : List Bool → Bool} (hf : a.Holds f) (hg : a.Holds g) (dF : Denotes cfg a.mgr f F) (dG : Denotes cfg a.mgr g G) :
    Returns (orOp cfg f g a'.mgr) (fun r s' => Denotes cfg s' r (fun x => F x || G x)) := by
  obtain ⟨hR', h1, h2⟩ := C34_after_gc_partial hR hs e
  exact C02_or_correct_partial hR' hu (by unfold Api.Holds; rw [h1]; exact hf) (by unfold Api.Holds; rw [h1]; exact hg) (h2 f F hf dF) (h2 g G hg dG)

end
end LBDD
