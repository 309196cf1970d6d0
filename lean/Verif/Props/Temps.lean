import Verif.Proof.TempsColl
import Verif.Props.Coll
import Verif.Props.CollDemo
import Verif.Props.Canon
import Verif.Props.Capacity
import Verif.Props.GcBad
/-! C75: handles that exist only while a function runs.

`step` counts one reference for each handle the user holds. `stepT` (Model/Temps.lean) also creates and destroys every handle object the code
creates on the way: by-value parameters, local variables, results of inner calls, elements of vectors and maps. -/
namespace LBDD

section
variable {cfg : Cfg} {u : Use} {a a' : Api}

/-- References to `p` that are not arcs: handles of the user, and one for each sink. -/
def rootsOf (a : Api) (p : Nat) : Int := a.count p + if p < 2 then 1 else 0

theorem Good.sane (h : Good cfg u a) : Sane (rootsOf a) a.mgr := by
  have hbal : ∀ p, (a.mgr.cells p).live = true → (a.mgr.cells p).xref = rootsOf a p + arcsTo a.mgr.cells p a.mgr.pool.hw := by
    intro p hp
    have := h.ref.count p hp
    rw [this]; unfold rootsOf; split <;> omega
  refine ⟨fun p hp => ?_, h.pool, fun p hp hi => ?_, fun k hk r hr => ?_, h.live0, h.live1, fun p hp => ?_, hbal⟩
  · rw [hbal p hp]; unfold rootsOf; split <;> omega
  · have h2 : 2 ≤ p := by
      rcases hi with hi | hi
      · exact hi
      · have h0 := h.bot.1
        have h1 := h.top.1
        refine Nat.le_of_not_lt fun c => ?_
        have : p = 0 ∨ p = 1 := by omega
        rcases this with rfl | rfl
        · rw [h0] at hi; unfold botsinkIndex topsinkIndex at hi; omega
        · rw [h1] at hi; exact Nat.lt_irrefl _ hi
    exact ⟨h.lo_live h2 hp, h.hi_live h2 hp⟩
  · obtain ⟨f, g, tf, tg, tr, _, _, _, _, h5, _⟩ := h.memo.entry k hk r hr
    exact h.live_of h5
  · unfold rootsOf at hp
    by_cases c : p < 2
    · have : p = 0 ∨ p = 1 := by omega
      rcases this with rfl | rfl
      · exact h.live0
      · exact h.live1
    · rw [if_neg c] at hp
      exact h.ref.live p (by omega)

theorem xs_zero (s : Mgr) : xs zero s = s := by
  unfold xs zero
  have : (fun p => { s.cells p with xref := (s.cells p).xref + 0 }) = s.cells := by
    funext p; simp
  rw [this]

theorem xs_xs (d e : Nat → Int) (s : Mgr) : xs e (xs d s) = xs (plus d e) s := by
  show Mgr.mk _ _ _ _ _ _ _ = Mgr.mk _ _ _ _ _ _ _
  congr 1
  funext p
  show Cell.mk _ _ _ _ _ _ = Cell.mk _ _ _ _ _ _
  congr 1
  show _ + d p + e p = _ + (d p + e p)
  omega

theorem tempOk_zero (s : Mgr) : TempOk zero s := ⟨fun _ => Int.le_refl _, fun _ h => absurd rfl h⟩

theorem zero_plus (d : Nat → Int) : plus zero d = d := by funext p; simp [plus, zero]

theorem Good.allLive (h : Good cfg u a) {is ps : List Nat} (e : a.args is = some ps) : AllLive ps a.mgr := fun p hp => by
  have : 0 < a.count p := List.count_pos_iff.2 (args_holds e p hp)
  exact h.ref.live p this

theorem pushHandles_xs : ∀ (rs : List Nat) (a : Api), pushHandles rs a = .ok () { mgr := xs (refsOf rs) a.mgr, hs := a.hs ++ rs.map some } := by
  intro rs
  induction rs with
  | nil => intro a; show Res.ok () a = _; rw [show refsOf [] = zero from rfl, xs_zero]; simp
  | cons r rs ih =>
    intro a
    have e1 : pushHandle r a = .ok () { mgr := xs (one r) a.mgr, hs := a.hs ++ [some r] } := by
      unfold pushHandle
      have : onMgr (acquire r) a = .ok () { a with mgr := xs (one r) a.mgr } := by
        unfold onMgr
        have := acquire_xs (d := zero) (s := a.mgr) r
        rw [xs_zero, zero_plus] at this
        rw [this]
      rw [M.bind_ok this]
      rfl
    unfold pushHandles
    rw [M.bind_ok e1, ih]
    have : xs (refsOf rs) (xs (one r) a.mgr) = xs (refsOf (r :: rs)) a.mgr := xs_xs _ _ _
    simp only [this, List.map_cons, List.append_assoc, List.singleton_append]

/-- A call with all temporaries, and the same call in the model without them. -/
theorem stepT_call (hg : Good cfg u a) (f : Fn) (is : List Nat) : stepT cfg (.call f is) a = LBDD.step cfg (.call f is) a := by
  show (match a.args is with
      | none => M.ub
      | some ps => onMgr (f.runT cfg ps) >>= fun rs => M.modify fun a => { a with hs := a.hs ++ rs.map some } : M Api Unit) a =
    (match a.args is with
      | none => M.ub
      | some ps => onMgr (f.run cfg ps) >>= fun rs => pushHandles rs : M Api Unit) a
  cases e : a.args is with
  | none => rfl
  | some ps =>
    have h := Fn.run_sim (cfg := cfg) f ps hg.sane (tempOk_zero a.mgr) (hg.allLive e)
    unfold Sim at h
    rw [xs_zero] at h
    simp only
    cases hm : f.run cfg ps a.mgr with
    | ok rs s' =>
      simp only [hm] at h
      have e1 : onMgr (f.run cfg ps) a = .ok rs { a with mgr := s' } := by unfold onMgr; rw [hm]
      have e2 : onMgr (f.runT cfg ps) a = .ok rs { a with mgr := xs (refsOf rs) s' } := by unfold onMgr; rw [h.1, zero_plus]
      rw [M.bind_ok e1, M.bind_ok e2, pushHandles_xs]
      rfl
    | throw s' =>
      simp only [hm] at h
      rw [xs_zero] at h
      have e1 : onMgr (f.run cfg ps) a = .throw { a with mgr := s' } := by unfold onMgr; rw [hm]
      have e2 : onMgr (f.runT cfg ps) a = .throw { a with mgr := s' } := by unfold onMgr; rw [h.1]
      show M.bind _ _ _ = M.bind _ _ _
      unfold M.bind; rw [e1, e2]
    | assertFail =>
      simp only [hm] at h
      show M.bind _ _ _ = M.bind _ _ _
      unfold M.bind onMgr; rw [hm, h]
    | ub =>
      simp only [hm] at h
      show M.bind _ _ _ = M.bind _ _ _
      unfold M.bind onMgr; rw [hm, h]
    | hang =>
      simp only [hm] at h
      show M.bind _ _ _ = M.bind _ _ _
      unfold M.bind onMgr; rw [hm, h]

/-- C75: any operation of the user, with all handles the code creates and destroys while it runs, has the outcome of the same operation where only
the handles of the user are counted: same returned handles, same manager (so the same reference counts), same exceptions, failed assertions and undefined behaviour.
The operation need not be legal. -/
theorem C75_step (hR : Reachable cfg u a) (o : Op) : stepT cfg o a = LBDD.step cfg o a := by
  cases o with
  | call f is => exact stepT_call hR.good f is
  | copy i => rfl
  | move i => rfl
  | assign i j => rfl
  | drop i => rfl
  | gc => rfl

/-- States reachable by histories in which all temporary handles are created and destroyed. -/
inductive ReachableT (cfg : Cfg) (u : Use) : Api → Prop
  | init : ReachableT cfg u (Api.init cfg)
  | step {a a' : Api} {op : Op} : ReachableT cfg u a → Legal cfg u a op → stepT cfg op a = .ok () a' → ReachableT cfg u a'

/-- C75: the same states are reached with and without temporary handles, so every theorem about reachable states is a theorem about the program with them. -/
theorem C75_histories : ReachableT cfg u a ↔ Reachable cfg u a := by
  constructor
  · intro h
    induction h with
    | init => exact .init
    | step _ hl e ih => exact .step ih hl ((C75_step ih _).symm.trans e)
  · intro h
    induction h with
    | init => exact .init
    | step hr hl e ih => exact .step ih hl ((C75_step hr _).trans e)

theorem refsOf_count (l : List Nat) (p : Nat) : refsOf l p = (l.map some).count (some p) := by
  induction l with
  | nil => rfl
  | cons q l ih =>
    show one q p + refsOf l p = _
    rw [ih, List.map_cons, List.count_cons]
    unfold one
    by_cases c : p = q
    · subst c; simp; omega
    · have : ¬ q = p := fun h => c h.symm
      simp [c, this]

/-- C75: whether a call returns or throws, legal or not, afterwards every node's reference count is the number of handles the user has, plus the arcs into it,
plus one for a sink: every temporary handle was destroyed exactly once, also those alive when the exception was thrown. An exception gives the user no handle. -/
theorem C75_exact (hR : Reachable cfg u a) {f : Fn} {is : List Nat}
    (h : stepT cfg (.call f is) a = .ok () a' ∨ stepT cfg (.call f is) a = .throw a') :
    ∀ p, (a'.mgr.cells p).live = true → (a'.mgr.cells p).xref = a'.count p + arcsTo a'.mgr.cells p a'.mgr.pool.hw + (if p < 2 then 1 else 0) := by
  have hg := hR.good
  have hst : stepT cfg (.call f is) a = (match a.args is with
      | none => M.ub
      | some ps => onMgr (f.runT cfg ps) >>= fun rs => M.modify fun a => { a with hs := a.hs ++ rs.map some } : M Api Unit) a := rfl
  rw [hst] at h
  cases e : a.args is with
  | none => simp only [e] at h; rcases h with h | h <;> cases h
  | some ps =>
    simp only [e] at h
    have hs := Fn.run_sim (cfg := cfg) f ps hg.sane (tempOk_zero a.mgr) (hg.allLive e)
    unfold Sim at hs
    rw [xs_zero] at hs
    have hb : ∀ (g : List Nat → M Api Unit), (onMgr (f.runT cfg ps) >>= g) a = M.bind (onMgr (f.runT cfg ps)) g a := fun _ => rfl
    rw [hb] at h
    unfold M.bind onMgr at h
    cases hm : f.run cfg ps a.mgr with
    | ok rs s' =>
      simp only [hm] at hs
      rw [hs.1, zero_plus] at h
      rcases h with h | h
      · have h : Res.ok () _ = Res.ok () a' := h
        cases h
        intro p hp
        have := hs.2.1.bal p hp
        have hc := refsOf_count rs p
        show (s'.cells p).xref + refsOf rs p = ((a.hs ++ rs.map some).count (some p) : Nat) + (arcsTo (xs (refsOf rs) s').cells p s'.pool.hw : Nat) + _
        have ha : arcsTo (xs (refsOf rs) s').cells p s'.pool.hw = arcsTo s'.cells p s'.pool.hw := arcsTo_congr fun i _ _ => ⟨rfl, fun _ => ⟨rfl, rfl⟩⟩
        rw [this, ha, List.count_append, hc]
        unfold rootsOf Api.count
        push_cast
        omega
      · have h : Res.ok () _ = Res.throw a' := h
        cases h
    | throw s' =>
      simp only [hm] at hs
      rw [hs.1, xs_zero] at h
      rcases h with h | h
      · cases h
      · cases h
        intro p hp
        have := hs.2.1.bal p hp
        show (s'.cells p).xref = _
        rw [this]
        unfold rootsOf
        show _ = (a.count p : Int) + (arcsTo s'.cells p s'.pool.hw : Int) + _
        split <;> omega
    | assertFail => simp only [hm] at hs; rw [hs] at h; rcases h with h | h <;> cases h
    | ub => simp only [hm] at hs; rw [hs] at h; rcases h with h | h <;> cases h
    | hang => simp only [hm] at hs; rw [hs] at h; rcases h with h | h <;> cases h

/-- C75: `a & b`, `a || b`, `a ^ b` and `!a` do what the corresponding function of the manager does. -/
theorem C75_operators (hR : Reachable cfg u a) (f : Fn) {p : Nat} {l : List Nat} (hl : ∀ q ∈ p :: l, a.Holds q) :
    operatorT cfg f (p :: l) a.mgr = f.runT cfg (p :: l) a.mgr := by
  have hg := hR.good
  have hlv : AllLive (p :: l) a.mgr := fun q hq => hg.ref.live q (List.count_pos_iff.2 (hl q hq))
  obtain ⟨t, ht⟩ := hg.any (hl p (List.mem_cons_self ..))
  obtain ⟨q, e, _⟩ := findBddMgr_ok (cfg := cfg) hg ht
  have h1 := Fn.run_sim (cfg := cfg) f (p :: l) hg.sane (tempOk_zero a.mgr) hlv
  have h2 : Sim (rootsOf a) zero a.mgr (findBddMgr cfg p >>= fun _ => f.run cfg (p :: l)) (operatorT cfg f (p :: l)) refsOf AllLive := by
    unfold operatorT
    refine .copies owns_refs (tempOk_zero _) hlv fun d ht => .bind (.findBddMgr hg.sane p) fun _ s1 h1 x1 _ => Fn.run_sim f _ h1 (ht.ext x1) (hlv.ext x1)
  unfold Sim at h1 h2
  rw [M.bind_ok e, xs_zero] at h2
  rw [xs_zero] at h1
  cases hm : f.run cfg (p :: l) a.mgr <;> simp only [hm] at h1 h2
  · exact h2.1.trans h1.1.symm
  · exact h2.1.trans h1.1.symm
  all_goals exact h2.trans h1.symm

/-- C75: `collection.add_bdd(f)`, which holds handles in a vector and in the keys of a map, gives the same entry and leaves the same manager, including all reference counts,
as without these handles; by C39 the manager is unchanged. -/
theorem C75_add_bdd (hR : Reachable cfg u a) {c : Coll} (hC : CReachable cfg c) {p : Nat} (hp : a.Holds p) (h2 : 2 ≤ p) :
    addBddT cfg p (a.mgr, c) = addBdd cfg p (a.mgr, c) := by
  have hg := hR.good
  obtain ⟨c', _, e, _⟩ := C39_add_bdd hR hC hp h2
  obtain ⟨t, ht⟩ := hg.any hp
  have hn : c.nrh = [] := hC.inv.nrh
  have hlv : Live p a.mgr := hg.live_of ht
  obtain ⟨k1, _⟩ := addBddT_sim (cfg := cfg) (d := zero) (x := (a.mgr, c)) ⟨hg.sane, fun q hq => by rw [hn] at hq; cases hq⟩ (tempOk_zero _) hlv _ _ e
  have hn' : c'.nrh = [] := (CReachable.add hC rfl hR hp h2 e).inv.nrh
  have hup : ∀ {c : Coll}, c.nrh = [] → up zero (a.mgr, c) = (a.mgr, c) := fun {c} hn => by
    unfold up keyRefs
    rw [hn, show plus zero (refsOf (([] : List (Nat × Nat)).map (·.1))) = zero from plus_zero zero, xs_zero]
  rw [hup hn, hup hn'] at k1
  rw [k1, e]

end

/-! ## Concrete instances -/

/-- C75: exceptions do occur, in histories with all temporaries, with any addresses and hash keys: with more than 2^18 nodes of one variable. -/
theorem C75_throw_occurs (cfg : Cfg) : ∃ a f is a', ReachableT cfg .ordered a ∧ stepT cfg (.call f is) a = .throw a' := by
  refine Classical.byContradiction fun hT => ?_
  obtain ⟨a, f, l, hR, _, hnv, hn, hlen, hl⟩ := build_nodes (cfg := cfg) (fun a op a' h1 ho _ h3 _ => by
    rcases ho with ⟨v, rfl, _⟩ | ⟨is, rfl⟩
    · exact hT ⟨a, _, _, a', C75_histories.2 h1, (C75_step h1 _).trans h3⟩
    · exact hT ⟨a, _, _, a', C75_histories.2 h1, (C75_step h1 _).trans h3⟩) 262146 (Nat.le_refl _)
  have := table_bound hR hnv hn (fun p hp => ⟨(hl p hp).1, (hl p hp).2.1, (hl p hp).2.2.1⟩)
  omega

/-- The state after `and_rec` of (x0∧x1)∨x2 and ¬(x0∧x1), with all temporaries. -/
def temporaryDemo (nd : Bool) : Api := stA (stepT (envOf nd) (.call .and [5, 4]) (demoOf nd)) (demoOf nd)

/-- C75, concretely: the call returns node 11 (held once, so its count is 1); the node of x2 has one handle and four arcs, its count is 5. -/
theorem C75_demo (nd : Bool) : stepT (envOf nd) (.call .and [5, 4]) (demoOf nd) = .ok () (temporaryDemo nd) ∧ Reachable (envOf nd) .ordered (demoOf nd) ∧
    (temporaryDemo nd).hs.getLast? = some (some 11) ∧ ((temporaryDemo nd).mgr.cells 11).xref = 1 ∧ ((temporaryDemo nd).mgr.cells 4).xref = 5 ∧
    (temporaryDemo nd).count 4 = 1 ∧ arcsTo (temporaryDemo nd).mgr.cells 4 (temporaryDemo nd).mgr.pool.hw = 4 := by
  refine ⟨okA_sound ?_, demoOf_reachable nd, ?_, ?_, ?_, ?_, ?_⟩ <;> (cases nd <;> decide +kernel)

/-- C75, concretely: while `simplex` of three handles runs, many temporary handles exist; afterwards one handle was added. -/
theorem C75_demo_simplex (nd : Bool) : okA (stepT (envOf nd) (.call .simplex [0, 1, 2]) (demoOf nd)) = true ∧
    (stA (stepT (envOf nd) (.call .simplex [0, 1, 2]) (demoOf nd)) (demoOf nd)).hs.length = 8 := by
  constructor <;> (cases nd <;> decide +kernel)

/-- C75, concretely: adding (x0∧x1)∨x2 to a collection with four entries. -/
theorem C75_demo_add (nd : Bool) : ∃ c', addBddT (envOf nd) 9 ((demoOf nd).mgr, demoC nd) = .ok 4 ((demoOf nd).mgr, c') := by
  obtain ⟨c', e, _⟩ := C39_example nd
  exact ⟨c', (C75_add_bdd (demoOf_reachable nd) (demoC_reachable nd) (demoOf_holds nd 9 (by simp)).1 (by omega)).trans e⟩

end LBDD
