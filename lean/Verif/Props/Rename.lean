import Verif.Props.Formula
import Verif.Props.Query
import Verif.Props.Minimal
import Verif.Props.Repeat
/-!
# Renamings (C88)

`m`, `m1`, `m2` are variable maps as passed to `rebase`, `f`, `g` the functions they are on the variables that matter.
-/
namespace LBDD

theorem renTree_comp (f g : Nat → Nat) (t : Tree) : renTree g (renTree f t) = renTree (fun v => g (f v)) t := by
  induction t with
  | bot => rfl
  | top => rfl
  | node v l h ihl ihh =>
    simp only [renTree]
    unfold mkTree
    split
    · rename_i e
      rw [← ihl, ← ihh, e, if_pos rfl]
    · simp only [renTree, mkTree, ihl, ihh]

theorem renTree_id {f : Nat → Nat} : ∀ {t : Tree}, t.Reduced → (∀ v, t.Mem v → f v = v) → renTree f t = t
  | .bot, _, _ => rfl
  | .top, _, _ => rfl
  | .node v l h, hr, hf => by
    simp only [renTree]
    rw [hf v (Or.inl rfl), renTree_id hr.2.1 (fun u hu => hf u (Or.inr (Or.inl hu))), renTree_id hr.2.2 (fun u hu => hf u (Or.inr (Or.inr hu)))]
    unfold mkTree
    rw [if_neg hr.1]

/-- Every node of the renamed tree is a renamed node. -/
theorem renTree_sub {f : Nat → Nat} {u : Tree} : ∀ {t : Tree}, (renTree f t).Sub u → ∃ w, t.Sub w ∧ renTree f w = u
  | .bot, h => h.elim
  | .top, h => h.elim
  | .node v l h, hs => by
    simp only [renTree] at hs
    unfold mkTree at hs
    split at hs
    · obtain ⟨w, a, b⟩ := renTree_sub hs
      exact ⟨w, Or.inr (Or.inl a), b⟩
    · rename_i ne
      rcases hs with e | e | e
      · refine ⟨.node v l h, Or.inl rfl, ?_⟩
        simp only [renTree, mkTree]
        rw [if_neg ne, e]
      · obtain ⟨w, a, b⟩ := renTree_sub e
        exact ⟨w, Or.inr (Or.inl a), b⟩
      · obtain ⟨w, a, b⟩ := renTree_sub e
        exact ⟨w, Or.inr (Or.inr a), b⟩

/-- An injective renaming has an inverse. -/
theorem inverse_of {f : Nat → Nat} {P : Nat → Prop} (h : ∀ v w, P v → P w → f v = f w → v = w) : ∃ g : Nat → Nat, ∀ v, P v → g (f v) = v := by
  classical
  refine ⟨fun y => if e : ∃ v, P v ∧ f v = y then Classical.choose e else 0, ?_⟩
  intro v hv
  have e : ∃ w, P w ∧ f w = f v := ⟨v, hv, rfl⟩
  simp only [dif_pos e]
  exact h _ _ (Classical.choose_spec e).1 hv (Classical.choose_spec e).2

theorem renTree_inv {f g : Nat → Nat} {t : Tree} (hr : t.Reduced) (hg : ∀ v, t.Mem v → g (f v) = v) : renTree g (renTree f t) = t := by
  rw [renTree_comp]; exact renTree_id hr hg

/-- Injective renamings keep all nodes. -/
theorem renTree_keeps {f g : Nat → Nat} {w : Tree} : ∀ {t : Tree}, t.Reduced → (∀ v, t.Mem v → g (f v) = v) → t.Sub w → (renTree f t).Sub (renTree f w)
  | .bot, _, _, h => h.elim
  | .top, _, _, h => h.elim
  | .node v l h, hr, hg, hs => by
    have gl : ∀ u, l.Mem u → g (f u) = u := fun u hu => hg u (Or.inr (Or.inl hu))
    have gh : ∀ u, h.Mem u → g (f u) = u := fun u hu => hg u (Or.inr (Or.inr hu))
    have ne : renTree f l ≠ renTree f h := by
      intro e
      have := congrArg (renTree g) e
      rw [renTree_inv hr.2.1 gl, renTree_inv hr.2.2 gh] at this
      exact hr.1 this
    have e : renTree f (.node v l h) = .node (f v) (renTree f l) (renTree f h) := by
      simp only [renTree, mkTree]; rw [if_neg ne]
    rcases hs with rfl | hs | hs
    · rw [e]; exact Or.inl rfl
    · rw [e]; exact Or.inr (Or.inl (renTree_keeps hr.2.1 gl hs))
    · rw [e]; exact Or.inr (Or.inr (renTree_keeps hr.2.2 gh hs))

theorem Tree.Sub.vars {v : Nat} : ∀ {t w : Tree}, t.Sub w → w.Mem v → t.Mem v
  | .bot, _, h, _ => h.elim
  | .top, _, h, _ => h.elim
  | .node _ _ _, _, h, hm => by
    rcases h with rfl | h | h
    · exact hm
    · exact Or.inr (Or.inl (h.vars hm))
    · exact Or.inr (Or.inr (h.vars hm))

section
variable {cfg : Cfg} {u : Use} {a : Api} {p : Nat} {ps : List Nat} {m m1 m2 m12 : List (Nat × Nat)} {f g : Nat → Nat}

/-- The renaming `f` identifies no two variables of the BDD at `p`. -/
def InjectiveOn (s : Mgr) (p : Nat) (f : Nat → Nat) : Prop := ∀ v w, Occurs s p v → Occurs s p w → f v = f w → v = w

/-- The renaming `f` keeps the order of the variables of the BDD at `p`. -/
def IncreasingOn (s : Mgr) (p : Nat) (f : Nat → Nat) : Prop := ∀ v w, Occurs s p v → Occurs s p w → v < w → f v < f w

theorem IncreasingOn.injective {s : Mgr} (h : IncreasingOn s p f) : InjectiveOn s p f := by
  intro v w hv hw e
  rcases Nat.lt_trichotomy v w with h1 | h1 | h1
  · have := h v w hv hw h1; omega
  · exact h1
  · have := h w v hw hv h1; omega

/-- C88: renaming every variable to itself gives back the handle and allocates nothing. -/
theorem C88_identity (hR : Reachable cfg u a) (hp : a.Holds p) (hs : SinkOk cfg ∨ 2 ≤ p) (hm : ∀ v, Occurs a.mgr p v → m.lookup v = some v)
    (hmax : ∀ q ∈ m, q.2 < topsinkIndex) :
    Returns (rebaseMap cfg p m a.mgr) (fun r s' => r = p ∧ AllocatesNothing a.mgr s') := by
  obtain ⟨t, ht⟩ := hR.good.any hp
  refine (rebaseMap_ok hR.good ht hs (f := id) (fun v hv => hm v ((occurs_iff ht v).2 hv)) hmax (fun _ v w _ _ h => h)).returns ?_
  rintro r s' hg hi' ⟨h1, _, h2⟩
  have hr := hR.good.reduced ht
  rw [renTree_id (f := id) hr (fun _ _ => rfl)] at h1
  refine repeat_nothing hR.good hi' hg.cells h1 ht ?_
  intro q hq
  by_cases q2 : 2 ≤ q
  · obtain ⟨w, hw⟩ := hi'.repr hq
    left
    have : LiveT a.mgr w := by
      rcases (h2 w).1 ⟨q, q2, hw⟩ with h | ⟨x, hx, hxw⟩
      · exact h
      · rw [renTree_id (f := id) (hx.reduced hr) (fun _ _ => rfl)] at hxw
        obtain ⟨q1, q12, hq1, rq1⟩ := (ht.sub_iff x).1 hx
        obtain ⟨q3, q32, hq3, rq3⟩ := (rq1.sub_iff w).1 hxw
        exact ⟨q3, q32, rq3⟩
    obtain ⟨q0, q02, rq0⟩ := this
    have e := hi'.repr_inj (rq0.ext hg.cells) hw
    subst e
    exact hR.good.live_of rq0
  · left
    have : q = 0 ∨ q = 1 := by omega
    rcases this with rfl | rfl
    · exact hR.good.live_of .bot
    · exact hR.good.live_of .top

theorem renTree_inner {s s' : Mgr} {r : Nat} {t : Tree} (ht : Repr s.cells p t) (hi : Inv cfg u.md a.count s)
    (hs : SinkOk cfg ∨ (2 ≤ p ∧ InjectiveOn s p f)) (hr : Repr s'.cells r (renTree f t)) : SinkOk cfg ∨ 2 ≤ r := by
  rcases hs with h | ⟨p2, hj⟩
  · exact Or.inl h
  · right
    obtain ⟨g, hg⟩ := inverse_of (P := t.Mem) (fun v w hv hw e => hj v w ((occurs_iff ht v).2 hv) ((occurs_iff ht w).2 hw) e)
    have hsub := renTree_keeps (hi.reduced ht) hg ((ht.sub_iff t).2 ⟨p, p2, .refl _, ht⟩)
    obtain ⟨q, q2, _, rq⟩ := (hr.sub_iff _).1 hsub
    refine Classical.byContradiction fun hlt => ?_
    have : r = 0 ∨ r = 1 := by omega
    rcases this with rfl | rfl
    · rw [Repr.fn hr .bot] at hsub; exact hsub
    · rw [Repr.fn hr .top] at hsub; exact hsub

/-- C88: renaming twice is renaming by the composition. -/
theorem C88_compose (hR : Reachable cfg u a) (hp : a.Holds p) (hs : SinkOk cfg ∨ (2 ≤ p ∧ InjectiveOn a.mgr p f))
    (hm1 : ∀ v, Occurs a.mgr p v → m1.lookup v = some (f v)) (hm2 : ∀ v, Occurs a.mgr p v → m2.lookup (f v) = some (g (f v)))
    (hm12 : ∀ v, Occurs a.mgr p v → m12.lookup v = some (g (f v)))
    (hx1 : ∀ q ∈ m1, q.2 < topsinkIndex) (hx2 : ∀ q ∈ m2, q.2 < topsinkIndex) (hx12 : ∀ q ∈ m12, q.2 < topsinkIndex)
    (ho : u = .ordered → IncreasingOn a.mgr p f ∧ IncreasingOn a.mgr p (fun v => g (f v))) :
    SameHandle (nest1 (rebaseMap cfg p m1) (fun r => rebaseMap cfg r m2)) (rebaseMap cfg p m12) a.mgr := by
  obtain ⟨t, ht⟩ := hR.good.any hp
  have oc : ∀ v, t.Mem v → Occurs a.mgr p v := fun v hv => (occurs_iff ht v).2 hv
  have : SpecG cfg u.md a.count (both (nest1 (rebaseMap cfg p m1) (fun r => rebaseMap cfg r m2)) (rebaseMap cfg p m12)) a.mgr (fun rq _ => rq.1 = rq.2) := by
    unfold both nest1
    refine SpecG.bind (P := fun r s' => Repr s'.cells r (renTree (fun v => g (f v)) t)) ?_ ?_
    · refine SpecG.bind (rebaseMap_ok hR.good ht (hs.imp id And.left) (f := f) (fun v hv => hm1 v (oc v hv)) hx1
        (fun hmd v w hv hw => (ho (Use.ordered_iff.1 hmd)).1 v w (oc v hv) (oc w hw))) ?_
      rintro r s1 x1 i1 ⟨h1, _⟩
      refine (rebaseMap_ok i1 h1 (renTree_inner ht hR.good hs h1) (f := g) ?_ hx2 ?_).mono ?_
      · intro w hw
        obtain ⟨v, hv, rfl⟩ := renTree_mem hw
        exact hm2 v (oc v hv)
      · intro hmd w w' hw hw' hlt
        obtain ⟨v, hv, rfl⟩ := renTree_mem hw
        obtain ⟨v', hv', rfl⟩ := renTree_mem hw'
        obtain ⟨hf, hgf⟩ := ho (Use.ordered_iff.1 hmd)
        refine hgf v v' (oc v hv) (oc v' hv') ?_
        rcases Nat.lt_trichotomy v v' with h | h | h
        · exact h
        · subst h; omega
        · have := hf v' v (oc v' hv') (oc v hv) h; omega
      · rintro q s2 _ _ ⟨h2, _⟩
        rwa [renTree_comp] at h2
    · intro r s2 x2 i2 h2
      refine SpecG.bind (rebaseMap_ok i2 (ht.ext x2.cells) (hs.imp id And.left) (f := fun v => g (f v)) (fun v hv => hm12 v (oc v hv)) hx12
        (fun hmd v w hv hw => (ho (Use.ordered_iff.1 hmd)).2 v w (oc v hv) (oc w hw))) ?_
      rintro q s3 x3 i3 ⟨h3, _⟩
      exact SpecG.pure i3 (i3.repr_inj (h2.ext x3.cells) h3)
  exact this.returns fun _ _ _ _ h => h

/-- C88: renaming back gives back the handle. -/
theorem C88_inverse (hR : Reachable cfg u a) (hp : a.Holds p) (hs : SinkOk cfg ∨ 2 ≤ p)
    (hm1 : ∀ v, Occurs a.mgr p v → m1.lookup v = some (f v)) (hm2 : ∀ v, Occurs a.mgr p v → m2.lookup (f v) = some v)
    (hx1 : ∀ q ∈ m1, q.2 < topsinkIndex) (hx2 : ∀ q ∈ m2, q.2 < topsinkIndex) (ho : u = .ordered → IncreasingOn a.mgr p f) :
    Returns (nest1 (rebaseMap cfg p m1) (fun r => rebaseMap cfg r m2) a.mgr) (fun r _ => r = p) := by
  obtain ⟨t, ht⟩ := hR.good.any hp
  have oc : ∀ v, t.Mem v → Occurs a.mgr p v := fun v hv => (occurs_iff ht v).2 hv
  have hj : InjectiveOn a.mgr p f := by
    intro v w hv hw e
    have h1 := hm2 v hv
    rw [e, hm2 w hw] at h1
    exact (Option.some.inj h1).symm
  obtain ⟨g, hg⟩ := inverse_of hj
  have hs' : SinkOk cfg ∨ (2 ≤ p ∧ InjectiveOn a.mgr p f) := hs.imp id (fun h => ⟨h, hj⟩)
  have : SpecG cfg u.md a.count (nest1 (rebaseMap cfg p m1) (fun r => rebaseMap cfg r m2)) a.mgr (fun r _ => r = p) := by
    unfold nest1
    refine SpecG.bind (rebaseMap_ok hR.good ht hs (f := f) (fun v hv => hm1 v (oc v hv)) hx1
      (fun hmd v w hv hw => ho (Use.ordered_iff.1 hmd) v w (oc v hv) (oc w hw))) ?_
    rintro r s1 x1 i1 ⟨h1, _⟩
    refine (rebaseMap_ok i1 h1 (renTree_inner ht hR.good hs' h1) (f := g) ?_ hx2 ?_).mono ?_
    · intro w hw
      obtain ⟨v, hv, rfl⟩ := renTree_mem hw
      rw [hg v (oc v hv)]
      exact hm2 v (oc v hv)
    · intro hmd w w' hw hw' hlt
      obtain ⟨v, hv, rfl⟩ := renTree_mem hw
      obtain ⟨v', hv', rfl⟩ := renTree_mem hw'
      rw [hg v (oc v hv), hg v' (oc v' hv')]
      rcases Nat.lt_trichotomy v v' with h | h | h
      · exact h
      · subst h; omega
      · have := ho (Use.ordered_iff.1 hmd) v' v (oc v' hv') (oc v hv) h; omega
    · rintro q s2 x2 i2 ⟨h2, _⟩
      rw [renTree_inv (hR.good.reduced ht) (fun v hv => hg v (oc v hv))] at h2
      exact i2.repr_inj h2 ((ht.ext x1.cells).ext x2.cells)
  exact this.returns fun _ _ _ _ h => h

/-- C88: a renaming adds no nodes to a BDD, and one that identifies no two of its variables keeps their number. -/
theorem C88_size (hR : Reachable cfg u a) (hp : a.Holds p) (hs : SinkOk cfg ∨ (2 ≤ p ∧ InjectiveOn a.mgr p f))
    (hm : ∀ v, Occurs a.mgr p v → m.lookup v = some (f v)) (hmax : ∀ q ∈ m, q.2 < topsinkIndex) (ho : u = .ordered → IncreasingOn a.mgr p f) :
    Returns (rebaseMap cfg p m a.mgr) (fun r s' => ∃ k k', nrNodes cfg p a.mgr = .ok k a.mgr ∧ nrNodes cfg r s' = .ok k' s' ∧ k' ≤ k ∧
      (InjectiveOn a.mgr p f → k' = k)) := by
  obtain ⟨t, ht⟩ := hR.good.any hp
  have oc : ∀ v, t.Mem v → Occurs a.mgr p v := fun v hv => (occurs_iff ht v).2 hv
  refine (rebaseMap_ok hR.good ht (hs.imp id And.left) (f := f) (fun v hv => hm v (oc v hv)) hmax
      (fun hmd v w hv hw => ho (Use.ordered_iff.1 hmd) v w (oc v hv) (oc w hw))).returns ?_
  rintro r s' hg hi' ⟨h1, _⟩
  obtain ⟨l, hl, e⟩ := nrNodes_ok hR.good ht (.of hR.good (hs.imp id And.left))
  obtain ⟨l', hl', e'⟩ := nrNodes_ok hi' h1 (.of hi' (renTree_inner ht hR.good hs h1))
  have le : l'.length ≤ l.length := by
    refine pigeon (fun q' q => ∃ w, Repr a.mgr.cells q w ∧ Repr s'.cells q' (renTree f w)) hl'.nodup ?_ ?_
    · intro q' hq'
      obtain ⟨q2, hr⟩ := (hl'.mem q').1 hq'
      obtain ⟨x, hx⟩ := hi'.repr (hr.live_or hi' h1)
      obtain ⟨w, hw, rfl⟩ := renTree_sub ((h1.sub_iff x).2 ⟨q', q2, hr, hx⟩)
      obtain ⟨q, q2', hq, rq⟩ := (ht.sub_iff w).1 hw
      exact ⟨q, (hl.mem q).2 ⟨q2', hq⟩, w, rq, hx⟩
    · rintro x x' y _ _ ⟨w, h1, h2⟩ ⟨w', h1', h2'⟩
      have := h1.fn h1'
      subst this
      exact hi'.repr_inj h2 h2'
  refine ⟨l.length, l'.length, e, e', le, fun hj => Nat.le_antisymm le ?_⟩
  obtain ⟨g, hgi⟩ := inverse_of (P := t.Mem) (fun v w hv hw e => hj v w (oc v hv) (oc w hw) e)
  have hr := hR.good.reduced ht
  refine pigeon (fun q q' => ∃ w, t.Sub w ∧ Repr a.mgr.cells q w ∧ Repr s'.cells q' (renTree f w)) hl.nodup ?_ ?_
  · intro q hq
    obtain ⟨q2, hq⟩ := (hl.mem q).1 hq
    obtain ⟨w, hw⟩ := hR.good.repr (hq.live_or hR.good ht)
    have hsub := (ht.sub_iff w).2 ⟨q, q2, hq, hw⟩
    obtain ⟨q', q2', hq', rq'⟩ := (h1.sub_iff _).1 (renTree_keeps hr hgi hsub)
    exact ⟨q', (hl'.mem q').2 ⟨q2', hq'⟩, w, hsub, hw, rq'⟩
  · rintro x x' y _ _ ⟨w, s1, h1, h2⟩ ⟨w', s1', h1', h2'⟩
    have e := congrArg (renTree g) (h2.fn h2')
    rw [renTree_inv (s1.reduced hr) (fun v hv => hgi v (s1.vars hv)), renTree_inv (s1'.reduced hr) (fun v hv => hgi v (s1'.vars hv))] at e
    subst e
    exact hR.good.repr_inj h1 h1'

/-- Rename all elements of a range, one after the other. -/
def renameAll (cfg : Cfg) (m : List (Nat × Nat)) : List Nat → M Mgr (List Nat)
  | [] => pure []
  | p :: ps => do
    let r ← rebaseMap cfg p m
    let rs ← renameAll cfg m ps
    pure (r :: rs)

theorem renameAll_ok {md : Md} {refs : Nat → Nat} (hs : SinkOk cfg) (hmax : ∀ q ∈ m, q.2 < topsinkIndex) : ∀ {ps : List Nat} {ts : List Tree} {s : Mgr},
    Inv cfg md refs s → Reprs s.cells ps ts → (∀ t ∈ ts, ∀ v, t.Mem v → m.lookup v = some (f v)) →
    (md.ordered → ∀ t ∈ ts, ∀ v w, t.Mem v → t.Mem w → v < w → f v < f w) →
    SpecG cfg md refs (renameAll cfg m ps) s (fun rs s' => Reps s'.cells rs (ts.map fun t x => t.eval (fun v => x (f v))))
  | [], [], _, hi, _, _, _ => SpecG.pure hi trivial
  | p :: ps, t :: ts, s, hi, hr, hm, ho => by
    unfold renameAll
    refine SpecG.bind (rebaseMap_ok hi hr.1 (Or.inl hs) (f := f) (hm t (by simp)) hmax (fun h => ho h t (by simp))) ?_
    rintro r s1 x1 i1 ⟨h1, _⟩
    refine SpecG.bind (renameAll_ok hs hmax (ts := ts) i1 (hr.2.ext x1.cells) (fun t h => hm t (by simp [h])) (fun h t h' => ho h t (by simp [h']))) ?_
    intro rs s2 x2 i2 h2
    exact SpecG.pure i2 ⟨⟨_, h1.ext x2.cells, renTree_eval f t⟩, h2⟩
  | [], _ :: _, _, _, h, _, _ => h.elim
  | _ :: _, [], _, _, h, _, _ => h.elim

theorem reprs_reps {c : Nat → Cell} : ∀ {ps : List Nat} {ts : List Tree}, Reprs c ps ts → Reps c ps (ts.map Tree.eval)
  | [], [], _ => trivial
  | _ :: _, t :: _, h => ⟨⟨t, h.1, fun _ => rfl⟩, reprs_reps h.2⟩
  | [], _ :: _, h => h.elim
  | _ :: _, [], h => h.elim

/-- C88: renaming commutes with every construction from `negate`, `and_rec`, `or_rec` and the range functions: renaming the result or renaming the operands gives the
same handle. -/
theorem C88_formula {φ : Formula} (hR : Reachable cfg .ordered a) (hh : ∀ p ∈ ps, a.Holds p) (hs : SinkOk cfg) (hφ : φ.Wf ps.length)
    (hm : ∀ p ∈ ps, ∀ v, Occurs a.mgr p v → m.lookup v = some (f v)) (hmax : ∀ q ∈ m, q.2 < topsinkIndex)
    (ho : ∀ p ∈ ps, ∀ q ∈ ps, ∀ v w, Occurs a.mgr p v → Occurs a.mgr q w → v < w → f v < f w) :
    SameHandle (nest1 (φ.build cfg ps) (fun r => rebaseMap cfg r m)) (renameAll cfg m ps >>= fun qs => φ.build cfg qs) a.mgr := by
  obtain ⟨ts, ht⟩ := Reprs.ofHolds hR.good hh
  have hol : Use.ordered.md.ordered := Use.ordered_iff.2 rfl
  have hP : OrMode Use.ordered.md := Use.orMode (Or.inl rfl)
  have hlen : ps.length = ts.length := by simpa using (reprs_reps ht).length
  have oc : ∀ t ∈ ts, ∃ p ∈ ps, Repr a.mgr.cells p t := by
    clear hlen hφ hm ho hh
    induction ps generalizing ts with
    | nil => cases ts with
      | nil => intro t h; cases h
      | cons => exact ht.elim
    | cons p ps ih => cases ts with
      | nil => exact ht.elim
      | cons t0 ts =>
        intro t h
        rcases List.mem_cons.1 h with rfl | h
        · exact ⟨p, by simp, ht.1⟩
        · obtain ⟨q, hq, r⟩ := ih ts ht.2 t h
          exact ⟨q, by simp [hq], r⟩
  have mono : ∀ t ∈ ts, ∀ t' ∈ ts, ∀ v w, t.Mem v → t'.Mem w → v < w → f v < f w := by
    intro t h t' h' v w hv hw
    obtain ⟨p, hp, rp⟩ := oc t h
    obtain ⟨q, hq, rq⟩ := oc t' h'
    exact ho p hp q hq v w ((occurs_iff rp v).2 hv) ((occurs_iff rq w).2 hw)
  have look : ∀ t ∈ ts, ∀ v, t.Mem v → m.lookup v = some (f v) := by
    intro t h v hv
    obtain ⟨p, hp, rp⟩ := oc t h
    exact hm p hp v ((occurs_iff rp v).2 hv)
  obtain ⟨N1, d1⟩ := φ.det (ts.map Tree.eval) (by rw [List.length_map, ← hlen]; exact hφ)
  obtain ⟨N2, d2⟩ := φ.det (ts.map fun t x => t.eval (fun v => x (f v))) (by rw [List.length_map, ← hlen]; exact hφ)
  have : SpecG cfg Use.ordered.md a.count (both (nest1 (φ.build cfg ps) (fun r => rebaseMap cfg r m)) (renameAll cfg m ps >>= fun qs => φ.build cfg qs)) a.mgr
      (fun rq _ => rq.1 = rq.2) := by
    unfold both nest1
    refine SpecG.bind (P := fun r s' => ∃ t, Repr s'.cells r t ∧ ∀ x, t.eval x = φ.value (vals (ts.map Tree.eval) (fun v => x (f v)))) ?_ ?_
    · refine SpecG.bind (d1 cfg _ a.count a.mgr ps hP hR.good (reprs_reps ht)).toG ?_
      rintro r s1 x1 i1 ⟨⟨t, rt, et⟩, _⟩
      have sup : ∀ v, t.Mem v → ∃ t' ∈ ts, t'.Mem v := by
        intro v hv
        obtain ⟨x, hx⟩ := (Tree.mem_iff_dependsOn (i1.ord hol _ _ rt) (i1.reduced rt) v).1 hv
        rw [et, et] at hx
        refine Classical.byContradiction fun hn => hx ?_
        refine congrArg φ.value ?_
        unfold vals
        rw [List.map_map, List.map_map]
        refine List.map_congr_left fun t' ht' => ?_
        refine Classical.byContradiction fun hne => hn ⟨t', ht', Tree.dependsOn_mem ⟨x, hne⟩⟩
      refine (rebaseMap_ok i1 rt (Or.inl hs) (f := f) ?_ hmax ?_).mono ?_
      · intro v hv
        obtain ⟨t', h', hv'⟩ := sup v hv
        exact look t' h' v hv'
      · intro _ v w hv hw
        obtain ⟨t', h', hv'⟩ := sup v hv
        obtain ⟨t'', h'', hw''⟩ := sup w hw
        exact mono t' h' t'' h'' v w hv' hw''
      · rintro q s2 _ _ ⟨h2, _⟩
        exact ⟨_, h2, fun x => by rw [renTree_eval, et]⟩
    · rintro r s2 x2 i2 ⟨t, rt, et⟩
      refine SpecG.bind (P := fun q s' => ∃ t, Repr s'.cells q t ∧ ∀ x, t.eval x = φ.value (vals (ts.map Tree.eval) (fun v => x (f v)))) ?_ ?_
      · refine SpecG.bind (renameAll_ok hs hmax i2 (ht.ext x2.cells) look (fun _ t h => mono t h t h)) ?_
        intro qs s3 x3 i3 h3
        refine (d2 cfg _ a.count s3 qs hP i3 h3).toG.mono ?_
        rintro q s4 _ _ ⟨⟨t', rt', et'⟩, _⟩
        refine ⟨t', rt', fun x => ?_⟩
        rw [et']
        simp only [vals, List.map_map, Function.comp_def]
      · rintro q s3 x3 i3 ⟨t', rt', et'⟩
        refine SpecG.pure i3 ?_
        have rt3 := rt.ext x3.cells
        have := Tree.eq_of_eval (i3.ord hol _ _ rt') (i3.ord hol _ _ rt3) (i3.reduced rt') (i3.reduced rt3) (fun x => (et' x).trans (et x).symm)
        subst this
        exact i3.repr_inj rt3 rt'
  exact this.returns fun _ _ _ _ h => h
end

/-! ## A concrete case -/

theorem envOf_sinkOk (nd : Bool) : SinkOk (envOf nd) := by
  cases nd <;> (unfold SinkOk; simp [envOf])

/-- C88: (x0 ∧ x1) ∨ x2 renamed by x0 ↦ x1, x1 ↦ x3, x2 ↦ x4 and back. -/
theorem C88_concrete : Reachable (envOf false) .ordered (demo .ordered) ∧ (demo .ordered).Holds 9 ∧ 2 ≤ 9 ∧ SinkOk (envOf false) ∧
    (∀ v, Occurs (demo .ordered).mgr 9 v → [(1, 3), (0, 1), (2, 4)].lookup v = some ([1, 3, 4].getD v 0)) ∧
    (∀ v, Occurs (demo .ordered).mgr 9 v → [(1, 0), (3, 1), (4, 2)].lookup ([1, 3, 4].getD v 0) = some v) ∧
    IncreasingOn (demo .ordered).mgr 9 (fun v => [1, 3, 4].getD v 0) ∧
    (resOf (rebaseMap (envOf false) 9 [(1, 3), (0, 1), (2, 4)] (demo .ordered).mgr) 9 (demo .ordered).mgr).1 ≠ 9 ∧
    (resOf (nest1 (rebaseMap (envOf false) 9 [(1, 3), (0, 1), (2, 4)]) (fun r => rebaseMap (envOf false) r [(1, 0), (3, 1), (4, 2)]) (demo .ordered).mgr)
      0 (demo .ordered).mgr).1 = 9 := by
  refine ⟨demo_reachable _, by unfold Api.Holds; rw [demo_hs]; decide, by decide, envOf_sinkOk _, fun v hv => ?_, fun v hv => ?_, fun v w hv hw => ?_, ?_, ?_⟩
  · rcases demo_occurs hv with h | h | h <;> subst h <;> clear hv <;> decide
  · rcases demo_occurs hv with h | h | h <;> subst h <;> clear hv <;> decide
  · rcases demo_occurs hv with h | h | h <;> rcases demo_occurs hw with h' | h' | h' <;> subst h h' <;> clear hv hw <;> decide
  · decide +kernel
  · decide +kernel

theorem threeVars_occurs {nd : Bool} {p v : Nat} (hp : p ∈ [2, 3, 4]) (h : Occurs (threeVars nd).mgr p v) : v = 0 ∨ v = 1 ∨ v = 2 := by
  have := occurs_lt (stateAfter_reachable (envOf nd) .ordered _) (p := p) (by show (threeVars nd).Holds p; unfold Api.Holds; rw [threeVars_hs]; clear h; revert p; decide) h
  change v < (threeVars nd).mgr.nvars at this
  rw [threeVars_nvars] at this
  omega

/-- C88: "exactly two of x0, x1, x2" renamed by x0 ↦ x1, x1 ↦ x3, x2 ↦ x4 meets the hypotheses of `C88_formula`, and both ways to build it succeed. -/
theorem C88_formula_concrete : ∀ nd : Bool, Reachable (envOf nd) .ordered (threeVars nd) ∧ (∀ p ∈ [2, 3, 4], (threeVars nd).Holds p) ∧ SinkOk (envOf nd) ∧
    twoOf.Wf 3 ∧ (∀ p ∈ [2, 3, 4], ∀ v, Occurs (threeVars nd).mgr p v → [(1, 3), (0, 1), (2, 4)].lookup v = some ([1, 3, 4].getD v 0)) ∧
    (∀ p ∈ [2, 3, 4], ∀ q ∈ [2, 3, 4], ∀ v w, Occurs (threeVars nd).mgr p v → Occurs (threeVars nd).mgr q w → v < w →
      [1, 3, 4].getD v 0 < [1, 3, 4].getD w 0) ∧
    okB (both (nest1 (twoOf.build (envOf nd) [2, 3, 4]) (fun r => rebaseMap (envOf nd) r [(1, 3), (0, 1), (2, 4)]))
      (renameAll (envOf nd) [(1, 3), (0, 1), (2, 4)] [2, 3, 4] >>= fun qs => twoOf.build (envOf nd) qs) (threeVars nd).mgr) = true := by
  intro nd
  refine ⟨stateAfter_reachable _ _ _, ?_, envOf_sinkOk _, ?_, fun p hp v hv => ?_, fun p hp q hq v w hv hw => ?_, by cases nd <;> decide +kernel⟩
  · unfold Api.Holds; rw [threeVars_hs]; decide
  · simp [twoOf, Formula.Wf, Formula.Wfs, Range.Ok]
  · rcases threeVars_occurs hp hv with h | h | h <;> subst h <;> clear hv <;> decide
  · rcases threeVars_occurs hp hv with h | h | h <;> rcases threeVars_occurs hq hw with h' | h' | h' <;> subst h h' <;> clear hv hw <;> decide

end LBDD
