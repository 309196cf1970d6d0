import Verif.Props.Alloc
import Verif.Props.Twin
import Verif.Props.Query
import Verif.Props.Handle
import Verif.Proof.TreeLaw
/-!
# Repeating a call (C67) and laws on handles (C68)
-/
namespace LBDD

/-- The user goes on from `a` to `b` with the legal calls `ops` (from last to first), all of which return, and holds the BDDs `ps` all the time. -/
inductive Continues (cfg : Cfg) (u : Use) (ps : List Nat) : List Op → Api → Api → Prop
  | refl {a : Api} : (∀ p ∈ ps, a.Holds p) → Continues cfg u ps [] a a
  | step {ops : List Op} {op : Op} {a b c : Api} : Continues cfg u ps ops a b → Legal cfg u b op → step cfg op b = .ok () c → (∀ p ∈ ps, c.Holds p) →
      Continues cfg u ps (op :: ops) a c

section
variable {cfg : Cfg} {u : Use} {a b c d : Api} {f g h q : Nat} {ops : List Op} {ps rs is js : List Nat}

theorem Continues.reachable (h : Continues cfg u ps ops a b) (hR : Reachable cfg u a) : Reachable cfg u b := by
  induction h with
  | refl => exact hR
  | step _ hl e _ ih => exact .step (ih hR) hl e

theorem Continues.holds (h : Continues cfg u ps ops a b) : ∀ p ∈ ps, b.Holds p := by
  cases h with
  | refl h => exact h
  | step _ _ _ h => exact h

theorem Continues.start (h : Continues cfg u ps ops a b) : ∀ p ∈ ps, a.Holds p := by
  induction h with
  | refl h => exact h
  | step _ _ _ _ ih => exact ih

theorem Api.Holds.kept {p : Nat} (h : a.Holds p) : a.Kept p := Or.inr ⟨p, h, .refl _⟩

theorem Continues.repr (hR : Reachable cfg u a) (h : Continues cfg u ps ops a b) {p : Nat} (hp : p ∈ ps) {t : Tree} (ht : Repr a.mgr.cells p t) :
    Repr b.mgr.cells p t := by
  induction h with
  | refl => exact ht
  | step h hl e _ ih =>
    exact (step_good (h.reachable hR).good hl e).2.repr (ih hR ht) (Api.Holds.kept (h.holds p hp))

/-- Without garbage collections all nodes stay. -/
theorem Continues.grow (hR : Reachable cfg u a) (h : Continues cfg u ps ops a b) (hg : .gc ∉ ops) : Grow a.mgr b.mgr := by
  induction h with
  | refl => exact .refl _
  | step h hl e _ ih =>
    exact (ih hR (fun h => hg (by simp [h]))).trans (step_grow (h.reachable hR).good hl (fun h => hg (by simp [h])) e).2

theorem nothing_of_live {md : Md} {refs refs' : Nat → Nat} {s s' : Mgr} (hi : Inv cfg md refs s) (hi' : Inv cfg md refs' s') (hx : CellsExt s.cells s'.cells)
    (h : ∀ u, LiveT s' u → LiveT s u) : AllocatesNothing s s' := by
  have key : ∀ p, 2 ≤ p → (s'.cells p).live = true → (s.cells p).live = true := by
    intro p p2 hp
    obtain ⟨t, ht⟩ := hi'.repr hp
    obtain ⟨q, q2, hq⟩ := h t ⟨p, p2, ht⟩
    have := hi'.repr_inj ht (hq.ext hx)
    subst this
    exact hi.live_of hq
  constructor
  · intro p
    rw [Bool.eq_iff_iff]
    refine ⟨fun hp => ?_, fun hp => (hx p hp).1⟩
    rcases (by omega : p = 0 ∨ p = 1 ∨ 2 ≤ p) with rfl | rfl | p2
    · exact hi.live0
    · exact hi.live1
    · exact key p p2 hp
  · obtain ⟨m, m1, m2, m3⟩ := hi.nr_nodes
    obtain ⟨m', m1', m2', m3'⟩ := hi'.nr_nodes
    have : m.Perm m' := (List.perm_ext_iff_of_nodup m1 m1').2 (fun p => by
      rw [m2, m2']
      exact ⟨fun ⟨h1, h2⟩ => ⟨h1, (hx p h2).1⟩, fun ⟨h1, h2⟩ => ⟨h1, key p h1 h2⟩⟩)
    rw [m3, m3', this.length_eq]

theorem Reprs.ofHolds (hi : Good cfg u a) : ∀ {ps : List Nat}, (∀ p ∈ ps, a.Holds p) → ∃ ts, Reprs a.mgr.cells ps ts
  | [], _ => ⟨[], trivial⟩
  | p :: ps, h => by
    obtain ⟨t, ht⟩ := Good.any hi (h p (by simp))
    obtain ⟨ts, hts⟩ := Reprs.ofHolds hi (ps := ps) (fun q hq => h q (List.mem_cons_of_mem _ hq))
    exact ⟨t :: ts, ht, hts⟩

theorem Reprs.keep {c c' : Nat → Cell} : ∀ {ps : List Nat} {ts : List Tree}, (∀ p ∈ ps, ∀ t, Repr c p t → Repr c' p t) → Reprs c ps ts → Reprs c' ps ts
  | [], [], _, _ => trivial
  | p :: ps, t :: ts, h, hr => ⟨h p (by simp) t hr.1, Reprs.keep (fun q hq => h q (by simp [hq])) hr.2⟩
  | [], _ :: _, _, h => h.elim
  | _ :: _, [], _, h => h.elim

theorem Reprs.inj {md : Md} {refs : Nat → Nat} {s : Mgr} (hi : Inv cfg md refs s) : ∀ {ps qs : List Nat} {ts : List Tree}, Reprs s.cells ps ts → Reprs s.cells qs ts →
    ps = qs
  | [], [], [], _, _ => rfl
  | _ :: _, _ :: _, _ :: _, h1, h2 => by rw [hi.repr_inj h1.1 h2.1, Reprs.inj hi h1.2 h2.2]
  | [], _, _ :: _, h, _ => h.elim
  | _ :: _, _, [], h, _ => h.elim
  | _, [], _ :: _, _, h => h.elim
  | _, _ :: _, [], _, h => h.elim

/-- What a call that returns does. -/
theorem call_eff (hu : u ≠ .mixed) {fn : Fn} (hf : fn.limited = false) (ts : List Tree) :
    ∃ (out : List Tree) (N : Tree → Prop), ∀ (a b : Api) (is ps : List Nat), Reachable cfg u a → a.args is = some ps → Reprs a.mgr.cells ps ts →
      Legal cfg u a (.call fn is) → step cfg (.call fn is) a = .ok () b →
      ∃ rs, b.hs = a.hs ++ rs.map some ∧ Reprs b.mgr.cells rs out ∧ CellsExt a.mgr.cells b.mgr.cells ∧ Adds a.mgr b.mgr N := by
  obtain ⟨out, n', N, hE⟩ := Fn.run_det hu fn hf ts
  refine ⟨out, N, ?_⟩
  intro a b is ps hR e1 h2 hl e
  simp only [step] at e
  rw [M.get_bind_apply, e1] at e
  obtain ⟨rs, a1, e2, e3⟩ := bind_ok_inv e
  obtain ⟨e4, e5⟩ := onMgr_ok e2
  obtain ⟨g, i, r1, r2, r3⟩ := hE cfg _ a.mgr ps hR.good h2 (hl ps e1) rs _ e4
  obtain ⟨x1, x2⟩ := pushHandles_same e3
  refine ⟨rs, by rw [x2, e5], r1.ext x1.1, g.cells.trans x1.1, ?_⟩
  intro w
  rw [x1.liveT, r3 w]

/-- C67 for every function of the API but the limited conjunction, in histories that do not mix `or_rec` and `xor_rec`: if the user repeats a call with the same
BDDs, while it still holds the arguments and the results of the first call, it gets the same handles, whatever else it did in between; without a garbage
collection in between the second call creates no node. -/
theorem C67_repeat_partial (hu : u ≠ .mixed) (hR : Reachable cfg u a) {fn : Fn} (hf : ∀ n, fn ≠ .andLimited n) (ha : a.args is = some ps)
    (hl : Legal cfg u a (.call fn is)) (e : step cfg (.call fn is) a = .ok () b) (hb : b.hs = a.hs ++ rs.map some)
    (hc : Continues cfg u (ps ++ rs) ops b c) (ha' : c.args js = some ps) (hl' : Legal cfg u c (.call fn js)) (e' : step cfg (.call fn js) c = .ok () d) :
    d.hs = c.hs ++ rs.map some ∧ (.gc ∉ ops → AllocatesNothing c.mgr d.mgr) := by
  have hf' : fn.limited = false := by cases fn <;> first | rfl | exact absurd rfl (hf _)
  have hRb : Reachable cfg u b := .step hR hl e
  have hRc := hc.reachable hRb
  have hRd : Reachable cfg u d := .step hRc hl' e'
  obtain ⟨ts, ht⟩ := Reprs.ofHolds hRb.good (fun p hp => hc.start p (by simp [hp]) : ∀ p ∈ ps, b.Holds p)
  have hta : Reprs a.mgr.cells ps ts := by
    obtain ⟨ts', ht'⟩ : ∃ ts', Reprs a.mgr.cells ps ts' := Reprs.ofHolds hR.good (fun p hp => args_holds ha p hp)
    have := Reprs.fn ht (ht'.ext (step_grow hR.good hl (by simp) e).2.cells)
    exact this ▸ ht'
  obtain ⟨out, N, hE⟩ := call_eff (cfg := cfg) hu hf' ts
  obtain ⟨rs1, b1, b2, b3, b4⟩ := hE a b is ps hR ha hta hl e
  have : rs1 = rs := by
    rw [hb] at b1
    exact (List.map_inj_right (fun _ _ h => Option.some.inj h)).1 (List.append_cancel_left b1).symm
  subst this
  have htc : Reprs c.mgr.cells ps ts := ht.keep fun p hp t h => hc.repr hRb (by simp [hp]) h
  have houtc : Reprs c.mgr.cells rs1 out := b2.keep fun p hp t h => hc.repr hRb (by simp [hp]) h
  obtain ⟨rs2, d1, d2, d3, d4⟩ := hE c d js ps hRc ha' htc hl' e'
  have := Reprs.inj hRd.good (houtc.ext d3) d2
  subst this
  refine ⟨d1, fun hg => nothing_of_live hRc.good hRd.good d3 fun w hw => ?_⟩
  rcases (d4 w).1 hw with h | h
  · exact h
  · obtain ⟨p, p2, hp⟩ := (b4 w).2 (Or.inr h)
    exact ⟨p, p2, hp.ext (hc.grow hRb hg).cells⟩

/-- Two calls with the same result tree. -/
theorem repeat_nothing {md : Md} {refs : Nat → Nat} {s s' : Mgr} (hi : Inv cfg md refs s) (hi' : Inv cfg md refs s') (hx : CellsExt s.cells s'.cells)
    {r : Nat} {t : Tree} (hr : Repr s'.cells r t) (hq : Repr s.cells q t) (hn : New s s' r) : r = q ∧ AllocatesNothing s s' := by
  have := hi'.repr_inj hr (hq.ext hx)
  subst this
  exact ⟨rfl, (hn.allocates hi hi' hx hr).nothing hi hx hq⟩

theorem run_one {fn : Fn} {m : M Mgr Nat} (hm : fn.run cfg ps = m >>= fun r => Pure.pure [r]) (ha : a.args is = some ps)
    (e : step cfg (.call fn is) a = .ok () b) (hb : b.hs = a.hs ++ [some q]) : ∃ s, m a.mgr = .ok q s ∧ XSame s b.mgr := by
  simp only [step] at e
  rw [M.get_bind_apply, ha] at e
  obtain ⟨rs, a1, e2, e3⟩ := bind_ok_inv e
  obtain ⟨e4, e5⟩ := onMgr_ok e2
  obtain ⟨x1, x2⟩ := pushHandles_same e3
  rw [hm] at e4
  obtain ⟨r, s1, e6, e7⟩ := bind_ok_inv e4
  cases e7
  rw [x2, e5] at hb
  have : r = q := by simpa using hb
  subst this
  exact ⟨_, e6, x1⟩

theorem Spec.ok {md : Md} {refs : Nat → Nat} {s s' : Mgr} {m : M Mgr Nat} {r : Nat} {P : Nat → Mgr → Prop} (h : Spec cfg md refs m s P)
    (e : m s = .ok r s') : Ext s s' ∧ Inv cfg md refs s' ∧ P r s' := by
  unfold Spec M.Sat at h
  rw [e] at h
  exact h

/-- C67 for `and_rec`, in every history: after `q = f and g`, as long as the three are held, `f and g` and `g and f` return `q` and create no node, whatever the
user did in between, garbage collections included. -/
theorem C67_and (hR : Reachable cfg u a) (ha : a.args is = some [f, g]) (e : step cfg (.call .and is) a = .ok () b) (hb : b.hs = a.hs ++ [some q])
    (hc : Continues cfg u [f, g, q] ops b c) :
    Returns (andOp cfg f g c.mgr) (fun r s' => r = q ∧ AllocatesNothing c.mgr s') ∧
    Returns (andOp cfg g f c.mgr) (fun r s' => r = q ∧ AllocatesNothing c.mgr s') := by
  have hRb : Reachable cfg u b := .step (op := .call .and is) hR (fun _ _ => trivial) e
  have hRc := hc.reachable hRb
  obtain ⟨tf, rf⟩ := hR.good.any (args_holds ha f (by simp))
  obtain ⟨tg, rg⟩ := hR.good.any (args_holds ha g (by simp))
  obtain ⟨s, e1, x⟩ := run_one rfl ha e hb
  obtain ⟨hx, hi, hq, _⟩ := (andOp_tree hR.good rf rg).ok e1
  have cf := hc.repr hRb (by simp) ((rf.ext hx.cells).ext x.1)
  have cg := hc.repr hRb (by simp) ((rg.ext hx.cells).ext x.1)
  have cq := hc.repr hRb (by simp) (hq.ext x.1)
  constructor
  · refine (andOp_tree hRc.good cf cg).returns ?_
    rintro r s' hx' hi' ⟨rr, hn⟩
    exact repeat_nothing hRc.good hi' hx'.cells rr cq hn
  · refine (andOp_tree hRc.good cg cf).returns ?_
    rintro r s' hx' hi' ⟨rr, hn⟩
    rw [tAnd_comm] at rr
    exact repeat_nothing hRc.good hi' hx'.cells rr cq hn

/-- C67 for `negate`, in every history. -/
theorem C67_negate (hR : Reachable cfg u a) (ha : a.args is = some [f]) (e : step cfg (.call .negate is) a = .ok () b) (hb : b.hs = a.hs ++ [some q])
    (hc : Continues cfg u [f, q] ops b c) :
    Returns (negateOp cfg f c.mgr) (fun r s' => r = q ∧ AllocatesNothing c.mgr s') ∧
    Returns (negateOp cfg q c.mgr) (fun r s' => r = f ∧ AllocatesNothing c.mgr s') := by
  have hRb : Reachable cfg u b := .step (op := .call .negate is) hR (fun _ _ => trivial) e
  have hRc := hc.reachable hRb
  obtain ⟨tf, rf⟩ := hR.good.any (args_holds ha f (by simp))
  obtain ⟨s, e1, x⟩ := run_one rfl ha e hb
  obtain ⟨hx, hi, hq, _⟩ := (negateOp_tree hR.good rf).ok e1
  have cf := hc.repr hRb (by simp) ((rf.ext hx.cells).ext x.1)
  have cq := hc.repr hRb (by simp) (hq.ext x.1)
  constructor
  · refine (negateOp_tree hRc.good cf).returns ?_
    rintro r s' hx' hi' ⟨rr, hn⟩
    exact repeat_nothing hRc.good hi' hx'.cells rr cq hn
  · refine (negateOp_tree hRc.good cq).returns ?_
    rintro r s' hx' hi' ⟨rr, hn⟩
    rw [negTree_negTree] at rr
    exact repeat_nothing hRc.good hi' hx'.cells rr cf hn

theorem orOp_tree {md : Md} (om : OrMode md) {refs : Nat → Nat} {s : Mgr} {tf tg : Tree} (hi : Inv cfg md refs s) (hf : Repr s.cells f tf)
    (hg : Repr s.cells g tg) : Spec cfg md refs (orOp cfg f g) s (fun r s' => Repr s'.cells r (tOr tf tg) ∧ New s s' r) :=
  (orOp_okT om.semIte.toSemOr hi hf hg).mono fun _ _ _ _ ⟨_, h1, _, _, h4, h5⟩ => by
    rw [om.rel] at h4
    exact ⟨h4 ▸ h1, h5⟩

theorem xorOp_tree {md : Md} (om : XorMode md) {refs : Nat → Nat} {s : Mgr} {tf tg : Tree} (hi : Inv cfg md refs s) (hf : Repr s.cells f tf)
    (hg : Repr s.cells g tg) : Spec cfg md refs (xorOp cfg f g) s (fun r s' => Repr s'.cells r (tXor tf tg) ∧ New s s' r) :=
  (xorOp_okT om.semXor om.unord hi hf hg).mono fun _ _ _ _ ⟨_, h1, _, _, h4, h5⟩ => by
    rw [om.rel] at h4
    exact ⟨h4 ▸ h1, h5⟩

theorem iteOp_tree {md : Md} (om : OrMode md) {refs : Nat → Nat} {s s' : Mgr} {tf tg th : Tree} {r : Nat} (hi : Inv cfg md refs s) (hf : Repr s.cells f tf)
    (hg : Repr s.cells g tg) (hh : Repr s.cells h th) (e : iteOp cfg f g h s = .ok r s') :
    Ext s s' ∧ Inv cfg md refs s' ∧ Repr s'.cells r (tIte tf tg th) ∧ New s s' r := by
  have hspec := iteOp_okBT (cfg := cfg) om.semIte True hi hf hg hh (Or.inl trivial)
  unfold SpecB at hspec
  rw [e] at hspec
  obtain ⟨hx, hi', tr, rr, _, _, hT, hn⟩ := hspec
  rw [om.irel] at hT
  exact ⟨hx, hi', hT ▸ rr, hn⟩

/-- C67 for `or_rec`, in every history without `xor_rec`. -/
theorem C67_or_partial (hu : u = .ordered ∨ u = .unordered) (hR : Reachable cfg u a) (ha : a.args is = some [f, g])
    (e : step cfg (.call .or is) a = .ok () b) (hb : b.hs = a.hs ++ [some q]) (hc : Continues cfg u [f, g, q] ops b c) :
    Returns (orOp cfg f g c.mgr) (fun r s' => r = q ∧ AllocatesNothing c.mgr s') ∧
    Returns (orOp cfg g f c.mgr) (fun r s' => r = q ∧ AllocatesNothing c.mgr s') := by
  have om := Use.orMode hu
  have hRb : Reachable cfg u b := .step (op := .call .or is) hR (fun _ _ => by rcases hu with rfl | rfl <;> simp [Fn.Pre]) e
  have hRc := hc.reachable hRb
  obtain ⟨tf, rf⟩ := hR.good.any (args_holds ha f (by simp))
  obtain ⟨tg, rg⟩ := hR.good.any (args_holds ha g (by simp))
  obtain ⟨s, e1, x⟩ := run_one rfl ha e hb
  obtain ⟨hx, hi, hq, _⟩ := (orOp_tree om hR.good rf rg).ok e1
  have cf := hc.repr hRb (by simp) ((rf.ext hx.cells).ext x.1)
  have cg := hc.repr hRb (by simp) ((rg.ext hx.cells).ext x.1)
  have cq := hc.repr hRb (by simp) (hq.ext x.1)
  constructor
  · refine (orOp_tree om hRc.good cf cg).returns ?_
    rintro r s' hx' hi' ⟨rr, hn⟩
    exact repeat_nothing hRc.good hi' hx'.cells rr cq hn
  · refine (orOp_tree om hRc.good cg cf).returns ?_
    rintro r s' hx' hi' ⟨rr, hn⟩
    rw [tOr_comm] at rr
    exact repeat_nothing hRc.good hi' hx'.cells rr cq hn

/-- C67 for `xor_rec`, in every history without `or_rec`. -/
theorem C67_xor_partial (hR : Reachable cfg .parity a) (ha : a.args is = some [f, g])
    (e : step cfg (.call .xor is) a = .ok () b) (hb : b.hs = a.hs ++ [some q]) (hc : Continues cfg .parity [f, g, q] ops b c) :
    Returns (xorOp cfg f g c.mgr) (fun r s' => r = q ∧ AllocatesNothing c.mgr s') ∧
    Returns (xorOp cfg g f c.mgr) (fun r s' => r = q ∧ AllocatesNothing c.mgr s') := by
  have om := Use.xorMode
  have hRb : Reachable cfg .parity b := .step (op := .call .xor is) hR (fun _ _ => by simp [Fn.Pre]) e
  have hRc := hc.reachable hRb
  obtain ⟨tf, rf⟩ := hR.good.any (args_holds ha f (by simp))
  obtain ⟨tg, rg⟩ := hR.good.any (args_holds ha g (by simp))
  obtain ⟨s, e1, x⟩ := run_one rfl ha e hb
  obtain ⟨hx, hi, hq, _⟩ := (xorOp_tree om hR.good rf rg).ok e1
  have cf := hc.repr hRb (by simp) ((rf.ext hx.cells).ext x.1)
  have cg := hc.repr hRb (by simp) ((rg.ext hx.cells).ext x.1)
  have cq := hc.repr hRb (by simp) (hq.ext x.1)
  constructor
  · refine (xorOp_tree om hRc.good cf cg).returns ?_
    rintro r s' hx' hi' ⟨rr, hn⟩
    exact repeat_nothing hRc.good hi' hx'.cells rr cq hn
  · refine (xorOp_tree om hRc.good cg cf).returns ?_
    rintro r s' hx' hi' ⟨rr, hn⟩
    rw [tXor_comm] at rr
    exact repeat_nothing hRc.good hi' hx'.cells rr cq hn

/-- C67 for `ite_rec`, in every history without `xor_rec`, whenever the repeated call returns. -/
theorem C67_ite_partial (hu : u = .ordered ∨ u = .unordered) (hR : Reachable cfg u a) (ha : a.args is = some [f, g, h])
    (e : step cfg (.call .ite is) a = .ok () b) (hb : b.hs = a.hs ++ [some q]) (hc : Continues cfg u [f, g, h, q] ops b c)
    {r : Nat} {s' : Mgr} (e' : iteOp cfg f g h c.mgr = .ok r s') : r = q ∧ AllocatesNothing c.mgr s' := by
  have om := Use.orMode hu
  have hleg : Legal cfg u a (.call .ite is) := fun _ _ => by rcases hu with rfl | rfl <;> simp [Fn.Pre]
  have hRb : Reachable cfg u b := .step hR hleg e
  have hRc := hc.reachable hRb
  obtain ⟨tf, rf⟩ := hR.good.any (args_holds ha f (by simp))
  obtain ⟨tg, rg⟩ := hR.good.any (args_holds ha g (by simp))
  obtain ⟨th, rh⟩ := hR.good.any (args_holds ha h (by simp))
  obtain ⟨s, e1, x⟩ := run_one rfl ha e hb
  obtain ⟨hx, hi, hq, _⟩ := iteOp_tree om hR.good rf rg rh e1
  have cf := hc.repr hRb (by simp) ((rf.ext hx.cells).ext x.1)
  have cg := hc.repr hRb (by simp) ((rg.ext hx.cells).ext x.1)
  have ch := hc.repr hRb (by simp) ((rh.ext hx.cells).ext x.1)
  have cq := hc.repr hRb (by simp) (hq.ext x.1)
  obtain ⟨hx', hi', rr, hn⟩ := iteOp_tree om hRc.good cf cg ch e'
  exact repeat_nothing hRc.good hi' hx'.cells rr cq hn

/-! ## C68 -/

/-- Running one operation after another. -/
theorem Spec.then {md : Md} {refs : Nat → Nat} {s : Mgr} {m : M Mgr Nat} {P : Nat → Mgr → Prop} {β : Type} {k : Nat → M Mgr β} {Q : β → Mgr → Prop}
    (h1 : Spec cfg md refs m s P) (h2 : ∀ r s', CellsExt s.cells s'.cells → Inv cfg md refs s' → P r s' → Spec cfg md refs (k r) s' Q) :
    Spec cfg md refs (m >>= k) s Q :=
  Spec.bind h1 fun r s' hx hi hp => h2 r s' hx.cells hi hp

/-- C68: negating twice gives back the handle, in every history. -/
theorem C68_negate_twice (hR : Reachable cfg u a) (hf : a.Holds f) :
    Returns ((do let r ← negateOp cfg f; negateOp cfg r) a.mgr) (fun r _ => r = f) := by
  obtain ⟨tf, rf⟩ := hR.good.any hf
  refine Spec.returns (P := fun r s' => Repr s'.cells r tf ∧ Repr s'.cells f tf) ((negateOp_tree hR.good rf).then ?_) ?_
  · rintro r s1 hx hi ⟨h1, _⟩
    refine (negateOp_tree hi h1).mono ?_
    rintro r' s2 hx2 _ ⟨h2, _⟩
    rw [negTree_negTree] at h2
    exact ⟨h2, (rf.ext hx).ext hx2.cells⟩
  · rintro r s' _ hi' ⟨h1, h2⟩
    exact hi'.repr_inj h1 h2

/-- C68: `and_rec` commutes, in every history: both orders give the same handle. -/
theorem C68_and_comm (hR : Reachable cfg u a) (hf : a.Holds f) (hg : a.Holds g) :
    Returns ((do let r ← andOp cfg f g; let r' ← andOp cfg g f; pure (r, r')) a.mgr) (fun p _ => p.1 = p.2) := by
  obtain ⟨tf, rf⟩ := hR.good.any hf
  obtain ⟨tg, rg⟩ := hR.good.any hg
  refine Spec.returns (P := fun p s' => Repr s'.cells p.1 (tAnd tf tg) ∧ Repr s'.cells p.2 (tAnd tf tg)) ((andOp_tree hR.good rf rg).then ?_) ?_
  · rintro r s1 hx hi ⟨h1, _⟩
    refine (andOp_tree hi (rg.ext hx) (rf.ext hx)).then ?_
    rintro r' s2 hx2 hi2 ⟨h2, _⟩
    rw [tAnd_comm] at h2
    exact Spec.pure hi2 ⟨h1.ext hx2, h2⟩
  · rintro ⟨r, r'⟩ s' _ hi' ⟨h1, h2⟩
    exact hi'.repr_inj h1 h2

theorem fuel2_two (s : Mgr) : ∃ n, fuel2 s = n + 2 := ⟨fuel2 s - 2, by unfold fuel2; omega⟩

/-- With an operand that needs no recursion, one exchange of the operands at most is made. -/
theorem andRec_swap (n : Nat) {f g : Nat} (hne : f ≠ g) {P : M Mgr Nat → Prop} (h1 : cfg.addr f ≤ cfg.addr g → ∀ n, P (andRec cfg (n + 1) f g))
    (h2 : cfg.addr g ≤ cfg.addr f → ∀ n, P (andRec cfg (n + 1) g f)) : P (andRec cfg (n + 2) f g) := by
  by_cases hlt : cfg.addr g < cfg.addr f
  · rw [andRec, if_neg hne, if_pos hlt]; exact h2 (by omega) _
  · exact h1 (by omega) _
theorem orRec_swap (n : Nat) {f g : Nat} (hne : f ≠ g) {P : M Mgr Nat → Prop} (h1 : cfg.addr f ≤ cfg.addr g → ∀ n, P (orRec cfg (n + 1) f g))
    (h2 : cfg.addr g ≤ cfg.addr f → ∀ n, P (orRec cfg (n + 1) g f)) : P (orRec cfg (n + 2) f g) := by
  by_cases hlt : cfg.addr g < cfg.addr f
  · rw [orRec, if_neg hne, if_pos hlt]; exact h2 (by omega) _
  · exact h1 (by omega) _
theorem xorRec_swap (n : Nat) {f g : Nat} (hne : f ≠ g) {P : M Mgr Nat → Prop} (h1 : cfg.addr f ≤ cfg.addr g → ∀ n, P (xorRec cfg (n + 1) f g))
    (h2 : cfg.addr g ≤ cfg.addr f → ∀ n, P (xorRec cfg (n + 1) g f)) : P (xorRec cfg (n + 2) f g) := by
  by_cases hlt : cfg.addr g < cfg.addr f
  · rw [xorRec, if_neg hne, if_pos hlt]; exact h2 (by omega) _
  · exact h1 (by omega) _

theorem andRec_top (n : Nat) (hle : cfg.addr f ≤ cfg.addr g) (hne : f ≠ g) :
    (f = topId → andRec cfg (n + 1) f g = pure g) ∧ (g = topId → andRec cfg (n + 1) f g = pure f) ∧
    (f = botId → andRec cfg (n + 1) f g = pure botId) ∧ (g = botId → andRec cfg (n + 1) f g = pure botId) := by
  have hb : botId ≠ topId := by decide
  rw [andRec, if_neg hne, if_neg (by omega)]
  by_cases h1 : f = topId
  · rw [if_pos h1]; subst h1
    exact ⟨fun _ => rfl, fun h => absurd h.symm hne, fun h => absurd h.symm hb, fun h => by rw [h]⟩
  rw [if_neg h1]
  by_cases h2 : f = botId
  · rw [if_pos h2]; subst h2
    exact ⟨fun h => absurd h h1, fun _ => rfl, fun _ => rfl, fun _ => rfl⟩
  rw [if_neg h2]
  refine ⟨fun h => absurd h h1, fun h => by rw [if_pos h], fun h => absurd h h2, fun h => ?_⟩
  rw [if_neg (by rw [h]; exact hb), if_pos h]

theorem orRec_top (n : Nat) (hle : cfg.addr f ≤ cfg.addr g) (hne : f ≠ g) :
    (f = topId → orRec cfg (n + 1) f g = pure topId) ∧ (g = topId → orRec cfg (n + 1) f g = pure topId) ∧
    (f = botId → orRec cfg (n + 1) f g = pure g) ∧ (g = botId → orRec cfg (n + 1) f g = pure f) := by
  have hb : botId ≠ topId := by decide
  rw [orRec, if_neg hne, if_neg (by omega)]
  by_cases h1 : f = topId
  · rw [if_pos h1]; subst h1
    exact ⟨fun _ => rfl, fun h => absurd h.symm hne, fun h => absurd h.symm hb, fun h => rfl⟩
  rw [if_neg h1]
  by_cases h2 : f = botId
  · rw [if_pos h2]; subst h2
    exact ⟨fun h => absurd h h1, fun h => by rw [h], fun _ => rfl, fun h => absurd h.symm hne⟩
  rw [if_neg h2]
  refine ⟨fun h => absurd h h1, fun h => by rw [if_pos h], fun h => absurd h h2, fun h => ?_⟩
  rw [if_neg (by rw [h]; exact hb), if_pos h]

theorem xorRec_top (n : Nat) (hle : cfg.addr f ≤ cfg.addr g) (hne : f ≠ g) :
    (f = botId → xorRec cfg (n + 1) f g = pure g) ∧ (g = botId → xorRec cfg (n + 1) f g = pure f) ∧
    (f = topId → g ≠ botId → xorRec cfg (n + 1) f g = negateOp cfg g) ∧ (g = topId → f ≠ botId → xorRec cfg (n + 1) f g = negateOp cfg f) := by
  have hb : botId ≠ topId := by decide
  rw [xorRec, if_neg hne, if_neg (by omega)]
  by_cases h1 : f = botId
  · rw [if_pos h1]
    exact ⟨fun _ => rfl, fun h => absurd (h1.trans h.symm) hne, fun h => absurd (h1.symm.trans h) hb, fun _ h => absurd h1 h⟩
  rw [if_neg h1]
  by_cases h2 : g = botId
  · rw [if_pos h2]
    exact ⟨fun h => absurd h h1, fun _ => rfl, fun _ h => absurd h2 h, fun h => absurd (h2.symm.trans h) hb⟩
  rw [if_neg h2]
  refine ⟨fun h => absurd h h1, fun h => absurd h h2, fun h _ => by rw [if_pos h], fun h _ => ?_⟩
  rw [if_neg (fun h' => hne (h'.trans h.symm)), if_pos h]

/-- C68: idempotence, neutral and absorbing elements of `and_rec`; the calls do not even touch the manager. -/
theorem C68_and_units (s : Mgr) : andOp cfg f f s = .ok f s ∧ andOp cfg f topId s = .ok f s ∧ andOp cfg topId f s = .ok f s ∧
    andOp cfg f botId s = .ok botId s ∧ andOp cfg botId f s = .ok botId s := by
  obtain ⟨n, hn⟩ := fuel2_two s
  have same : ∀ f, andOp cfg f f s = .ok f s := by
    intro f; unfold andOp; rw [M.get_bind_apply, hn, andRec, if_pos rfl]; rfl
  have op : ∀ (f g r : Nat), f ≠ g → (cfg.addr f ≤ cfg.addr g → ∀ n, andRec cfg (n + 1) f g = pure r) →
      (cfg.addr g ≤ cfg.addr f → ∀ n, andRec cfg (n + 1) g f = pure r) → andOp cfg f g s = .ok r s := by
    intro f g r hne h1 h2
    unfold andOp
    rw [M.get_bind_apply, hn, andRec_swap (P := fun m => m = pure r) n hne h1 h2]
    rfl
  refine ⟨same f, ?_, ?_, ?_, ?_⟩
  · by_cases h : f = topId
    · subst h; exact same _
    · exact op _ _ _ h (fun l n => (andRec_top n l h).2.1 rfl) (fun l n => (andRec_top n l (Ne.symm h)).1 rfl)
  · by_cases h : f = topId
    · subst h; exact same _
    · exact op _ _ _ (Ne.symm h) (fun l n => (andRec_top n l (Ne.symm h)).1 rfl) (fun l n => (andRec_top n l h).2.1 rfl)
  · by_cases h : f = botId
    · subst h; exact same _
    · exact op _ _ _ h (fun l n => (andRec_top n l h).2.2.2 rfl) (fun l n => (andRec_top n l (Ne.symm h)).2.2.1 rfl)
  · by_cases h : f = botId
    · subst h; exact same _
    · exact op _ _ _ (Ne.symm h) (fun l n => (andRec_top n l (Ne.symm h)).2.2.1 rfl) (fun l n => (andRec_top n l h).2.2.2 rfl)

/-- C68: the same for `or_rec`. -/
theorem C68_or_units (s : Mgr) : orOp cfg f f s = .ok f s ∧ orOp cfg f botId s = .ok f s ∧ orOp cfg botId f s = .ok f s ∧
    orOp cfg f topId s = .ok topId s ∧ orOp cfg topId f s = .ok topId s := by
  obtain ⟨n, hn⟩ := fuel2_two s
  have same : ∀ f, orOp cfg f f s = .ok f s := by
    intro f; unfold orOp; rw [M.get_bind_apply, hn, orRec, if_pos rfl]; rfl
  have op : ∀ (f g r : Nat), f ≠ g → (cfg.addr f ≤ cfg.addr g → ∀ n, orRec cfg (n + 1) f g = pure r) →
      (cfg.addr g ≤ cfg.addr f → ∀ n, orRec cfg (n + 1) g f = pure r) → orOp cfg f g s = .ok r s := by
    intro f g r hne h1 h2
    unfold orOp
    rw [M.get_bind_apply, hn, orRec_swap (P := fun m => m = pure r) n hne h1 h2]
    rfl
  refine ⟨same f, ?_, ?_, ?_, ?_⟩
  · by_cases h : f = botId
    · subst h; exact same _
    · exact op _ _ _ h (fun l n => (orRec_top n l h).2.2.2 rfl) (fun l n => (orRec_top n l (Ne.symm h)).2.2.1 rfl)
  · by_cases h : f = botId
    · subst h; exact same _
    · exact op _ _ _ (Ne.symm h) (fun l n => (orRec_top n l (Ne.symm h)).2.2.1 rfl) (fun l n => (orRec_top n l h).2.2.2 rfl)
  · by_cases h : f = topId
    · subst h; exact same _
    · exact op _ _ _ h (fun l n => (orRec_top n l h).2.1 rfl) (fun l n => (orRec_top n l (Ne.symm h)).1 rfl)
  · by_cases h : f = topId
    · subst h; exact same _
    · exact op _ _ _ (Ne.symm h) (fun l n => (orRec_top n l (Ne.symm h)).1 rfl) (fun l n => (orRec_top n l h).2.1 rfl)

/-- C68: the same for `xor_rec`; with the true sink it is `negate`. -/
theorem C68_xor_units (s : Mgr) : xorOp cfg f f s = .ok botId s ∧ xorOp cfg f botId s = .ok f s ∧ xorOp cfg botId f s = .ok f s ∧
    (f ≠ topId → f ≠ botId → xorOp cfg f topId s = negateOp cfg f s ∧ xorOp cfg topId f s = negateOp cfg f s) := by
  obtain ⟨n, hn⟩ := fuel2_two s
  have same : ∀ f, xorOp cfg f f s = .ok botId s := by
    intro f; unfold xorOp; rw [M.get_bind_apply, hn, xorRec, if_pos rfl]; rfl
  have op : ∀ (f g : Nat) (m : M Mgr Nat), f ≠ g → (cfg.addr f ≤ cfg.addr g → ∀ n, xorRec cfg (n + 1) f g = m) →
      (cfg.addr g ≤ cfg.addr f → ∀ n, xorRec cfg (n + 1) g f = m) → xorOp cfg f g s = m s := by
    intro f g m hne h1 h2
    unfold xorOp
    rw [M.get_bind_apply, hn, xorRec_swap (P := fun m' => m' = m) n hne h1 h2]
  refine ⟨same f, ?_, ?_, fun h1 h2 => ⟨?_, ?_⟩⟩
  · by_cases h : f = botId
    · subst h; exact same _
    · exact op _ _ (pure f) h (fun l n => (xorRec_top n l h).2.1 rfl) (fun l n => (xorRec_top n l (Ne.symm h)).1 rfl)
  · by_cases h : f = botId
    · subst h; exact same _
    · exact op _ _ (pure f) (Ne.symm h) (fun l n => (xorRec_top n l (Ne.symm h)).1 rfl) (fun l n => (xorRec_top n l h).2.1 rfl)
  · exact op _ _ _ h1 (fun l n => (xorRec_top n l h1).2.2.2 rfl h2) (fun l n => (xorRec_top n l (Ne.symm h1)).2.2.1 rfl h2)
  · exact op _ _ _ (Ne.symm h1) (fun l n => (xorRec_top n l (Ne.symm h1)).2.2.1 rfl h2) (fun l n => (xorRec_top n l h1).2.2.2 rfl h2)

/-- C68: the same laws for `or_rec`, in every history without `xor_rec`. -/
theorem C68_or_comm_partial (hu : u = .ordered ∨ u = .unordered) (hR : Reachable cfg u a) (hf : a.Holds f) (hg : a.Holds g) :
    Returns ((do let r ← orOp cfg f g; let r' ← orOp cfg g f; pure (r, r')) a.mgr) (fun p _ => p.1 = p.2) := by
  have om := Use.orMode hu
  obtain ⟨tf, rf⟩ := hR.good.any hf
  obtain ⟨tg, rg⟩ := hR.good.any hg
  refine Spec.returns (P := fun p s' => Repr s'.cells p.1 (tOr tf tg) ∧ Repr s'.cells p.2 (tOr tf tg)) ((orOp_tree om hR.good rf rg).then ?_) ?_
  · rintro r s1 hx hi ⟨h1, _⟩
    refine (orOp_tree om hi (rg.ext hx) (rf.ext hx)).then ?_
    rintro r' s2 hx2 hi2 ⟨h2, _⟩
    rw [tOr_comm] at h2
    exact Spec.pure hi2 ⟨h1.ext hx2, h2⟩
  · rintro ⟨r, r'⟩ s' _ hi' ⟨h1, h2⟩
    exact hi'.repr_inj h1 h2

/-- C68: De Morgan's laws, in every history without `xor_rec`: ¬(f∧g) and ¬f∨¬g are the same handle, and so are ¬(f∨g) and ¬f∧¬g. -/
theorem C68_de_morgan_partial (hu : u = .ordered ∨ u = .unordered) (hR : Reachable cfg u a) (hf : a.Holds f) (hg : a.Holds g) :
    Returns ((do
      let r ← andOp cfg f g
      let r ← negateOp cfg r
      let f' ← negateOp cfg f
      let g' ← negateOp cfg g
      let r' ← orOp cfg f' g'
      pure (r, r')) a.mgr) (fun p _ => p.1 = p.2) ∧
    Returns ((do
      let r ← orOp cfg f g
      let r ← negateOp cfg r
      let f' ← negateOp cfg f
      let g' ← negateOp cfg g
      let r' ← andOp cfg f' g'
      pure (r, r')) a.mgr) (fun p _ => p.1 = p.2) := by
  have om := Use.orMode hu
  obtain ⟨tf, rf⟩ := hR.good.any hf
  obtain ⟨tg, rg⟩ := hR.good.any hg
  constructor
  · refine Spec.returns (P := fun p s' => ∃ t, Repr s'.cells p.1 t ∧ Repr s'.cells p.2 t) ((andOp_tree hR.good rf rg).then ?_) ?_
    · rintro r1 s1 x1 hi1 ⟨h1, _⟩
      refine (negateOp_tree hi1 h1).then ?_
      rintro r2 s2 x2 hi2 ⟨h2, _⟩
      refine (negateOp_tree hi2 ((rf.ext x1).ext x2)).then ?_
      rintro r3 s3 x3 hi3 ⟨h3, _⟩
      refine (negateOp_tree hi3 (((rg.ext x1).ext x2).ext x3)).then ?_
      rintro r4 s4 x4 hi4 ⟨h4, _⟩
      refine (orOp_tree om hi4 (h3.ext x4) h4).then ?_
      rintro r5 s5 x5 hi5 ⟨h5, _⟩
      rw [tOr_negTree] at h5
      exact Spec.pure hi5 ⟨_, (((h2.ext x3).ext x4).ext x5), h5⟩
    · rintro ⟨r, r'⟩ s' _ hi' ⟨t, h1, h2⟩
      exact hi'.repr_inj h1 h2
  · refine Spec.returns (P := fun p s' => ∃ t, Repr s'.cells p.1 t ∧ Repr s'.cells p.2 t) ((orOp_tree om hR.good rf rg).then ?_) ?_
    · rintro r1 s1 x1 hi1 ⟨h1, _⟩
      refine (negateOp_tree hi1 h1).then ?_
      rintro r2 s2 x2 hi2 ⟨h2, _⟩
      refine (negateOp_tree hi2 ((rf.ext x1).ext x2)).then ?_
      rintro r3 s3 x3 hi3 ⟨h3, _⟩
      refine (negateOp_tree hi3 (((rg.ext x1).ext x2).ext x3)).then ?_
      rintro r4 s4 x4 hi4 ⟨h4, _⟩
      refine (andOp_tree hi4 (h3.ext x4) h4).then ?_
      rintro r5 s5 x5 hi5 ⟨h5, _⟩
      rw [tAnd_negTree] at h5
      exact Spec.pure hi5 ⟨_, (((h2.ext x3).ext x4).ext x5), h5⟩
    · rintro ⟨r, r'⟩ s' _ hi' ⟨t, h1, h2⟩
      exact hi'.repr_inj h1 h2

/-- C68: laws of `xor_rec`, in every history without `or_rec`. -/
theorem C68_xor_comm_partial (hR : Reachable cfg .parity a) (hf : a.Holds f) (hg : a.Holds g) :
    Returns ((do let r ← xorOp cfg f g; let r' ← xorOp cfg g f; pure (r, r')) a.mgr) (fun p _ => p.1 = p.2) := by
  have om := Use.xorMode
  obtain ⟨tf, rf⟩ := hR.good.any hf
  obtain ⟨tg, rg⟩ := hR.good.any hg
  refine Spec.returns (P := fun p s' => Repr s'.cells p.1 (tXor tf tg) ∧ Repr s'.cells p.2 (tXor tf tg)) ((xorOp_tree om hR.good rf rg).then ?_) ?_
  · rintro r s1 hx hi ⟨h1, _⟩
    refine (xorOp_tree om hi (rg.ext hx) (rf.ext hx)).then ?_
    rintro r' s2 hx2 hi2 ⟨h2, _⟩
    rw [tXor_comm] at h2
    exact Spec.pure hi2 ⟨h1.ext hx2, h2⟩
  · rintro ⟨r, r'⟩ s' _ hi' ⟨h1, h2⟩
    exact hi'.repr_inj h1 h2
end

/-! ## Where these fail, and examples -/

/-- Execute a history, checking that it is legal and that the BDDs `ps` stay held. -/
def runHold (cfg : Cfg) (u : Use) (ps : List Nat) : List Op → Api → Option Api
  | [], a => some a
  | op :: ops, a =>
    if legalCheck u a op then
      match step cfg op a with
      | .ok _ a' => if ps.all fun p => decide (some p ∈ a'.hs) then runHold cfg u ps ops a' else none
      | _ => none
    else none

theorem runHold_continues {cfg : Cfg} {u : Use} {ps : List Nat} : ∀ {ops ops' : List Op} {a b c : Api}, Continues cfg u ps ops' a b →
    runHold cfg u ps ops b = some c → Continues cfg u ps (ops.reverse ++ ops') a c
  | [], _, _, _, _, h, e => by cases e; exact h
  | op :: ops, ops', a, b, c, h, e => by
    unfold runHold at e
    split at e
    case isFalse => cases e
    case isTrue hl =>
      split at e
      case h_2 => cases e
      case h_1 b' e1 =>
        split at e
        case isFalse => cases e
        case isTrue hh =>
          have := runHold_continues (.step h (legalCheck_sound hl) e1 (fun p hp => by
            have := List.all_eq_true.1 hh p hp
            simpa [Api.Holds] using this)) e
          simpa using this

/-- x0, x1, x2 in an environment where all hash keys collide. -/
def repStart : Api := stateAfter otherEnv .mixed [.call (.projection 0) [], .call (.projection 1) [], .call (.projection 2) []]

/-- x0 ∨ x1 computed. -/
def repOr : Api := stA (step otherEnv (.call .or [0, 1]) repStart) repStart

/-- Then x0 ∧ x2 (the entry of the memo is overwritten) and x0 ⊕ x1. -/
def repAfter : Api := (runHold otherEnv .mixed [2, 3, 5] [.call .and [0, 2], .call .xor [0, 1]] repOr).getD repOr

/-- Then the disjunction is requested again. -/
def repAgain : Api := stA (step otherEnv (.call .or [0, 1]) repAfter) repAfter

/-- C67 fails in histories that mix `or_rec` and `xor_rec`: the second of two identical calls of `or_rec` returns the exclusive or, which was stored in the memo in between. -/
theorem C67_refuted_mixed : ∃ (cfg : Cfg) (a b c d : Api) (ops : List Op) (f g q r : Nat), Reachable cfg .mixed a ∧ a.args [0, 1] = some [f, g] ∧
    Legal cfg .mixed a (.call .or [0, 1]) ∧ step cfg (.call .or [0, 1]) a = .ok () b ∧ b.hs = a.hs ++ [some q] ∧ Continues cfg .mixed [f, g, q] ops b c ∧
    c.args [0, 1] = some [f, g] ∧ Legal cfg .mixed c (.call .or [0, 1]) ∧ step cfg (.call .or [0, 1]) c = .ok () d ∧ d.hs = c.hs ++ [some r] ∧ r ≠ q := by
  have h1 : okA (step otherEnv (.call .or [0, 1]) repStart) = true := by decide +kernel
  have h2 : okA (step otherEnv (.call .or [0, 1]) repAfter) = true := by decide +kernel
  have h3 : (runHold otherEnv .mixed [2, 3, 5] [.call .and [0, 2], .call .xor [0, 1]] repOr).isSome = true := by decide +kernel
  have h4 : repStart.args [0, 1] = some [2, 3] ∧ repAfter.args [0, 1] = some [2, 3] := by decide +kernel
  have h5 : repOr.hs = repStart.hs ++ [some 5] ∧ repAgain.hs = repAfter.hs ++ [some 8] := by decide +kernel
  have h6 : ∀ p ∈ [2, 3, 5], some p ∈ repOr.hs := by decide +kernel
  refine ⟨otherEnv, repStart, repOr, repAfter, repAgain, _, 2, 3, 5, 8, stateAfter_reachable _ _ _, h4.1, legalCheck_sound (by decide +kernel), okA_sound h1, h5.1,
    runHold_continues (ops := [.call .and [0, 2], .call .xor [0, 1]]) (.refl h6) ?_, h4.2, legalCheck_sound (by decide +kernel), okA_sound h2, h5.2, by decide⟩
  unfold repAfter
  cases e : runHold otherEnv .mixed [2, 3, 5] [.call .and [0, 2], .call .xor [0, 1]] repOr with
  | none => rw [e] at h3; cases h3
  | some a => rfl

/-- x0, x1, their negations, the exclusive or of those, then their disjunction, and the negation of x0 ∧ x1. -/
def lawMixed (nd : Bool) : Api := stateAfter (envOf nd) .mixed
  [.call (.projection 0) [], .call (.projection 1) [], .call .negate [0], .call .negate [1], .call .xor [2, 3], .call .or [2, 3], .call .and [0, 1], .call .negate [6]]

/-- De Morgan's law fails in histories that mix `or_rec` and `xor_rec`: handle 5 is the result of ¬x0 ∨ ¬x1, handle 7 that of ¬(x0 ∧ x1). -/
theorem C68_refuted_mixed : ∀ nd : Bool, Reachable (envOf nd) .mixed (lawMixed nd) ∧ ∃ p q, (lawMixed nd).hs[5]? = some (some p) ∧ (lawMixed nd).hs[7]? = some (some q) ∧ p ≠ q := by
  intro nd
  have h : ((lawMixed nd).hs[5]?, (lawMixed nd).hs[7]?) = (some (some 6), some (some 8)) := by cases nd <;> decide +kernel
  simp only [Prod.mk.injEq] at h
  exact ⟨stateAfter_reachable _ _ _, _, _, h.1, h.2, by decide⟩

/-- f = x0, g and h over x0 twice on a path; f ∧ g, (f ∧ g) ∧ h, g ∧ h, f ∧ (g ∧ h). -/
def lawAssoc (nd : Bool) : Api := stateAfter (envOf nd) .unordered
  [.call (.projection 0) [], .call .topsink [], .call (.uniqueFind 0) [1, 0], .call (.uniqueFind 0) [0, 1], .call .and [0, 2], .call .and [4, 3], .call .and [2, 3],
    .call .and [0, 6]]

/-- Associativity of `and_rec` fails for BDDs that `unique_find` built against the variable order: handle 5 is (f ∧ g) ∧ h, handle 7 is f ∧ (g ∧ h). -/
theorem C68_refuted_assoc : ∀ nd : Bool, Reachable (envOf nd) .unordered (lawAssoc nd) ∧
    ∃ p q, (lawAssoc nd).hs[5]? = some (some p) ∧ (lawAssoc nd).hs[7]? = some (some q) ∧ p ≠ q := by
  intro nd
  have h : ((lawAssoc nd).hs[5]?, (lawAssoc nd).hs[7]?) = (some (some 5), some (some 2)) := by cases nd <;> decide +kernel
  simp only [Prod.mk.injEq] at h
  exact ⟨stateAfter_reachable _ _ _, _, _, h.1, h.2, by decide⟩

/-- x0, x1, x2, x0 ⊕ x1 computed; then other calls while x0, x1 and x0 ⊕ x1 (node 6) stay held. -/
def repParity (nd : Bool) : Api := stateAfter (envOf nd) .parity [.call (.projection 0) [], .call (.projection 1) [], .call (.projection 2) []]

def repParityOps : List Op := [.call .negate [0], .call .and [3, 2], .drop 2, .call .xor [3, 4]]

/-- The hypotheses of C67 are met by a history with exclusive ors. -/
theorem C67_example (nd : Bool) : ∃ (b c d : Api) (q : Nat), step (envOf nd) (.call .xor [0, 1]) (repParity nd) = .ok () b ∧ b.hs = (repParity nd).hs ++ [some q] ∧
    Continues (envOf nd) .parity [2, 3, q] repParityOps.reverse b c ∧ c.args [0, 1] = some [2, 3] ∧ step (envOf nd) (.call .xor [0, 1]) c = .ok () d ∧
    d.hs = c.hs ++ [some q] ∧ AllocatesNothing c.mgr d.mgr := by
  have h1 : okA (step (envOf nd) (.call .xor [0, 1]) (repParity nd)) = true := by cases nd <;> decide +kernel
  have h2 : (stA (step (envOf nd) (.call .xor [0, 1]) (repParity nd)) (repParity nd)).hs = (repParity nd).hs ++ [some 6] := by cases nd <;> decide +kernel
  have h3 : ((runHold (envOf nd) .parity [2, 3, 6] repParityOps (stA (step (envOf nd) (.call .xor [0, 1]) (repParity nd)) (repParity nd))).map
      fun c => (c.args [0, 1], okA (step (envOf nd) (.call .xor [0, 1]) c), legalCheck .parity c (.call .xor [0, 1]))) = some (some [2, 3], true, true) := by cases nd <;> decide +kernel
  have h4 : (repParity nd).args [0, 1] = some [2, 3] := by cases nd <;> decide +kernel
  have h6 : ∀ p ∈ [2, 3, 6], some p ∈ (stA (step (envOf nd) (.call .xor [0, 1]) (repParity nd)) (repParity nd)).hs := by cases nd <;> decide +kernel
  cases e : runHold (envOf nd) .parity [2, 3, 6] repParityOps (stA (step (envOf nd) (.call .xor [0, 1]) (repParity nd)) (repParity nd)) with
  | none => rw [e] at h3; cases h3
  | some c =>
    rw [e] at h3
    simp only [Option.map_some, Option.some.injEq, Prod.mk.injEq] at h3
    have hc := runHold_continues (.refl h6) e
    rw [List.append_nil] at hc
    have hs := C67_repeat_partial (rs := [6]) (js := [0, 1]) (by decide) (stateAfter_reachable _ _ _) (fn := .xor) (by intro n h; cases h) h4
      (legalCheck_sound (by cases nd <;> decide +kernel)) (okA_sound h1) h2 hc h3.1 (legalCheck_sound h3.2.2) (okA_sound (a := c) h3.2.1)
    exact ⟨_, c, _, 6, okA_sound h1, h2, hc, h3.1, okA_sound (a := c) h3.2.1, hs.1, hs.2 (by simp [repParityOps])⟩


/-- x0, x1, the false sink, and x0 ∧ x1 built by `unique_find` with the larger variable on top. -/
def againstOrder (nd : Bool) : Api := stateAfter (envOf nd) .unordered
  [.call (.projection 0) [], .call (.projection 1) [], .call .botsink [], .call (.uniqueFind 1) [2, 0]]

/-- C62 fails for BDDs built against the variable order: the user holds a BDD of x0 ∧ x1 (node 4), `and_rec` returns another one (node 5). -/
theorem C62_refuted : ∀ nd : Bool, ∃ a f g q F G, Reachable (envOf nd) .unordered a ∧ a.Holds f ∧ a.Holds g ∧ a.Holds q ∧ Denotes (envOf nd) a.mgr f F ∧
    Denotes (envOf nd) a.mgr g G ∧ Denotes (envOf nd) a.mgr q (fun x => F x && G x) ∧ (∃ r s', andOp (envOf nd) f g a.mgr = .ok r s' ∧ r ≠ q) := by
  intro nd
  have hR : Reachable (envOf nd) .unordered (againstOrder nd) := stateAfter_reachable _ _ _
  have hs : (againstOrder nd).hs = [some 2, some 3, some 0, some 4] := by cases nd <;> decide +kernel
  have hn : (againstOrder nd).mgr.nvars = 2 := by cases nd <;> decide +kernel
  have hh : ∀ p ∈ [2, 3, 4], (againstOrder nd).Holds p := by unfold Api.Holds; rw [hs]; decide
  have hv : ∀ b0 b1, evalsB (envOf nd) (againstOrder nd).mgr 2 [b0, b1] b0 = true ∧ evalsB (envOf nd) (againstOrder nd).mgr 3 [b0, b1] b1 = true ∧
      evalsB (envOf nd) (againstOrder nd).mgr 4 [b0, b1] (b0 && b1) = true := by cases nd <;> decide +kernel
  have hd : ∀ p ∈ [2, 3, 4], ∀ F : List Bool → Bool, (∀ x, F x = F (x.take 2)) →
      (∀ b0 b1, evalsB (envOf nd) (againstOrder nd).mgr p [b0, b1] (F [b0, b1]) = true) → Denotes (envOf nd) (againstOrder nd).mgr p F := by
    intro p hp F hF h x hx
    show evaluate _ _ _ _ = _
    rw [evaluate_take hR (hh p hp) hx, hF]
    unfold Covers at hx
    rw [hn] at hx ⊢
    match x, hx with
    | b0 :: b1 :: _, _ =>
      simp only [List.take_succ_cons, List.take_zero]
      exact evalsB_sound (h b0 b1)
  have hr : okB (andOp (envOf nd) 2 3 (againstOrder nd).mgr) = true ∧ (resOf (andOp (envOf nd) 2 3 (againstOrder nd).mgr) 0 (againstOrder nd).mgr).1 = 5 := by
    cases nd <;> decide +kernel
  refine ⟨againstOrder nd, 2, 3, 4, fun x => x.getD 0 false, fun x => x.getD 1 false, hR, hh 2 (by decide), hh 3 (by decide), hh 4 (by decide),
    hd 2 (by decide) _ ?_ fun b0 b1 => (hv b0 b1).1, hd 3 (by decide) _ ?_ fun b0 b1 => (hv b0 b1).2.1, hd 4 (by decide) _ ?_ fun b0 b1 => (hv b0 b1).2.2, ?_⟩
  · rintro (_ | ⟨_, _ | ⟨_, _⟩⟩) <;> rfl
  · rintro (_ | ⟨_, _ | ⟨_, _⟩⟩) <;> rfl
  · rintro (_ | ⟨_, _ | ⟨_, _⟩⟩) <;> rfl
  · exact ⟨_, _, resOf_eq hr.1, by rw [hr.2]; decide⟩

/-- The laws apply to the demo state. -/
example : Reachable (envOf false) .ordered (demo .ordered) ∧ (demo .ordered).Holds 5 ∧ (demo .ordered).Holds 9 :=
  ⟨demo_reachable _, by unfold Api.Holds; rw [demo_hs]; decide, by unfold Api.Holds; rw [demo_hs]; decide⟩

/-- ¬x2 is handle 1 and x3 ∧ ¬(¬x0 ∧ x1) handle 6; then ¬x2 ⊕ (¬x1 ∧ x3) and ¬x2 ⊕ x3 are computed. -/
def bigMixed (nd : Bool) : Api := stateAfter (envOf nd) .mixed
  [.call (.projection 3) [], .call (.negProjection 2) [], .call (.negProjection 0) [], .call (.projection 1) [], .call .and [2, 3], .call .negate [4],
    .call .and [5, 0], .call (.negProjection 1) [], .call .and [7, 0], .call .xor [1, 8], .call .xor [1, 0]]

/-- C64 for `or_rec` fails in histories that use both `or_rec` and `xor_rec`: the disjunction of a BDD with one node (handle 1) and one with three
(handle 6) has nine, more than 1·3 + 1 + 3, since the two recursive calls return the exclusive ors that are in the memo cache. -/
theorem C64_refuted_mixed : ∀ nd : Bool, ∃ (a b : Api) (f g r n m k : Nat), Reachable (envOf nd) .mixed a ∧ a.hs[1]? = some (some f) ∧ a.hs[6]? = some (some g) ∧
    step (envOf nd) (.call .or [1, 6]) a = .ok () b ∧ b.hs = a.hs ++ [some r] ∧
    nrNodes (envOf nd) f b.mgr = .ok n b.mgr ∧ nrNodes (envOf nd) g b.mgr = .ok m b.mgr ∧ nrNodes (envOf nd) r b.mgr = .ok k b.mgr ∧ n * m + n + m < k := by
  intro nd
  have hR : Reachable (envOf nd) .mixed (bigMixed nd) := stateAfter_reachable _ _ _
  have e : step (envOf nd) (.call .or [1, 6]) (bigMixed nd) = .ok () (stA (step (envOf nd) (.call .or [1, 6]) (bigMixed nd)) (bigMixed nd)) :=
    okA_sound (by cases nd <;> decide +kernel)
  have hl : legalCheck .mixed (bigMixed nd) (.call .or [1, 6]) = true := by cases nd <;> decide +kernel
  have hs : (stA (step (envOf nd) (.call .or [1, 6]) (bigMixed nd)) (bigMixed nd)).hs = (bigMixed nd).hs ++ [some 16] := by cases nd <;> decide +kernel
  have h0 : (bigMixed nd).hs = [some 2, some 3, some 4, some 5, some 6, some 8, some 10, some 7, some 9, some 13, some 15] := by cases nd <;> decide +kernel
  have hv : ∀ p ∈ [(3, 1), (10, 3), (16, 9)], (resOf (nrNodes (envOf nd) p.1 (stA (step (envOf nd) (.call .or [1, 6]) (bigMixed nd)) (bigMixed nd)).mgr) 0 (bigMixed nd).mgr).1 = p.2 := by
    cases nd <;> decide +kernel
  generalize stA (step (envOf nd) (.call .or [1, 6]) (bigMixed nd)) (bigMixed nd) = b at e hs hv
  have hRb : Reachable (envOf nd) .mixed b := .step hR (legalCheck_sound hl) e
  rw [h0] at hs
  have hn : ∀ p ∈ [(3, 1), (10, 3), (16, 9)], nrNodes (envOf nd) p.1 b.mgr = .ok p.2 b.mgr := by
    intro p hp
    have hp2 : 2 ≤ p.1 ∧ b.Holds p.1 := by
      unfold Api.Holds; rw [hs]
      revert p; decide
    obtain ⟨l, _, el⟩ := C24_nr_nodes hRb hp2.2 (Or.inr hp2.1)
    rw [el, ← hv p hp, el]; rfl
  refine ⟨_, b, 3, 10, 16, 1, 3, 9, hR, ?_, ?_, e, by rw [hs, h0], hn (3, 1) (by decide), hn (10, 3) (by decide), hn (16, 9) (by decide), by decide⟩ <;> (rw [h0]; rfl)

/-- C64 for arbitrary combinations fails with `xor_rec`: (x0 ⊕ x1) ∧ x0 ∧ x1 is the combination `false` of no BDDs, and has three nodes. -/
theorem C64_refuted_combination : ∀ nd : Bool, ∃ a r l, Reachable (envOf nd) .parity a ∧ a.Holds r ∧ Denotes (envOf nd) a.mgr r (fun _ => false) ∧
    ListsOnce a.mgr r l ∧ sizeBound [] < l.length := by
  intro nd
  have hR : Reachable (envOf nd) .parity (zeroXor nd) := stateAfter_reachable _ _ _
  have hh : (zeroXor nd).Holds 8 := by unfold Api.Holds; rw [zeroXor_hs]; decide
  obtain ⟨l, hl, el⟩ := C24_nr_nodes hR hh (Or.inr (by decide))
  have hv : (resOf (nrNodes (envOf nd) 8 (zeroXor nd).mgr) 0 (zeroXor nd).mgr).1 = 3 := by cases nd <;> decide +kernel
  rw [el] at hv
  have hv : l.length = 3 := hv
  refine ⟨zeroXor nd, 8, l, hR, hh, ?_, hl, by rw [hv]; decide⟩
  intro x hx
  show evaluate _ _ _ _ = _
  rw [evaluate_take hR hh hx]
  unfold Covers at hx
  rw [zeroXor_nvars] at hx ⊢
  match x, hx with
  | b0 :: b1 :: _, _ =>
    simp only [List.take_succ_cons, List.take_zero]
    exact evalsB_sound (zeroXor_eval nd b0 b1)

end LBDD
