import Verif.Model.TempsColl
import Verif.Proof.TempsRun
/-! `add_bdd` with and without its temporary handles. -/
namespace LBDD

/-- References held by the keys of `node_ref_hash`. -/
def keyRefs (c : Coll) : Nat → Int := refsOf (c.nrh.map (·.1))

/-- The state with the temporary handles `d` and the keys of `node_ref_hash`. -/
def up (d : Nat → Int) (x : Mgr × Coll) : Mgr × Coll := (xs (plus d (keyRefs x.2)) x.1, x.2)

structure SaneB (ba : Nat → Int) (x : Mgr × Coll) : Prop where
  sane : Sane ba x.1
  keys : AllLive (x.2.nrh.map (·.1)) x.1

/-- If the run without temporaries returns, so does the run with them, and the states differ by the handles that exist. -/
def SimB {α : Type} (ba d : Nat → Int) (x : Mgr × Coll) (m mT : M (Mgr × Coll) α) (Q : α → Mgr × Coll → Prop) : Prop :=
  ∀ a y, m x = .ok a y → mT (up d x) = .ok a (up d y) ∧ SaneB ba y ∧ CellsExt x.1.cells y.1.cells ∧ Q a y

section
variable {α β : Type} {ba : Nat → Int} {cfg : Cfg} {d : Nat → Int} {x : Mgr × Coll}

theorem SaneB.temp (h : SaneB ba x) (ht : TempOk d x.1) : TempOk (plus d (keyRefs x.2)) x.1 := ht.add fun p => owns_refs _ _ h.keys p

theorem SimB.bind {m mT : M (Mgr × Coll) α} {k kT : α → M (Mgr × Coll) β} {Q : α → Mgr × Coll → Prop} {R : β → Mgr × Coll → Prop}
    (h : SimB ba d x m mT Q) (hk : ∀ a y, SaneB ba y → CellsExt x.1.cells y.1.cells → Q a y → SimB ba d y (k a) (kT a) R) :
    SimB ba d x (m >>= k) (mT >>= kT) R := by
  intro b z e
  obtain ⟨a, y, e1, e2⟩ := bind_ok_inv e
  obtain ⟨h1, h2, h3, h4⟩ := h a y e1
  obtain ⟨k1, k2, k3, k4⟩ := hk a y h2 h3 h4 b z e2
  exact ⟨by rw [M.bind_ok h1]; exact k1, k2, h3.trans k3, k4⟩

theorem SimB.pure (h : SaneB ba x) {a : α} {Q : α → Mgr × Coll → Prop} (hq : Q a x) : SimB ba d x (Pure.pure a) (Pure.pure a) Q := by
  intro b y e
  cases (show Res.ok a x = Res.ok b y from e)
  exact ⟨rfl, h, .refl _, hq⟩

theorem SimB.assert_bind {nd c : Bool} {k kT : Unit → M (Mgr × Coll) β} {R : β → Mgr × Coll → Prop} (h : SimB ba d x (k ()) (kT ()) R) :
    SimB ba d x (M.assert nd c >>= k) (M.assert nd c >>= kT) R := by
  intro b y e
  by_cases hc : (nd || c) = true
  · have e1 : ∀ t : Mgr × Coll, (M.assert nd c : M (Mgr × Coll) Unit) t = .ok () t := fun t => by unfold M.assert; rw [if_pos hc]
    rw [M.bind_ok (e1 _)] at e ⊢
    exact h b y e
  · have : ((M.assert nd c : M (Mgr × Coll) Unit) >>= k) x = .assertFail := by
      show M.bind _ _ _ = _; unfold M.bind M.assert; rw [if_neg hc]
    rw [this] at e; cases e

theorem SimB.ub {mT : M (Mgr × Coll) α} {R : α → Mgr × Coll → Prop} : SimB ba d x M.ub mT R := fun _ _ e => by cases e

theorem SimB.assert_ub {nd c : Bool} {mT : M (Mgr × Coll) α} {R : α → Mgr × Coll → Prop} : SimB ba d x (M.assert nd c >>= fun _ => M.ub) mT R := fun _ _ e => by
  obtain ⟨_, _, _, e2⟩ := bind_ok_inv e
  cases e2

theorem onM_inv {m : M Mgr α} {a : α} {y : Mgr × Coll} (e : onM m x = .ok a y) : ∃ s', m x.1 = .ok a s' ∧ y = (s', x.2) := by
  unfold onM at e
  cases h : m x.1 <;> rw [h] at e <;> cases e
  exact ⟨_, rfl, rfl⟩

theorem onM_ok {m : M Mgr α} {a : α} {s s' : Mgr} {c : Coll} (e : m s = .ok a s') : onM m (s, c) = .ok a (s', c) := by unfold onM; simp only [e]

/-- Code of the manager that returns no handles. -/
theorem SimB.onM {m mT : M Mgr α} {Q : α → Mgr → Prop} (hx : SaneB ba x) (h : Sim ba (plus d (keyRefs x.2)) x.1 m mT noRefs Q) :
    SimB ba d x (LBDD.onM m) (LBDD.onM mT) fun a y => Q a y.1 ∧ y.2 = x.2 := by
  intro a y e
  obtain ⟨s', e1, rfl⟩ := onM_inv e
  unfold Sim at h
  simp only [e1] at h
  obtain ⟨h1, h2, h3, h4⟩ := h
  rw [show plus (plus d (keyRefs x.2)) (noRefs a) = plus d (keyRefs x.2) from plus_zero _] at h1
  exact ⟨onM_ok h1, ⟨h2, hx.keys.ext h3⟩, h3, h4, rfl⟩

theorem SimB.onC {m : M Coll α} {Q : α → Mgr × Coll → Prop} (hx : SaneB ba x) (hn : ∀ a c', m x.2 = .ok a c' → c'.nrh = x.2.nrh ∧ Q a (x.1, c')) :
    SimB ba d x (LBDD.onC m) (LBDD.onC m) Q := by
  intro a y e
  unfold LBDD.onC at e ⊢
  cases h : m x.2 <;> rw [h] at e <;> cases e
  rename_i c'
  obtain ⟨h1, h2⟩ := hn _ _ h
  refine ⟨?_, ⟨hx.sane, ?_⟩, .refl _, h2⟩
  · show (match m x.2 with | .ok r c => _ | .throw c => _ | .assertFail => _ | .ub => _ | .hang => _) = _
    rw [h]
    show Res.ok _ (xs (plus d (refsOf _)) x.1, c') = Res.ok _ (xs (plus d (refsOf _)) x.1, c')
    rw [h1]
  · show AllLive (c'.nrh.map _) _; rw [h1]; exact hx.keys

/-- A change of the collection that keeps the map. -/
theorem SimB.set {f : Mgr × Coll → Mgr × Coll} {Q : Unit → Mgr × Coll → Prop} (hx : SaneB ba x) (h1 : (f x).1 = x.1) (h2 : (f x).2.nrh = x.2.nrh)
    (h3 : f (up d x) = ((up d x).1, (f x).2)) (hq : Q () (f x)) : SimB ba d x (M.modify f) (M.modify f) Q := by
  intro a y e
  have e : Res.ok () (f x) = Res.ok a y := e
  cases e
  refine ⟨?_, ⟨by rw [h1]; exact hx.sane, by rw [h1, h2]; exact hx.keys⟩, by rw [h1]; exact .refl _, hq⟩
  show Res.ok () (f (up d x)) = Res.ok () (up d (f x))
  rw [h3]
  unfold up keyRefs
  rw [h1, h2]

theorem acquire_up {r : Nat} {c : Coll} {s : Mgr} (e : Nat → Int) : LBDD.onM (acquire r) (xs e s, c) = .ok () (xs (plus e (one r)) s, c) := onM_ok (acquire_xs r)

theorem release_up {r : Nat} {c : Coll} {s : Mgr} {e : Nat → Int} (hs : Sane ba s) (ht : TempOk e s) (hr : Live r s) :
    LBDD.onM (release cfg r) (xs (plus e (one r)) s, c) = .ok () (xs e s, c) := onM_ok (release_xs hs ht hr)

theorem refsOf_append (l k : List Nat) : refsOf (l ++ k) = plus (refsOf l) (refsOf k) := by
  induction l with
  | nil => funext p; simp [plus, refsOf, zero]
  | cons a l ih => show plus (one a) (refsOf (l ++ k)) = plus (plus (one a) (refsOf l)) (refsOf k); rw [ih, plus_assoc]

theorem refsOf_reverse (l : List Nat) : refsOf l.reverse = refsOf l := by
  induction l with
  | nil => rfl
  | cons a l ih =>
    rw [List.reverse_cons, refsOf_append, ih]
    show plus (refsOf l) (plus (one a) zero) = plus (one a) (refsOf l)
    rw [plus_zero, plus_comm]

/-- The end of the scope of a handle. -/
theorem holdingB_up {mT : M (Mgr × Coll) α} {x0 y : Mgr × Coll} {a : α} {r : Nat} (h : mT x0 = .ok a (up (plus d (one r)) y)) (hy : SaneB ba y)
    (ht : TempOk d y.1) (hr : Live r y.1) : holdingB cfg r mT x0 = .ok a (up d y) := by
  unfold holdingB
  rw [h]
  simp only
  unfold up
  rw [plus_right, M.bind_ok (release_up hy.sane (hy.temp ht) hr)]
  rfl

theorem SimB.copy {m mT : M (Mgr × Coll) α} {Q : α → Mgr × Coll → Prop} {r : Nat} (ht : TempOk d x.1) (hr : Live r x.1)
    (h : SimB ba (plus d (one r)) x m mT Q) : SimB ba d x m (withCopyB cfg r mT) Q := by
  intro a y e
  obtain ⟨h1, h2, h3, h4⟩ := h a y e
  refine ⟨?_, h2, h3, h4⟩
  unfold withCopyB
  have e1 : LBDD.onM (acquire r) (up d x) = .ok () (up (plus d (one r)) x) := by
    unfold up
    rw [acquire_up, plus_right]
  rw [M.bind_ok e1]
  exact holdingB_up h1 h2 (ht.ext h3) (hr.ext h3)

/-- The end of the scope of a vector. -/
theorem holdingVec_up : ∀ (l : List Nat) {mT : M (Mgr × Coll) α} {x0 y : Mgr × Coll} {a : α}, mT x0 = .ok a (up (plus d (refsOf l)) y) → SaneB ba y →
    TempOk d y.1 → AllLive l y.1 → holdingVec cfg l mT x0 = .ok a (up d y) := by
  intro l
  induction l with
  | nil =>
    intro mT x0 y a h hy ht hl
    rw [show plus d (refsOf []) = d from plus_zero d] at h
    exact h
  | cons p l ih =>
    intro mT x0 y a h hy ht hl
    have hd : plus d (refsOf (p :: l)) = plus (plus d (refsOf l)) (one p) := by
      show plus d (plus (one p) (refsOf l)) = _
      rw [← plus_assoc, plus_right]
    rw [hd] at h
    exact ih (holdingB_up h hy (ht.add fun q => owns_refs _ _ hl.tail q) hl.head) hy ht hl.tail

/-! ### The parts of `add_bdd` -/

theorem swapRefs_xs {s : Mgr} {e : Nat → Int} (hs : Sane ba s) (ht : TempOk e s) {p : Nat} (q : Nat) (hp : Live p s) : swapRefs cfg p q (xs e s) = .ok () (xs e s) := by
  unfold swapRefs
  rw [M.bind_ok (acquire_xs q)]
  have e1 : releaseNoAssert q (xs (plus e (one q)) s) = .ok () (xs e s) := by
    show Res.ok () _ = Res.ok () _
    congr 1
    unfold xs
    dsimp only
    congr 1
    funext r
    by_cases hr : r = q
    · subst hr
      rw [upd_same]
      show Cell.mk _ _ _ _ _ _ = Cell.mk _ _ _ _ _ _
      congr 1
      show (s.cells r).xref + (e r + (if r = r then 1 else 0)) - 1 = _
      rw [if_pos rfl]; omega
    · rw [upd_ne _ _ hr]
      show Cell.mk _ _ _ _ _ _ = Cell.mk _ _ _ _ _ _
      congr 1
      show (s.cells r).xref + (e r + (if r = q then 1 else 0)) = _
      rw [if_neg hr]; omega
  rw [M.bind_ok e1, M.bind_ok (acquire_xs p), release_xs hs ht hp]

theorem reverseRefs_xs {s : Mgr} {e : Nat → Int} (hs : Sane ba s) (ht : TempOk e s) : ∀ (l : List (Nat × Nat)), (∀ x ∈ l, Live x.1 s) →
    reverseRefs cfg l (xs e s) = .ok () (xs e s) := by
  intro l
  induction l with
  | nil => intro _; rfl
  | cons x l ih =>
    intro h
    obtain ⟨p, q⟩ := x
    unfold reverseRefs
    rw [M.bind_ok (swapRefs_xs hs ht q (h _ (List.mem_cons_self ..)))]
    exact ih fun y hy => h y (List.mem_cons_of_mem _ hy)

/-- The map after an insertion. -/
def hashed (p : Nat) (x : Mgr × Coll) : Mgr × Coll := (x.1, { x.2 with nrh := insertNew x.2.nrh p x.2.ins.length })

theorem hashInsert_sim {p : Nat} (hx : SaneB ba x) (hp : Live p x.1) :
    hashInsert p (up d x) = .ok () (up d (hashed p x)) ∧ SaneB ba (hashed p x) := by
  unfold hashInsert
  by_cases c : (x.2.nrh.lookup p).isSome = true
  · have e1 : hashed p x = x := by
      unfold hashed
      rw [show insertNew x.2.nrh p x.2.ins.length = x.2.nrh from if_pos c]
    rw [e1]
    refine ⟨?_, hx⟩
    rw [M.get_bind_apply, if_pos (show ((up d x).2.nrh.lookup p).isSome = true from c)]
    rfl
  · have e1 : insertNew x.2.nrh p x.2.ins.length = (p, x.2.ins.length) :: x.2.nrh := if_neg c
    refine ⟨?_, hx.sane, ?_⟩
    · rw [M.get_bind_apply, if_neg (show ¬ ((up d x).2.nrh.lookup p).isSome = true from c)]
      have e2 : LBDD.onM (acquire p) (up d x) = .ok () (xs (plus (plus d (keyRefs x.2)) (one p)) x.1, x.2) := acquire_up _
      rw [M.bind_ok e2]
      have e3 : keyRefs (hashed p x).2 = plus (one p) (keyRefs x.2) := by
        show refsOf ((insertNew x.2.nrh p x.2.ins.length).map _) = _
        rw [e1]; rfl
      show Res.ok () (xs (plus (plus d (keyRefs x.2)) (one p)) x.1, (hashed p x).2) = Res.ok () (xs (plus d (keyRefs (hashed p x).2)) x.1, (hashed p x).2)
      rw [e3, plus_comm (one p), plus_assoc]
    · unfold hashed
      simp only
      rw [e1]
      intro q hq
      rcases List.mem_cons.1 hq with hq | hq
      · rw [hq]; exact hp
      · exact hx.keys q hq

/-- One insertion and one new instruction. -/
theorem insertPush_sim {mT : M (Mgr × Coll) Unit} {f : Mgr × Coll → Mgr × Coll} {p : Nat} (g : Mgr → Instr)
    (h1 : mT (up d x) = .ok () (up d (hashed p x))) (hs : SaneB ba (hashed p x)) (hg : g (xs (plus d (keyRefs (hashed p x).2)) x.1) = g x.1)
    (hf : f = fun y => (y.1, { y.2 with ins := y.2.ins ++ [g y.1] })) :
    SimB ba d x (M.modify fun s => (s.1, { s.2 with nrh := insertNew s.2.nrh p s.2.ins.length, ins := s.2.ins ++ [g s.1] })) (mT >>= fun _ => M.modify f)
      fun _ y => y.1 = x.1 := by
  intro a y e
  have e : Res.ok () _ = Res.ok a y := e
  cases e
  refine ⟨?_, ⟨hs.sane, hs.keys⟩, .refl _, rfl⟩
  rw [M.bind_ok h1, hf]
  show Res.ok () (_, _) = Res.ok () (_, _)
  unfold up hashed at *
  simp only [hg]
  rfl

theorem addNodesT_sim : ∀ (l : List Nat) (x : Mgr × Coll), SaneB ba x → TempOk d x.1 → AllLive l x.1 →
    SimB ba d x (addNodes cfg l) (addNodesT cfg l) fun _ _ => True := by
  intro l
  induction l with
  | nil => intro x hx _ _; exact .pure hx trivial
  | cons p l ih =>
    intro x hx ht hl
    unfold addNodes addNodesT
    refine .bind (.onM hx (.isTerm hx.sane p)) fun b y hy xy _ => .assert_bind ?_
    have hp : Live p y.1 := hl.head.ext xy
    have ty := ht.ext xy
    have e1 : withCopyB cfg p (hashInsert p) (up d y) = .ok () (up d (hashed p y)) := by
      obtain ⟨h1, h2⟩ := hashInsert_sim (d := plus d (one p)) hy hp
      unfold withCopyB
      have e1 : LBDD.onM (acquire p) (up d y) = .ok () (up (plus d (one p)) y) := by
        unfold up
        rw [acquire_up, plus_right]
      rw [M.bind_ok e1]
      exact holdingB_up h1 h2 ty hp
    obtain ⟨_, h2⟩ := hashInsert_sim (d := d) hy hp
    rw [← bind_assoc_M]
    refine .bind (insertPush_sim (fun s => ⟨cTop, cTop, (s.cells p).index⟩) e1 h2 rfl rfl) fun _ z hz xz _ => ?_
    exact ih z hz (ty.ext xz) ((hl.tail.ext xy).ext xz)

theorem addSinkT_sim {p : Nat} {e : Instr} (hx : SaneB ba x) (ht : TempOk d x.1) (hp : Live p x.1) :
    SimB ba d x (addSink p e) (addSinkT cfg p e) fun _ _ => True := by
  obtain ⟨h1, h2⟩ := hashInsert_sim (d := plus d (one p)) hx hp
  have e1 : (LBDD.onM (newRef p) >>= fun r => holdingB cfg r (hashInsert r)) (up d x) = .ok () (up d (hashed p x)) := by
    have e0 : LBDD.onM (newRef p) (up d x) = .ok p (up (plus d (one p)) x) := by
      unfold up
      rw [onM_ok (a := p) (s' := xs (plus (plus d (keyRefs x.2)) (one p)) x.1), plus_right]
      unfold newRef
      rw [M.bind_ok (acquire_xs p)]
      rfl
    rw [M.bind_ok e0]
    exact holdingB_up h1 h2 ht hp
  unfold addSink addSinkT
  rw [← bind_assoc_M]
  intro a y h
  obtain ⟨k1, k2, k3, _⟩ := insertPush_sim (f := fun y => (y.1, { y.2 with ins := y.2.ins ++ [e] })) (fun _ => e) e1 h2 rfl rfl a y h
  exact ⟨k1, k2, k3, trivial⟩

theorem hashFind_up {child : M Mgr Nat} {l : Nat} (hx : SaneB ba x) (ht : TempOk d x.1) (hl : Live l x.1)
    (hc : child (up d x).1 = .ok l (up d x).1) : hashFind cfg child (up d x) = .ok (x.2.nrh.lookup l) (up d x) := by
  unfold hashFind
  have e0 : LBDD.onM child (up d x) = .ok l (up d x) := onM_ok (c := x.2) hc
  rw [M.bind_ok e0]
  unfold withCopyB
  have e1 : LBDD.onM (acquire l) (up d x) = .ok () (up (plus d (one l)) x) := by
    unfold up
    rw [acquire_up, plus_right]
  rw [M.bind_ok e1]
  exact holdingB_up (y := x) rfl hx ht hl

theorem lowOf_inv {p l : Nat} {s s' : Mgr} (e : lowOf p s = .ok l s') : s' = s ∧ l = (s.cells p).lo ∧ (s.cells p).live = true ∧ (s.cells p).index < topsinkIndex := by
  unfold lowOf at e
  rw [M.get_bind_apply] at e
  split at e
  · cases e
  · rename_i h
    simp at h
    have e : Res.ok _ s = Res.ok l s' := e
    cases e
    exact ⟨rfl, rfl, h.1, by omega⟩

theorem low_up {p : Nat} (h1 : (x.1.cells p).live = true) (h2 : (x.1.cells p).index < topsinkIndex) : lowOf p (up d x).1 = .ok (x.1.cells p).lo (up d x).1 := by
  unfold lowOf
  rw [M.get_bind_apply]
  rw [if_neg]
  · rfl
  · show ¬ (!(x.1.cells p).live || decide (topsinkIndex ≤ (x.1.cells p).index)) = true
    simp [h1]; omega

theorem high_up {p : Nat} (h1 : (x.1.cells p).live = true) (h2 : (x.1.cells p).index < topsinkIndex) : highOf p (up d x).1 = .ok (x.1.cells p).hi (up d x).1 := by
  unfold highOf
  rw [M.get_bind_apply]
  rw [if_neg]
  · rfl
  · show ¬ (!(x.1.cells p).live || decide (topsinkIndex ≤ (x.1.cells p).index)) = true
    simp [h1]; omega

theorem arcAsserts_up {i p a b : Nat} (hx : SaneB ba x) (ht : TempOk d x.1) (h1 : (x.1.cells p).live = true) (h2 : (x.1.cells p).index < topsinkIndex)
    (ha : x.2.nrh.lookup (x.1.cells p).lo = some a) (hb : x.2.nrh.lookup (x.1.cells p).hi = some b) (hia : (cfg.ndebug || decide (i < a)) = true)
    (hib : (cfg.ndebug || decide (i < b)) = true) : arcAsserts cfg i p (up d x) = .ok () (up d x) := by
  obtain ⟨c1, c2⟩ := hx.sane.child p h1 (Or.inr h2)
  have f1 := hashFind_up (cfg := cfg) hx ht c1 (low_up (d := d) h1 h2)
  have f2 := hashFind_up (cfg := cfg) hx ht c2 (high_up (d := d) h1 h2)
  rw [ha] at f1
  rw [hb] at f2
  unfold arcAsserts
  cases hn : cfg.ndebug with
  | true => rfl
  | false =>
    rw [hn] at hia hib
    simp only [Bool.false_eq_true, if_false]
    rw [M.bind_ok f1, M.assert_bind_apply (by simp), M.bind_ok f2, M.assert_bind_apply (by simp), M.bind_ok f1]
    simp only
    rw [M.assert_bind_apply (by simpa using hia), M.bind_ok f2]
    simp only
    unfold M.assert
    rw [if_pos hib]

/-- A state with one instruction changed. -/
def withIns (x : Mgr × Coll) (j : Nat) (e : Instr) : Mgr × Coll := (x.1, { x.2 with ins := x.2.ins.set j e })

theorem addArcsT_sim {offset : Nat} : ∀ (l : List Nat) (i : Nat) (x : Mgr × Coll), SaneB ba x → TempOk d x.1 →
    SimB ba d x (addArcs cfg offset i l) (addArcsT cfg offset i l) fun _ _ => True := by
  intro l
  induction l with
  | nil => intro i x hx _; exact .pure hx trivial
  | cons p l ih =>
    intro i x hx ht r z e
    unfold addArcs at e
    obtain ⟨lo, x1, e1, _⟩ := bind_ok_inv e
    obtain ⟨s1, q1, _⟩ := onM_inv e1
    obtain ⟨_, _, h1, h2⟩ := lowOf_inv q1
    have e1' : LBDD.onM (lowOf p) x = .ok (x.1.cells p).lo x := onM_ok (c := x.2) (by
      unfold lowOf
      rw [M.get_bind_apply, if_neg (by simp [h1]; omega)]
      rfl)
    have e2' : LBDD.onM (highOf p) x = .ok (x.1.cells p).hi x := onM_ok (c := x.2) (by
      unfold highOf
      rw [M.get_bind_apply, if_neg (by simp [h1]; omega)]
      rfl)
    rw [M.bind_ok e1', M.bind_ok e2'] at e
    rw [M.get_bind_apply] at e
    obtain ⟨c1, c2⟩ := hx.sane.child p h1 (Or.inr h2)
    cases ha : x.2.nrh.lookup (x.1.cells p).lo with
    | none => simp only [ha] at e; obtain ⟨_, _, _, e⟩ := bind_ok_inv e; cases e
    | some a => ?_
    cases hb : x.2.nrh.lookup (x.1.cells p).hi with
    | none => simp only [ha, hb] at e; obtain ⟨_, _, _, e⟩ := bind_ok_inv e; cases e
    | some b => ?_
    simp only [ha, hb] at e
    obtain ⟨_, y1, k1, e⟩ := bind_ok_inv e
    have hia : (cfg.ndebug || decide (i < a)) = true ∧ y1 = x := by
      unfold M.assert at k1
      split at k1
      · rename_i h; cases k1; exact ⟨h, rfl⟩
      · cases k1
    obtain ⟨hia, rfl⟩ := hia
    obtain ⟨_, y2, k2, e⟩ := bind_ok_inv e
    have hib : (cfg.ndebug || decide (i < b)) = true ∧ y2 = y1 := by
      unfold M.assert at k2
      split at k2
      · rename_i h; cases k2; exact ⟨h, rfl⟩
      · cases k2
    obtain ⟨hib, rfl⟩ := hib
    cases hins : y2.2.ins[offset + i]? with
    | none => simp only [hins] at e; cases e
    | some ins => ?_
    simp only [hins] at e
    obtain ⟨_, y3, k3, e⟩ := bind_ok_inv e
    have k3 : Res.ok () (withIns y2 (offset + i) { ins with lo := a, hi := b }) = Res.ok _ y3 := k3
    cases k3
    -- the run with temporaries
    have f1 := hashFind_up (cfg := cfg) hx ht c1 (low_up (d := d) h1 h2)
    rw [ha] at f1
    have hx1 : SaneB ba (withIns y2 (offset + i) { ins with lo := a }) := ⟨hx.sane, hx.keys⟩
    have f2 := hashFind_up (cfg := cfg) hx1 ht c2 (high_up (d := d) h1 h2)
    rw [show (withIns y2 (offset + i) { ins with lo := a }).2.nrh.lookup (y2.1.cells p).hi = some b from hb] at f2
    obtain ⟨k1, k2, k3, k4⟩ := ih (i + 1) (withIns y2 (offset + i) { ins with lo := a, hi := b }) ⟨hx.sane, hx.keys⟩ ht r z e
    refine ⟨?_, k2, k3, k4⟩
    unfold addArcsT
    rw [M.bind_ok (arcAsserts_up hx ht h1 h2 ha hb hia hib), M.bind_ok f1]
    have hlt : offset + i < y2.2.ins.length := (List.getElem?_eq_some_iff.1 hins).1
    have g1 : putArc (offset + i) (some a) (fun e a => { e with lo := a }) (up d y2) = .ok () (up d (withIns y2 (offset + i) { ins with lo := a })) := by
      unfold putArc
      rw [M.get_bind_apply]
      have : (up d y2).2.ins[offset + i]? = some ins := hins
      simp only [this]
      rfl
    have g2 : putArc (offset + i) (some b) (fun e b => { e with hi := b }) (up d (withIns y2 (offset + i) { ins with lo := a })) =
        .ok () (up d (withIns y2 (offset + i) { ins with lo := a, hi := b })) := by
      unfold putArc
      rw [M.get_bind_apply]
      have : (up d (withIns y2 (offset + i) { ins with lo := a })).2.ins[offset + i]? = some { ins with lo := a } := by
        show (y2.2.ins.set (offset + i) _)[offset + i]? = _
        rw [List.getElem?_set_self hlt]
      simp only [this]
      show Res.ok () (_, _) = Res.ok () (_, _)
      unfold up withIns
      simp only [List.set_set]
      rfl
    rw [M.bind_ok g1, M.bind_ok f2, M.bind_ok g2]
    exact k1

theorem releaseKeys_xs {s : Mgr} (hs : Sane ba s) (ht : TempOk d s) : ∀ (l : List (Nat × Nat)), AllLive (l.map (·.1)) s →
    releaseKeys cfg l (xs (plus d (refsOf (l.map (·.1)))) s) = .ok () (xs d s) := by
  intro l
  induction l with
  | nil => intro _; show Res.ok () (xs (plus d zero) s) = _; rw [plus_zero]
  | cons k l ih =>
    intro h
    have hd : plus d (refsOf ((k :: l).map (·.1))) = plus (plus d (refsOf (l.map (·.1)))) (one k.1) := by
      show plus d (plus (one k.1) (refsOf _)) = _
      rw [← plus_assoc, plus_right]
    unfold releaseKeys
    rw [hd, M.bind_ok (release_xs hs (ht.add fun q => owns_refs _ _ h.tail q) h.head)]
    exact ih h.tail

/-- The state after `clear()`. -/
def cleared (x : Mgr × Coll) : Mgr × Coll := (x.1, { x.2 with del := x.2.del ++ [x.2.ins.length], nrh := [] })

theorem SimB.clear {k kT : Unit → M (Mgr × Coll) β} {R : β → Mgr × Coll → Prop} (hx : SaneB ba x) (ht : TempOk d x.1)
    (h : SimB ba d (cleared x) (k ()) (kT ()) R) :
    SimB ba d x (M.modify (fun s => (s.1, { s.2 with del := s.2.del ++ [s.2.ins.length], nrh := [] })) >>= k)
      (M.modify (fun s => (s.1, { s.2 with del := s.2.del ++ [s.2.ins.length] })) >>= fun _ => M.get >>= fun s : Mgr × Coll => LBDD.onM (releaseKeys cfg s.2.nrh) >>= fun _ =>
        M.modify (fun s => (s.1, { s.2 with nrh := [] })) >>= kT) R := by
  intro b z e
  have e1 : (M.modify (fun s : Mgr × Coll => (s.1, { s.2 with del := s.2.del ++ [s.2.ins.length], nrh := [] })) : M (Mgr × Coll) Unit) x = .ok () (cleared x) := rfl
  rw [M.bind_ok e1] at e
  obtain ⟨k1, k2, k3, k4⟩ := h b z e
  refine ⟨?_, k2, k3, k4⟩
  have e2 : (M.modify (fun s : Mgr × Coll => (s.1, { s.2 with del := s.2.del ++ [s.2.ins.length] })) : M (Mgr × Coll) Unit) (up d x) =
    .ok () ((up d x).1, { x.2 with del := x.2.del ++ [x.2.ins.length] }) := rfl
  rw [M.bind_ok e2, M.get_bind_apply]
  have e3 : LBDD.onM (releaseKeys cfg x.2.nrh) ((up d x).1, { x.2 with del := x.2.del ++ [x.2.ins.length] }) =
      .ok () (xs d x.1, { x.2 with del := x.2.del ++ [x.2.ins.length] }) := onM_ok (releaseKeys_xs hx.sane ht _ hx.keys)
  rw [M.bind_ok e3]
  have e4 : (M.modify (fun s : Mgr × Coll => (s.1, { s.2 with nrh := [] })) : M (Mgr × Coll) Unit) (xs d x.1, { x.2 with del := x.2.del ++ [x.2.ins.length] }) =
      .ok () (up d (cleared x)) := by
    show Res.ok () (xs d x.1, _) = Res.ok () (xs (plus d zero) x.1, _)
    rw [plus_zero]
    rfl
  rw [M.bind_ok e4]
  exact k1

theorem cNrNodes_keeps {c c' : Coll} {nr k : Nat} (e : cNrNodes cfg nr c = .ok k c') : c' = c := by
  unfold cNrNodes at e
  rw [M.get_bind_apply] at e
  obtain ⟨_, c1, e1, e⟩ := bind_ok_inv e
  obtain ⟨_, c2, e2, e⟩ := bind_ok_inv e
  obtain ⟨_, c3, e3, e⟩ := bind_ok_inv e
  have h1 : c1 = c := by unfold M.assert at e1; split at e1 <;> cases e1; rfl
  have h2 : ∀ {i a : Nat} {c c' : Coll}, dlm i c = .ok a c' → c' = c := fun e => by unfold dlm at e; split at e <;> cases e; rfl
  have e : Res.ok _ c3 = Res.ok k c' := e
  cases e
  rw [h2 e3, h2 e2, h1]

/-- `add_bdd` with all its temporary handles does what it does without them. -/
theorem addBddT_sim {p : Nat} (hx : SaneB ba x) (ht : TempOk d x.1) (hp : Live p x.1) : SimB ba d x (addBdd cfg p) (addBddT cfg p) fun _ _ => True := by
  unfold addBddT
  refine .copy ht hp ?_
  have tp := ht.plus hp
  generalize plus d (one p) = d1 at tp
  intro a z e
  unfold addBdd at e
  rw [M.get_bind_apply] at e ⊢
  obtain ⟨_, y, e1, e5⟩ := bind_ok_inv e
  have e1' : y = x ∧ (cfg.ndebug || decide (x.2.del.getLast? = some x.2.ins.length)) = true := by
    unfold M.assert at e1
    split at e1
    · rename_i h; cases e1; exact ⟨rfl, h⟩
    · cases e1
  obtain ⟨rfl, has⟩ := e1'
  rw [show (up d1 y).2 = y.2 from rfl]
  have e1'' : (M.assert cfg.ndebug (decide (y.2.del.getLast? = some y.2.ins.length)) : M (Mgr × Coll) Unit) (up d1 y) = .ok () (up d1 y) := by
    unfold M.assert; rw [if_pos has]
  rw [M.bind_ok e1'']
  obtain ⟨post, y1, e6, e7⟩ := bind_ok_inv e5
  obtain ⟨s1, e2, rfl⟩ := onM_inv e6
  have hc := Sim.convert (cfg := cfg) (hx.temp tp) (.nodesPostorder (cfg := cfg) hx.sane hp)
  unfold Sim at hc
  simp only [e2] at hc
  obtain ⟨c1, c2, c3, c4⟩ := hc
  have hy : SaneB ba (s1, y.2) := ⟨c2, hx.keys.ext c3⟩
  have e3 : LBDD.onM (nodesPostorder cfg p >>= fun l => convertRefs cfg l >>= fun _ => Pure.pure l) (up d1 y) =
      .ok post (up (plus d1 (refsOf post.reverse)) (s1, y.2)) := by
    rw [refsOf_reverse]
    unfold up
    rw [plus_right]
    exact onM_ok c1
  rw [M.bind_ok e3]
  have hpr : AllLive post.reverse s1 := fun q hq => c4 q (List.mem_reverse.1 hq)
  have t1 : TempOk (plus d1 (refsOf post.reverse)) s1 := (tp.ext c3).add fun q => owns_refs _ _ hpr q
  suffices hin : SimB ba (plus d1 (refsOf post.reverse)) (s1, y.2) _ _ fun _ _ => True by
    obtain ⟨k1, k2, k3, _⟩ := hin a z e7
    exact ⟨holdingVec_up _ k1 k2 ((tp.ext c3).ext k3) (hpr.ext k3), k2, c3.trans k3, trivial⟩
  have e4 : LBDD.onM (reverseRefs cfg ((post.zip post.reverse).take (post.length / 2))) (up (plus d1 (refsOf post.reverse)) (s1, y.2)) =
      .ok () (up (plus d1 (refsOf post.reverse)) (s1, y.2)) := by
    refine onM_ok (reverseRefs_xs hy.sane (hy.temp t1) _ fun q hq => ?_)
    obtain ⟨q1, q2⟩ := q
    exact c4 q1 (List.of_mem_zip (List.mem_of_mem_take hq)).1
  generalize plus d1 (refsOf post.reverse) = d2 at t1 e4
  intro a z e
  rw [M.bind_ok e4]
  revert a z
  show SimB ba d2 (s1, y.2) _ _ fun _ _ => True
  refine .bind (addNodesT_sim _ _ hy t1 hpr) fun _ x1 h1 xx1 _ => ?_
  have tx1 := t1.ext xx1
  cases post.reverse.getLast? with
  | none => exact .ub
  | some q =>
    simp only
    refine .bind (.onM h1 (.findBddMgr h1.sane q)) fun _ x2 h2 xx2 _ => ?_
    refine .bind (addSinkT_sim h2 (tx1.ext xx2) h2.sane.live0) fun _ x3 h3 xx3 _ => ?_
    refine .bind (.onM h3 (.findBddMgr h3.sane q)) fun _ x4 h4 xx4 _ => ?_
    have tx4 := ((tx1.ext xx2).ext xx3).ext xx4
    refine .bind (addSinkT_sim h4 tx4 h4.sane.live1) fun _ x5 h5 xx5 _ => ?_
    refine .bind (.onC (Q := fun _ _ => True) h5 fun o c' ho => ?_) fun offset x6 h6 xx6 _ => ?_
    · unfold dlmBack at ho; split at ho <;> cases ho; exact ⟨rfl, trivial⟩
    have tx6 := (tx4.ext xx5).ext xx6
    refine .bind (addArcsT_sim _ _ _ h6 tx6) fun _ x7 h7 xx7 _ => ?_
    have tx7 := tx6.ext xx7
    refine .clear h7 tx7 ?_
    have h8 : SaneB ba (cleared x7) := ⟨h7.sane, fun q hq => by cases hq⟩
    intro a z e
    rw [M.get_bind_apply] at e ⊢
    revert a z
    rw [show (up d2 (cleared x7)).2 = (cleared x7).2 from rfl]
    show SimB ba d2 (cleared x7) _ _ fun _ _ => True
    refine .assert_bind (.bind (.onC (Q := fun _ _ => True) h8 fun o c' ho => ?_) fun k x9 h9 xx9 _ => .assert_bind (.pure h9 trivial))
    refine ⟨?_, trivial⟩
    cases hn : cfg.ndebug with
    | true => rw [hn] at ho; cases ho; rfl
    | false => rw [hn] at ho; simp only [Bool.false_eq_true, if_false] at ho; rw [cNrNodes_keeps ho]

end
end LBDD
