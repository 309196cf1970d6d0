import Verif.Model.Temps
import Verif.Proof.Unique
import Verif.Proof.Memo
/-! Running a function with and without its temporary handles: the two runs differ only in the reference counts, by the handles that exist. -/
namespace LBDD

def one (p : Nat) : Nat → Int := fun q => if q = p then 1 else 0
def plus (d e : Nat → Int) : Nat → Int := fun p => d p + e p
def zero : Nat → Int := fun _ => 0

theorem plus_zero (d : Nat → Int) : plus d zero = d := by funext p; simp [plus, zero]
theorem plus_comm (d e : Nat → Int) : plus d e = plus e d := by funext p; simp only [plus]; omega
theorem plus_assoc (d e f : Nat → Int) : plus (plus d e) f = plus d (plus e f) := by funext p; simp only [plus]; omega
theorem plus_right (d e f : Nat → Int) : plus (plus d e) f = plus (plus d f) e := by funext p; simp only [plus]; omega

/-- The state with `d p` additional references to node `p`. -/
def xs (d : Nat → Int) (s : Mgr) : Mgr := { s with cells := fun p => { s.cells p with xref := (s.cells p).xref + d p } }

/-- What the simulation needs of a state; `ba p` is the number of references to `p` that are not arcs of nodes. -/
structure Sane (ba : Nat → Int) (s : Mgr) : Prop where
  xref : ∀ p, (s.cells p).live = true → 0 ≤ (s.cells p).xref
  pool : PoolOk s
  child : ∀ p, (s.cells p).live = true → 2 ≤ p ∨ (s.cells p).index < topsinkIndex →
    (s.cells (s.cells p).lo).live = true ∧ (s.cells (s.cells p).hi).live = true
  memo : ∀ k, k < s.memo.size → ∀ r, (s.memo.entries k).r = some r → (s.cells r).live = true
  live0 : (s.cells botId).live = true
  live1 : (s.cells topId).live = true
  base : ∀ p, ba p ≠ 0 → (s.cells p).live = true
  bal : ∀ p, (s.cells p).live = true → (s.cells p).xref = ba p + arcsTo s.cells p s.pool.hw

/-- The temporary handles: none is negative, and they refer to existing nodes. -/
structure TempOk (d : Nat → Int) (s : Mgr) : Prop where
  nonneg : ∀ p, 0 ≤ d p
  live : ∀ p, d p ≠ 0 → (s.cells p).live = true

theorem TempOk.ext {d : Nat → Int} {s s' : Mgr} (h : TempOk d s) (hx : CellsExt s.cells s'.cells) : TempOk d s' :=
  ⟨h.nonneg, fun p hp => (hx p (h.live p hp)).1⟩

theorem TempOk.plus {d : Nat → Int} {s : Mgr} (h : TempOk d s) {r : Nat} (hr : (s.cells r).live = true) : TempOk (plus d (one r)) s := by
  refine ⟨fun p => ?_, fun p hp => ?_⟩
  · have := h.nonneg p
    unfold LBDD.plus one; split <;> omega
  · unfold LBDD.plus one at hp
    by_cases e : p = r
    · subst e; exact hr
    · rw [if_neg e] at hp; exact h.live p (by omega)

/-- The run of `mT` with the handles `d` in existence mirrors the run of `m` without them; `e a` are the references handed to the caller. -/
def Sim {α : Type} (ba d : Nat → Int) (s : Mgr) (m mT : M Mgr α) (e : α → Nat → Int) (Q : α → Mgr → Prop) : Prop :=
  match m s with
  | .ok a s' => mT (xs d s) = .ok a (xs (plus d (e a)) s') ∧ Sane ba s' ∧ CellsExt s.cells s'.cells ∧ Q a s'
  | .throw s' => mT (xs d s) = .throw (xs d s') ∧ Sane ba s' ∧ CellsExt s.cells s'.cells
  | .assertFail => mT (xs d s) = .assertFail
  | .ub => mT (xs d s) = .ub
  | .hang => mT (xs d s) = .hang

section
variable {α β : Type} {ba : Nat → Int} {d : Nat → Int} {s : Mgr}

def noRefs : α → Nat → Int := fun _ => zero
def Live (r : Nat) (s : Mgr) : Prop := (s.cells r).live = true
def Anything : α → Mgr → Prop := fun _ _ => True

theorem Live.ext {r : Nat} {s s' : Mgr} (h : Live r s) (hx : CellsExt s.cells s'.cells) : Live r s' := (hx r h).1

theorem Sim.mono {m mT : M Mgr α} {e : α → Nat → Int} {Q R : α → Mgr → Prop} (h : Sim ba d s m mT e Q) (hq : ∀ a s', Q a s' → R a s') :
    Sim ba d s m mT e R := by
  unfold Sim at *
  cases hm : m s <;> simp only [hm] at h ⊢
  · exact ⟨h.1, h.2.1, h.2.2.1, hq _ _ h.2.2.2⟩
  all_goals exact h

theorem Sim.bind {m mT : M Mgr α} {k kT : α → M Mgr β} {e : β → Nat → Int} {Q : α → Mgr → Prop} {R : β → Mgr → Prop}
    (h : Sim ba d s m mT noRefs Q)
    (hk : ∀ a s', Sane ba s' → CellsExt s.cells s'.cells → Q a s' → Sim ba d s' (k a) (kT a) e R) :
    Sim ba d s (m >>= k) (mT >>= kT) e R := by
  unfold Sim at h
  cases hm : m s with
  | ok a s1 =>
    simp only [hm] at h
    obtain ⟨h1, h2, h3, h4⟩ := h
    have h5 := hk a s1 h2 h3 h4
    unfold Sim at h5 ⊢
    rw [M.bind_ok hm, M.bind_ok h1, show plus d (noRefs a) = d from plus_zero d]
    cases hk1 : k a s1 <;> simp only [hk1] at h5 ⊢
    · exact ⟨h5.1, h5.2.1, h3.trans h5.2.2.1, h5.2.2.2⟩
    · exact ⟨h5.1, h5.2.1, h3.trans h5.2.2⟩
    all_goals exact h5
  | throw s1 =>
    simp only [hm] at h
    have e1 : (m >>= k) s = .throw s1 := by show M.bind m k s = _; unfold M.bind; rw [hm]
    have e2 : (mT >>= kT) (xs d s) = .throw (xs d s1) := by show M.bind mT kT _ = _; unfold M.bind; rw [h.1]
    unfold Sim; simp only [e1]; exact ⟨e2, h.2⟩
  | assertFail =>
    simp only [hm] at h
    have e1 : (m >>= k) s = .assertFail := by show M.bind m k s = _; unfold M.bind; rw [hm]
    unfold Sim; simp only [e1]; show M.bind mT kT _ = _; unfold M.bind; rw [h]
  | ub =>
    simp only [hm] at h
    have e1 : (m >>= k) s = .ub := by show M.bind m k s = _; unfold M.bind; rw [hm]
    unfold Sim; simp only [e1]; show M.bind mT kT _ = _; unfold M.bind; rw [h]
  | hang =>
    simp only [hm] at h
    have e1 : (m >>= k) s = .hang := by show M.bind m k s = _; unfold M.bind; rw [hm]
    unfold Sim; simp only [e1]; show M.bind mT kT _ = _; unfold M.bind; rw [h]

theorem release_xs {cfg : Cfg} {r : Nat} (hs : Sane ba s) (ht : TempOk d s) (hr : Live r s) :
    release cfg r (xs (plus d (one r)) s) = .ok () (xs d s) := by
  have h1 := hs.xref r hr
  have h2 := ht.nonneg r
  have e : ((xs (plus d (one r)) s).cells r).xref = (s.cells r).xref + d r + 1 := by
    show (s.cells r).xref + (d r + (if r = r then 1 else 0)) = _
    rw [if_pos rfl]; omega
  unfold release
  rw [M.get_bind_apply, M.assert_bind_apply (by rw [e]; exact decide_eq_true (by omega))]
  show Res.ok () _ = Res.ok () _
  congr 1
  rw [e]
  unfold xs
  congr 1
  funext q
  by_cases hq : q = r
  · subst hq
    rw [upd_same]
    show Cell.mk _ _ _ _ _ _ = Cell.mk _ _ _ _ _ _
    congr 1
    omega
  · rw [upd_ne _ _ hq]
    show Cell.mk _ _ _ _ _ _ = Cell.mk _ _ _ _ _ _
    congr 1
    show (s.cells q).xref + (d q + (if q = r then 1 else 0)) = _
    rw [if_neg hq]; omega

theorem acquire_xs (r : Nat) : acquire r (xs d s) = .ok () (xs (plus d (one r)) s) := by
  show Res.ok () _ = Res.ok () _
  congr 1
  unfold xs
  dsimp only
  congr 1
  funext q
  by_cases hq : q = r
  · subst hq
    rw [upd_same]
    show Cell.mk _ _ _ _ _ _ = Cell.mk _ _ _ _ _ _
    congr 1
    show (s.cells q).xref + d q + 1 = (s.cells q).xref + (d q + (if q = q then 1 else 0))
    rw [if_pos rfl]; omega
  · rw [upd_ne _ _ hq]
    show Cell.mk _ _ _ _ _ _ = Cell.mk _ _ _ _ _ _
    congr 1
    show (s.cells q).xref + d q = (s.cells q).xref + (d q + (if q = r then 1 else 0))
    rw [if_neg hq]; omega

/-- The nodes a result refers to exist. -/
def Owns (e : α → Nat → Int) (Q : α → Mgr → Prop) : Prop := ∀ a s', Q a s' → ∀ p, 0 ≤ e a p ∧ (e a p ≠ 0 → (s'.cells p).live = true)

theorem TempOk.add {e : Nat → Int} {s' : Mgr} (h : TempOk d s') (he : ∀ p, 0 ≤ e p ∧ (e p ≠ 0 → (s'.cells p).live = true)) : TempOk (LBDD.plus d e) s' := by
  refine ⟨fun p => ?_, fun p hp => ?_⟩
  · have := h.nonneg p; have := (he p).1; unfold LBDD.plus; omega
  · by_cases h1 : d p = 0
    · refine (he p).2 ?_; unfold LBDD.plus at hp; omega
    · exact h.live p h1

/-- The scope of a handle. -/
theorem Sim.hold {cfg : Cfg} {m mT : M Mgr α} {e : α → Nat → Int} {Q : α → Mgr → Prop} {r : Nat} (ho : Owns e Q) (ht : TempOk d s) (hr : Live r s)
    (h : Sim ba (plus d (one r)) s m mT e Q) : ∀ s0, xs (plus d (one r)) s = s0 →
    match m s with
    | .ok a s' => holding cfg r mT s0 = .ok a (xs (plus d (e a)) s') ∧ Sane ba s' ∧ CellsExt s.cells s'.cells ∧ Q a s'
    | .throw s' => holding cfg r mT s0 = .throw (xs d s') ∧ Sane ba s' ∧ CellsExt s.cells s'.cells
    | .assertFail => holding cfg r mT s0 = .assertFail
    | .ub => holding cfg r mT s0 = .ub
    | .hang => holding cfg r mT s0 = .hang := by
  intro s0 hs0
  subst hs0
  unfold Sim at h
  cases hm : m s <;> simp only [hm] at h ⊢
  · rename_i a s1
    obtain ⟨h1, h2, h3, h4⟩ := h
    refine ⟨?_, h2, h3, h4⟩
    unfold holding
    rw [h1]
    simp only
    rw [plus_right, M.bind_ok (release_xs h2 ((ht.ext h3).add (ho _ _ h4)) (hr.ext h3))]
    rfl
  · rename_i s1
    obtain ⟨h1, h2, h3⟩ := h
    refine ⟨?_, h2, h3⟩
    unfold holding
    rw [h1]
    simp only
    rw [M.bind_ok (release_xs h2 (ht.ext h3) (hr.ext h3))]
    rfl
  all_goals (unfold holding; rw [h])

/-- A copy of a handle. -/
theorem Sim.copy {cfg : Cfg} {m mT : M Mgr α} {e : α → Nat → Int} {Q : α → Mgr → Prop} {r : Nat} (ho : Owns e Q) (ht : TempOk d s) (hr : Live r s)
    (h : Sim ba (plus d (one r)) s m mT e Q) : Sim ba d s m (withCopy cfg r mT) e Q := by
  have := Sim.hold (cfg := cfg) ho ht hr h _ rfl
  unfold Sim withCopy
  rw [M.bind_ok (acquire_xs r)]
  exact this

/-- A handle returned by a call, in scope for the rest. -/
theorem Sim.local {cfg : Cfg} {m mT : M Mgr Nat} {k kT : Nat → M Mgr β} {e : β → Nat → Int} {Q : Nat → Mgr → Prop} {R : β → Mgr → Prop}
    (ho : Owns e R) (ht : TempOk d s) (hl : ∀ r s', Q r s' → Live r s') (h : Sim ba d s m mT one Q)
    (hk : ∀ r s', Sane ba s' → CellsExt s.cells s'.cells → Q r s' → Sim ba (plus d (one r)) s' (k r) (kT r) e R) :
    Sim ba d s (m >>= k) (mT >>= fun r => holding cfg r (kT r)) e R := by
  unfold Sim at h
  cases hm : m s with
  | ok a s1 =>
    simp only [hm] at h
    obtain ⟨h1, h2, h3, h4⟩ := h
    have h5 := Sim.hold (cfg := cfg) ho (ht.ext h3) (hl _ _ h4) (hk a s1 h2 h3 h4) _ rfl
    unfold Sim
    rw [M.bind_ok hm, M.bind_ok h1]
    cases hk1 : k a s1 <;> simp only [hk1] at h5 ⊢
    · exact ⟨h5.1, h5.2.1, h3.trans h5.2.2.1, h5.2.2.2⟩
    · exact ⟨h5.1, h5.2.1, h3.trans h5.2.2⟩
    all_goals exact h5
  | throw s1 =>
    simp only [hm] at h
    have e1 : (m >>= k) s = .throw s1 := by show M.bind m k s = _; unfold M.bind; rw [hm]
    unfold Sim; simp only [e1]; refine ⟨?_, h.2⟩; show M.bind mT _ _ = _; unfold M.bind; rw [h.1]
  | assertFail =>
    simp only [hm] at h
    have e1 : (m >>= k) s = .assertFail := by show M.bind m k s = _; unfold M.bind; rw [hm]
    unfold Sim; simp only [e1]; show M.bind mT _ _ = _; unfold M.bind; rw [h]
  | ub =>
    simp only [hm] at h
    have e1 : (m >>= k) s = .ub := by show M.bind m k s = _; unfold M.bind; rw [hm]
    unfold Sim; simp only [e1]; show M.bind mT _ _ = _; unfold M.bind; rw [h]
  | hang =>
    simp only [hm] at h
    have e1 : (m >>= k) s = .hang := by show M.bind m k s = _; unfold M.bind; rw [hm]
    unfold Sim; simp only [e1]; show M.bind mT _ _ = _; unfold M.bind; rw [h]

theorem owns_none {Q : α → Mgr → Prop} : Owns (noRefs : α → Nat → Int) Q := fun _ _ _ _ => ⟨Int.le_refl _, fun h => absurd rfl h⟩
theorem owns_one : Owns one Live := fun a s' h p => by
  unfold one
  by_cases e : p = a
  · subst e; exact ⟨by simp, fun _ => h⟩
  · simp [e]

/-! ### Elementary steps -/

theorem Sim.pure (hs : Sane ba s) {a : α} {Q : α → Mgr → Prop} (hq : Q a s) : Sim ba d s (Pure.pure a : M Mgr α) (Pure.pure a) noRefs Q := by
  unfold Sim
  show (Pure.pure a : M Mgr α) (xs d s) = _ ∧ _
  rw [show plus d (noRefs a) = d from plus_zero d]
  exact ⟨rfl, hs, .refl _, hq⟩

theorem Sim.ref (hs : Sane ba s) {r : Nat} (hr : Live r s) : Sim ba d s (Pure.pure r : M Mgr Nat) (newRef r) one Live := by
  unfold Sim
  show newRef r (xs d s) = _ ∧ _
  refine ⟨?_, hs, .refl _, hr⟩
  unfold newRef
  rw [M.bind_ok (acquire_xs r)]
  rfl

theorem Sim.ub {e : α → Nat → Int} {Q : α → Mgr → Prop} : Sim ba d s (M.ub : M Mgr α) M.ub e Q := rfl
theorem Sim.hang {e : α → Nat → Int} {Q : α → Mgr → Prop} : Sim ba d s (M.hang : M Mgr α) M.hang e Q := rfl
theorem Sim.throw (hs : Sane ba s) {e : α → Nat → Int} {Q : α → Mgr → Prop} : Sim ba d s (M.throw : M Mgr α) M.throw e Q := ⟨rfl, hs, .refl _⟩

theorem Sim.assert (hs : Sane ba s) {nd c : Bool} : Sim ba d s (M.assert nd c) (M.assert nd c) noRefs Anything := by
  unfold Sim M.assert
  by_cases h : (nd || c) = true
  · simp only [h, if_true]
    refine ⟨?_, hs, .refl _, trivial⟩
    rw [show plus d (noRefs ()) = d from plus_zero d]
  · simp only [h]; rfl

theorem Sim.assert_bind {nd c : Bool} {k kT : Unit → M Mgr β} {e : β → Nat → Int} {R : β → Mgr → Prop}
    (h : Sim ba d s (k ()) (kT ()) e R) : Sim ba d s (M.assert nd c >>= k) (M.assert nd c >>= kT) e R := by
  by_cases hc : (nd || c) = true
  · have e1 : ∀ t : Mgr, (M.assert nd c : M Mgr Unit) t = .ok () t := fun t => by unfold M.assert; rw [if_pos hc]
    unfold Sim
    rw [M.bind_ok (e1 s), M.bind_ok (e1 (xs d s))]
    exact h
  · have e1 : ∀ t : Mgr, (M.assert nd c : M Mgr Unit) t = .assertFail := fun t => by unfold M.assert; rw [if_neg hc]
    have e2 : ∀ (k : Unit → M Mgr β) (t : Mgr), ((M.assert nd c : M Mgr Unit) >>= k) t = .assertFail := fun k t => by
      show M.bind _ _ _ = _; unfold M.bind; rw [e1]
    unfold Sim
    rw [e2, e2]

theorem Sim.get {k kT : Mgr → M Mgr β} {e : β → Nat → Int} {R : β → Mgr → Prop} (h : Sim ba d s (k s) (kT (xs d s)) e R) :
    Sim ba d s (M.get >>= k) (M.get >>= kT) e R := h

theorem Sim.lift (hs : Sane ba s) {x y : Except Stop α} (h : y = x) {Q : α → Mgr → Prop} (hq : ∀ a, x = .ok a → Q a s) :
    Sim ba d s (M.lift x) (M.lift y) noRefs Q := by
  subst h
  unfold Sim
  cases y with
  | ok a =>
    show _ ∧ _
    refine ⟨?_, hs, .refl _, hq a rfl⟩
    rw [show plus d (noRefs a) = d from plus_zero d]; rfl
  | error x => cases x <;> rfl

theorem Sim.via {s1 : Mgr} {m mT m1 mT1 : M Mgr α} {e : α → Nat → Int} {Q : α → Mgr → Prop} (hx : CellsExt s.cells s1.cells) (e1 : m s = m1 s1)
    (e2 : mT (xs d s) = mT1 (xs d s1)) (h : Sim ba d s1 m1 mT1 e Q) : Sim ba d s m mT e Q := by
  unfold Sim at h ⊢
  rw [e1, e2]
  cases hm : m1 s1 <;> simp only [hm] at h ⊢
  · exact ⟨h.1, h.2.1, hx.trans h.2.2.1, h.2.2.2⟩
  · exact ⟨h.1, h.2.1, hx.trans h.2.2⟩
  all_goals exact h

theorem Sim.ite {c : Prop} {i1 i2 : Decidable c} {a a' b b' : M Mgr α} {e : α → Nat → Int} {Q : α → Mgr → Prop} (h1 : c → Sim ba d s a a' e Q)
    (h2 : ¬ c → Sim ba d s b b' e Q) : Sim ba d s (@ite _ c i1 a b) (@ite _ c i2 a' b') e Q := by
  by_cases h : c
  · rw [if_pos h, if_pos h]; exact h1 h
  · rw [if_neg h, if_neg h]; exact h2 h

/-! ### Functions that do not look at the reference counts -/

@[simp] theorem xs_lo (p : Nat) : ((xs d s).cells p).lo = (s.cells p).lo := rfl
@[simp] theorem xs_hi (p : Nat) : ((xs d s).cells p).hi = (s.cells p).hi := rfl
@[simp] theorem xs_index (p : Nat) : ((xs d s).cells p).index = (s.cells p).index := rfl
@[simp] theorem xs_live (p : Nat) : ((xs d s).cells p).live = (s.cells p).live := rfl
@[simp] theorem xs_hashKey (p : Nat) : ((xs d s).cells p).hashKey = (s.cells p).hashKey := rfl
@[simp] theorem xs_nvars : (xs d s).nvars = s.nvars := rfl
@[simp] theorem xs_tabs : (xs d s).tabs = s.tabs := rfl
@[simp] theorem xs_marks : (xs d s).marks = s.marks := rfl
@[simp] theorem xs_pool : (xs d s).pool = s.pool := rfl
@[simp] theorem xs_memo : (xs d s).memo = s.memo := rfl
@[simp] theorem xs_rngPos : (xs d s).rngPos = s.rngPos := rfl

theorem Sim.isBot (hs : Sane ba s) {cfg : Cfg} (p : Nat) : Sim ba d s (isBot cfg p) (isBot cfg p) noRefs Anything := by
  unfold LBDD.isBot
  refine .get (.assert_bind ?_)
  exact .pure hs trivial

theorem Sim.isTop (hs : Sane ba s) {cfg : Cfg} (p : Nat) : Sim ba d s (isTop cfg p) (isTop cfg p) noRefs Anything := by
  unfold LBDD.isTop
  refine .get (.assert_bind ?_)
  exact .pure hs trivial

theorem Sim.lowOf (hs : Sane ba s) (p : Nat) : Sim ba d s (lowOf p) (lowOf p) noRefs Live := by
  unfold LBDD.lowOf
  refine .get ?_
  refine .ite (fun _ => .ub) fun h => ?_
  simp at h
  exact .pure (a := (s.cells p).lo) (Q := Live) hs (hs.child p h.1 (Or.inr (by omega))).1

theorem Sim.highOf (hs : Sane ba s) (p : Nat) : Sim ba d s (highOf p) (highOf p) noRefs Live := by
  unfold LBDD.highOf
  refine .get ?_
  refine .ite (fun _ => .ub) fun h => ?_
  simp at h
  exact .pure (a := (s.cells p).hi) (Q := Live) hs (hs.child p h.1 (Or.inr (by omega))).2

theorem Sim.lowIf (hs : Sane ba s) (c : Bool) {p : Nat} (hp : Live p s) : Sim ba d s (lowIf c p) (lowIf c p) noRefs Live := by
  unfold LBDD.lowIf
  exact .ite (fun _ => .lowOf hs p) fun _ => .pure hs hp

theorem Sim.highIf (hs : Sane ba s) (c : Bool) {p : Nat} (hp : Live p s) : Sim ba d s (highIf c p) (highIf c p) noRefs Live := by
  unfold LBDD.highIf
  exact .ite (fun _ => .highOf hs p) fun _ => .pure hs hp

theorem Sim.varOf (hs : Sane ba s) (p : Nat) : Sim ba d s (varOf p) (varOf p) noRefs Anything := by
  unfold LBDD.varOf
  refine .get ?_
  exact .ite (fun _ => .ub) fun _ => .pure (a := (s.cells p).index) (Q := Anything) hs trivial

theorem Sim.varOrBack (hs : Sane ba s) {cfg : Cfg} (p : Nat) : Sim ba d s (varOrBack cfg p) (varOrBack cfg p) noRefs Anything := by
  unfold LBDD.varOrBack
  refine .bind (.isTop hs p) fun t s1 h1 _ _ => .bind (.isBot h1 p) fun b s2 h2 _ _ => ?_
  refine .ite (fun _ => .get ?_) fun _ => .varOf h2 p
  exact .ite (fun _ => .ub) fun _ => .pure (a := s2.nvars - 1) (Q := Anything) h2 trivial

/-! ### Unique tables -/

theorem hashCode_xs (l h : Nat) : hashCode (xs d s).cells l h = hashCode s.cells l h := rfl

theorem probeKey_xs (t : VarTable) (l h : Nat) : ∀ n k, probeKey (xs d s).cells t l h n k = probeKey s.cells t l h n k := by
  intro n
  induction n with
  | zero => intro k; rfl
  | succ n ih =>
    intro k
    unfold probeKey
    simp only [xs_live, xs_lo, xs_hi, ih]

theorem probeKey_live {c : Nat → Cell} (t : VarTable) (l h : Nat) : ∀ n k p, probeKey c t l h n k = .ok (some p) → (c p).live = true := by
  intro n
  induction n with
  | zero => intro k p e; cases e
  | succ n ih =>
    intro k p e
    unfold probeKey at e
    simp only at e
    split at e
    · cases e
    · split at e
      · cases e
      · rename_i q hq
        split at e
        · cases e
        · rename_i hl
          split at e
          · cases e; simpa using hl
          · exact ih _ _ e

theorem rehash_xs (old : VarTable) : ∀ n k t, rehash (xs d s).cells old k n t = rehash s.cells old k n t := by
  intro n
  induction n with
  | zero => intro k t; rfl
  | succ n ih =>
    intro k t
    unfold rehash
    simp only [xs_lo, xs_hi, hashCode_xs, ih]

theorem Sane.setTab (hs : Sane ba s) (v : Nat) (t : VarTable) : Sane ba { s with tabs := upd s.tabs v t } :=
  ⟨hs.xref, ⟨hs.pool.pages, hs.pool.off, hs.pool.off2, hs.pool.live, hs.pool.avail, hs.pool.nodup, hs.pool.total⟩, hs.child, hs.memo, hs.live0, hs.live1, hs.base, hs.bal⟩

theorem Sim.setTab (hs : Sane ba s) (v : Nat) (t : VarTable) : Sim ba d s (setTab v t) (setTab v t) noRefs Anything := by
  unfold Sim
  show _ ∧ _
  refine ⟨?_, hs.setTab v t, .refl _, trivial⟩
  rw [show plus d (noRefs ()) = d from plus_zero d]; rfl

theorem Sim.newPage (hs : Sane ba s) {cfg : Cfg} (m : Nat) : Sim ba d s (newPage cfg m) (newPage cfg m) noRefs Anything := by
  unfold LBDD.newPage
  split
  · exact .pure hs trivial
  · exact .ite (fun _ => .throw hs) fun _ => .assert_bind .ub

theorem Sim.doubleCache (hs : Sane ba s) {cfg : Cfg} (v : Nat) : Sim ba d s (doubleCache cfg v) (doubleCache cfg v) noRefs Anything := by
  unfold LBDD.doubleCache
  refine .get ?_
  refine .ite (fun _ => .pure (Q := Anything) hs trivial) fun _ => ?_
  · refine .assert_bind (.bind (.setTab hs _ _) fun _ s1 h1 _ _ => .bind (.newPage h1 _) fun cap s2 h2 _ _ => ?_)
    refine .bind (.lift h2 (rehash_xs _ _ _ _) (Q := Anything) fun _ _ => trivial) fun t' s3 h3 _ _ => .assert_bind (.setTab h3 _ _)

theorem Sim.growIfNeeded (hs : Sane ba s) {cfg : Cfg} (v : Nat) : Sim ba d s (growIfNeeded cfg v) (growIfNeeded cfg v) noRefs Anything := by
  unfold LBDD.growIfNeeded
  refine .get ?_
  exact .ite (fun _ => .doubleCache hs v) fun _ => .pure (Q := Anything) hs trivial

/-- The state after `reserve_node` and `init_new_node`. -/
def allocated (cfg : Cfg) (s : Mgr) (v l h : Nat) : Mgr :=
  { s with
    cells := newCells cfg s s.pool.reserve.1 v l h
    marks := upd s.marks s.pool.reserve.1 false
    pool := s.pool.reserve.2
    rngPos := s.rngPos + 1 }

theorem allocated_xs {cfg : Cfg} {v l h : Nat} (hs : Sane ba s) (ht : TempOk d s) (hlh : l ≠ h) :
    allocated cfg (xs d s) v l h = xs d (allocated cfg s v l h) := by
  have hp := (Pool.reserve_ok hs.pool).2.1
  have hd : d s.pool.reserve.1 = 0 := by
    by_cases e : d s.pool.reserve.1 = 0
    · exact e
    · have := ht.live _ e; rw [hp] at this; cases this
  unfold allocated
  show ({ xs d s with cells := _, marks := _, pool := _, rngPos := _ } : Mgr) = _
  unfold xs
  dsimp only
  congr 1
  funext q
  by_cases e : q = s.pool.reserve.1
  · subst e
    rw [newCells_self]
    show _ = ({ newCells cfg s s.pool.reserve.1 v l h s.pool.reserve.1 with xref := _ } : Cell)
    rw [newCells_self]
    dsimp only
    rw [hd]; rfl
  · have h1 := newCells_ne (cfg := cfg) (s := s) (v := v) e hlh
    have h2 := newCells_ne (cfg := cfg) (s := xs d s) (v := v) e hlh
    obtain ⟨a1, a2, a3, a4, a5, a6⟩ := h1
    obtain ⟨b1, b2, b3, b4, b5, b6⟩ := h2
    unfold xs at b1 b2 b3 b4 b5 b6
    dsimp only at b1 b2 b3 b4 b5 b6
    cases hx : newCells cfg _ s.pool.reserve.1 v l h q
    cases hy : newCells cfg s s.pool.reserve.1 v l h q
    rw [hx] at b1 b2 b3 b4 b5 b6
    rw [hy] at a1 a2 a3 a4 a5 a6
    dsimp only at *
    rw [b1, b2, b3, b4, b5, b6, ← a1, ← a2, ← a3, ← a4, ← a5, a6]
    congr 1
    omega

theorem Sane.allocated (hs : Sane ba s) {cfg : Cfg} {v l h : Nat} (hlh : l ≠ h) (hl : Live l s) (hh : Live h s) :
    Sane ba (allocated cfg s v l h) ∧ CellsExt s.cells (allocated cfg s v l h).cells ∧ Live s.pool.reserve.1 (LBDD.allocated cfg s v l h) := by
  obtain ⟨p2, pdead, ptot, ppg, poff, phw, plive, pav, pnd, phw2⟩ := Pool.reserve_ok hs.pool
  have hself := newCells_self (cfg := cfg) (s := s) s.pool.reserve.1 v l h
  have hne : ∀ q, q ≠ s.pool.reserve.1 → _ := fun q hq => newCells_ne (cfg := cfg) (s := s) (p := s.pool.reserve.1) (v := v) (l := l) (h := h) hq hlh
  have hx : CellsExt s.cells (newCells cfg s s.pool.reserve.1 v l h) := by
    intro q hq
    have e : q ≠ s.pool.reserve.1 := by rintro rfl; simp [hq] at pdead
    obtain ⟨a, b, c, d, e', _⟩ := hne q e
    exact ⟨a.trans hq, b, c, d, e'⟩
  have hlive' : ∀ q, (newCells cfg s s.pool.reserve.1 v l h q).live = true ↔ q = s.pool.reserve.1 ∨ (s.cells q).live = true := by
    intro q
    by_cases e : q = s.pool.reserve.1
    · subst e; rw [hself]; simp
    · rw [(hne q e).1]; simp [e]
  refine ⟨⟨?_, ⟨ppg, poff, ?_, ?_, ?_, pnd, phw⟩, ?_, ?_, (hx _ hs.live0).1, (hx _ hs.live1).1, fun q hq => (hx _ (hs.base q hq)).1, ?_⟩, hx, by unfold Live LBDD.allocated; dsimp only; rw [hself]⟩
  · intro q hq
    by_cases e : q = s.pool.reserve.1
    · subst e; show 0 ≤ (newCells cfg s s.pool.reserve.1 v l h s.pool.reserve.1).xref; rw [hself]; exact Int.le_refl _
    · show 0 ≤ (newCells cfg s s.pool.reserve.1 v l h q).xref
      have hq' := ((hlive' q).1 hq).resolve_left e
      have := hs.xref q hq'
      rw [(hne q e).2.2.2.2.2]
      split <;> split <;> omega
  · show 2 ≤ s.pool.reserve.2.hw
    have := hs.pool.off2
    omega
  · intro q
    show (newCells cfg s s.pool.reserve.1 v l h q).live = true ↔ q < s.pool.reserve.2.hw ∧ q ∉ s.pool.reserve.2.avail
    rw [hlive' q, plive q, hs.pool.live q]
  · intro q hq
    show 2 ≤ q ∧ q < s.pool.reserve.2.hw
    have := hs.pool.avail q (pav q hq)
    omega
  · intro q hq hi
    show (newCells cfg s s.pool.reserve.1 v l h _).live = true ∧ (newCells cfg s s.pool.reserve.1 v l h _).live = true
    change (newCells cfg s s.pool.reserve.1 v l h q).live = true at hq
    change 2 ≤ q ∨ (newCells cfg s s.pool.reserve.1 v l h q).index < _ at hi
    change (newCells cfg s s.pool.reserve.1 v l h (newCells cfg s s.pool.reserve.1 v l h q).lo).live = true ∧
      (newCells cfg s s.pool.reserve.1 v l h (newCells cfg s s.pool.reserve.1 v l h q).hi).live = true
    by_cases e : q = s.pool.reserve.1
    · subst e
      rw [hself]
      exact ⟨(hx l hl).1, (hx h hh).1⟩
    · obtain ⟨a, b, c, d', _⟩ := hne q e
      rw [b, c]
      have := hs.child q (a ▸ hq) (d' ▸ hi)
      exact ⟨(hx _ this.1).1, (hx _ this.2).1⟩
  · intro k hk r hr
    exact (hx r (hs.memo k hk r hr)).1
  · have hplt : s.pool.reserve.1 < s.pool.reserve.2.hw := ((plive _).2 (Or.inl rfl)).1
    have harc : ∀ q, arcsTo s.cells q s.pool.reserve.2.hw = arcsTo s.cells q s.pool.hw := by
      intro q
      rcases phw2 with h | ⟨h, h'⟩
      · rw [h]
      · rw [h]
        simp only [arcsTo]
        rw [← h', if_neg (by simp [pdead])]
        omega
    intro q hq
    change (newCells cfg s s.pool.reserve.1 v l h q).live = true at hq
    show (newCells cfg s s.pool.reserve.1 v l h q).xref = ba q + (arcsTo (newCells cfg s s.pool.reserve.1 v l h) q s.pool.reserve.2.hw : Int)
    rw [arcsTo_insert (c := s.cells) p2 hplt pdead (by rw [hself])
      (fun i hi => ⟨(hne i hi).1, (hne i hi).2.1, (hne i hi).2.2.1⟩), harc, hself]
    simp only
    have hlp : l ≠ s.pool.reserve.1 := by rintro rfl; unfold Live at hl; rw [pdead] at hl; cases hl
    have hhp : h ≠ s.pool.reserve.1 := by rintro rfl; unfold Live at hh; rw [pdead] at hh; cases hh
    by_cases e : q = s.pool.reserve.1
    · subst e
      have h0 : ba s.pool.reserve.1 = 0 := by
        by_cases c : ba s.pool.reserve.1 = 0
        · exact c
        · have := hs.base _ c; rw [pdead] at this; cases this
      rw [hself, h0, arcsTo_zero]
      · simp [hlp, hhp]
      · intro i h2 hl'
        have := hs.child i hl' (Or.inl h2)
        constructor
        · intro he; rw [he, pdead] at this; exact absurd this.1 (by simp)
        · intro he; rw [he, pdead] at this; exact absurd this.2 (by simp)
    · rw [(hne q e).2.2.2.2.2, hs.bal q (((hlive' q).1 hq).resolve_left e)]
      push_cast
      by_cases e1 : l = q <;> by_cases e2 : h = q <;> simp [e1, e2] <;> omega

theorem Sim.insertNode (hs : Sane ba s) (ht : TempOk d s) {cfg : Cfg} {v l h : Nat} (hlh : l ≠ h) (hl : Live l s) (hh : Live h s) :
    Sim ba d s (insertNode cfg v l h) (insertNode cfg v l h) noRefs Live := by
  unfold LBDD.insertNode
  refine .bind (.growIfNeeded hs v) fun _ s1 h1 hx1 _ => ?_
  obtain ⟨a1, a2, a3⟩ := h1.allocated (cfg := cfg) (v := v) hlh (hl.ext hx1) (hh.ext hx1)
  have ax := allocated_xs (cfg := cfg) (v := v) h1 (ht.ext hx1) hlh
  by_cases hc : (cfg.ndebug || decide (v < 2 ^ 41)) = true
  · have e1 : ∀ (t : Mgr) (k : Nat → M Mgr Nat), (reserveNode >>= fun p => initNewNode cfg p v l h >>= fun _ => k p) t
        = k t.pool.reserve.1 (LBDD.allocated cfg t v l h) := by
      intro t k
      rw [M.bind_ok (show reserveNode t = .ok t.pool.reserve.1 { t with pool := t.pool.reserve.2 } from rfl)]
      unfold initNewNode
      show M.bind (M.bind _ _) _ _ = _
      unfold M.bind M.assert
      simp only [hc, if_true]
      rfl
    refine Sim.via a2 (e1 _ _) ((e1 _ _).trans (congrArg _ ax)) ?_
    refine .get (.assert_bind (.bind (.lift a1 rfl (Q := Anything) fun _ _ => trivial) fun k s2 h2 hx2 _ =>
        .bind (.setTab h2 _ _) fun _ s3 h3 hx3 _ => .pure h3 ?_))
    exact (a3.ext hx2).ext hx3
  · have e1 : ∀ (t : Mgr) (k : Nat → M Mgr Nat), (reserveNode >>= fun p => initNewNode cfg p v l h >>= fun _ => k p) t = .assertFail := by
      intro t k
      rw [M.bind_ok (show reserveNode t = .ok t.pool.reserve.1 { t with pool := t.pool.reserve.2 } from rfl)]
      unfold initNewNode
      show M.bind (M.bind _ _) _ _ = _
      unfold M.bind M.assert
      simp only [hc]
      rfl
    unfold Sim
    rw [e1, e1]

theorem Sim.uniqueFindAux {cfg : Cfg} {v l h : Nat} : ∀ n {s : Mgr}, Sane ba s → TempOk d s → Live l s → Live h s →
    Sim ba d s (uniqueFindAux cfg v l h n) (uniqueFindAux cfg v l h n) noRefs Live := by
  intro n
  induction n with
  | zero => intro s _ _ _ _; exact .hang
  | succ n ih =>
    intro s hs ht hl hh
    unfold LBDD.uniqueFindAux
    refine .ite (fun _ => .pure hs hl) fun hlh => ?_
    · refine .get (.assert_bind (.bind (.lift hs (probeKey_xs _ _ _ _ _) (Q := fun (o : Option Nat) s => ∀ p, o = some p → Live p s) ?_) ?_))
      · rintro o e p rfl
        exact probeKey_live _ _ _ _ _ _ e
      · intro o s1 h1 hx1 hq
        cases o with
        | some p => exact .pure h1 (hq p rfl)
        | none =>
          refine .bind (.setTab h1 _ _) fun _ s2 h2 hx2 _ => ?_
          have hx := hx1.trans hx2
          exact .ite (fun _ => ih h2 (ht.ext hx) (hl.ext hx) (hh.ext hx)) fun _ => .insertNode h2 (ht.ext hx) hlh (hl.ext hx) (hh.ext hx)

theorem Sim.uniqueFind (hs : Sane ba s) (ht : TempOk d s) {cfg : Cfg} (v : Nat) {l h : Nat} (hl : Live l s) (hh : Live h s) :
    Sim ba d s (uniqueFind cfg v l h) (uniqueFind cfg v l h) noRefs Live := by
  unfold LBDD.uniqueFind
  refine .get ?_
  exact .ite (fun _ => .ub) fun _ => .uniqueFindAux 2 hs ht hl hh

/-! ### Memo cache -/

theorem Sim.cacheLookup (hs : Sane ba s) (ht : TempOk d s) {cfg : Cfg} (f g h : Nat) :
    Sim ba d s (cacheLookup cfg f g h) (cacheLookup cfg f g h) noRefs (fun o s => ∀ p, o = some p → Live p s) := by
  unfold LBDD.cacheLookup
  refine .get (.assert_bind ?_)
  refine .ite (fun _ => .ub) fun hk => ?_
  show Sim ba d s (match (s.memo.entries (cacheHash s.cells f g h &&& s.memo.mask)).r with | none => _ | some r => _)
    (match (s.memo.entries (cacheHash s.cells f g h &&& s.memo.mask)).r with | none => _ | some r => _) _ _
  cases hr : (s.memo.entries (cacheHash s.cells f g h &&& s.memo.mask)).r with
  | none => exact .pure hs (fun _ e => by cases e)
  | some r =>
    have hl := hs.memo _ (Nat.lt_of_not_le hk) _ hr
    have h1 := hs.xref r hl
    have h2 := ht.nonneg r
    have c1 : ¬ (s.cells r).xref < 0 := by omega
    have c2 : ¬ ((xs d s).cells r).xref < 0 := by
      show ¬ ((s.cells r).xref + d r < 0); omega
    refine .ite (fun _ => ?_) fun _ => .pure hs (fun _ e => by cases e)
    rw [if_neg c1, if_neg c2]
    exact .pure hs (fun _ e => by cases e; exact hl)

theorem memoMove_xs (mask : Nat) (e : Nat → MemoEntry) (k : Nat) : memoMove (xs d s).cells mask e k = memoMove s.cells mask e k := rfl

theorem memoRehash_xs (mask : Nat) : ∀ n e, memoRehash (xs d s).cells mask n e = memoRehash s.cells mask n e := by
  intro n
  induction n with
  | zero => intro e; rfl
  | succ n ih => intro e; unfold memoRehash; rw [ih]; rfl

theorem Memo.double_xs (m : Memo) : m.double (xs d s).cells = m.double s.cells := by
  unfold Memo.double; simp only [memoRehash_xs]

theorem Memo.double_live {c : Nat → Cell} {m : Memo} (h : ∀ k, k < m.size → ∀ r, (m.entries k).r = some r → (c r).live = true) :
    ∀ k, k < (m.double c).size → ∀ r, ((m.double c).entries k).r = some r → (c r).live = true := by
  unfold Memo.double
  split
  · exact h
  · dsimp only
    intro k _
    refine memoRehash_all (P := fun e : MemoEntry => ∀ r, e.r = some r → (c r).live = true) (fun e _ r hr => by cases hr) _ ?_ k
    intro i r hr
    split at hr
    · rename_i hi; exact h _ hi _ hr
    · cases hr

theorem Sim.cacheInsert (hs : Sane ba s) {cfg : Cfg} (f g h : Nat) {r : Nat} (hr : Live r s) :
    Sim ba d s (cacheInsert cfg f g h r) (cacheInsert cfg f g h r) noRefs Anything := by
  unfold LBDD.cacheInsert
  refine .get ?_
  simp only [xs_memo, Memo.double_xs]
  refine .assert_bind ?_
  have hm : ∀ k, k < (if s.memo.threshold ≤ s.memo.inserts + 1 then Memo.double s.cells { s.memo with inserts := s.memo.inserts + 1 }
      else { s.memo with inserts := s.memo.inserts + 1 }).size → ∀ q, ((if s.memo.threshold ≤ s.memo.inserts + 1 then Memo.double s.cells { s.memo with inserts := s.memo.inserts + 1 }
      else { s.memo with inserts := s.memo.inserts + 1 }).entries k).r = some q → (s.cells q).live = true := by
    split
    · exact Memo.double_live (m := { s.memo with inserts := s.memo.inserts + 1 }) hs.memo
    · exact hs.memo
  generalize (if s.memo.threshold ≤ s.memo.inserts + 1 then Memo.double s.cells { s.memo with inserts := s.memo.inserts + 1 }
      else { s.memo with inserts := s.memo.inserts + 1 }) = m at *
  refine .ite (fun _ => .ub) fun _ => ?_
  · unfold Sim
    show _ ∧ _
    refine ⟨?_, ⟨hs.xref, ⟨hs.pool.pages, hs.pool.off, hs.pool.off2, hs.pool.live, hs.pool.avail, hs.pool.nodup, hs.pool.total⟩, hs.child, ?_, hs.live0, hs.live1, hs.base, hs.bal⟩,
      .refl _, trivial⟩
    · rw [show plus d (noRefs ()) = d from plus_zero d]; rfl
    · intro k hk q hq
      dsimp only at hk hq
      by_cases e : k = cacheHash s.cells f g h &&& m.mask
      · subst e; rw [upd_same] at hq; cases hq; exact hr
      · rw [upd_ne _ _ e] at hq; exact hm _ hk _ hq

end

end LBDD
