import Verif.Proof.DetRun
/-! Two managers that execute the same history have the same BDDs. -/
namespace LBDD

def OptR (c : Nat → Cell) : Option Nat → Option Tree → Prop
  | none, none => True
  | some p, some t => Repr c p t
  | _, _ => False

theorem OptR.ext {c c' : Nat → Cell} (hx : CellsExt c c') {o : Option Nat} {w : Option Tree} (h : OptR c o w) : OptR c' o w := by
  cases o <;> cases w <;> first | trivial | exact h.elim | exact Repr.ext hx h

/-- What a history leaves behind, apart from addresses: the number of variables, the BDDs of the handles and, if `K`, the set of nodes. -/
structure Abs (K : Prop) (a : Api) (n : Nat) (us : List (Option Tree)) (L : Tree → Prop) : Prop where
  nv : a.mgr.nvars = n
  len : a.hs.length = us.length
  hs : ∀ (i : Nat) (o : Option Nat) (w : Option Tree), a.hs[i]? = some o → us[i]? = some w → OptR a.mgr.cells o w
  live : K → ∀ u, LiveT a.mgr u ↔ L u

theorem Abs.get {K : Prop} {a : Api} {n : Nat} {us : List (Option Tree)} {L : Tree → Prop} (h : Abs K a n us L) {i : Nat} {o : Option Nat}
    (e : a.hs[i]? = some o) : ∃ w, us[i]? = some w ∧ OptR a.mgr.cells o w := by
  have : i < us.length := by rw [← h.len]; exact (List.getElem?_eq_some_iff.1 e).1
  exact ⟨us[i], List.getElem?_eq_getElem this, h.hs i o _ e (List.getElem?_eq_getElem this)⟩

theorem Abs.args {K : Prop} {a : Api} {n : Nat} {us : List (Option Tree)} {L : Tree → Prop} (h : Abs K a n us L) : ∀ {is ps : List Nat}, a.args is = some ps →
    ∃ ts, is.mapM (fun i => (us[i]?).join) = some ts ∧ Reprs a.mgr.cells ps ts := by
  intro is
  induction is with
  | nil => intro ps e; simp [Api.args] at e; subst e; exact ⟨[], rfl, trivial⟩
  | cons i is ih =>
    intro ps e
    simp only [Api.args, List.mapM_cons] at e
    cases e1 : (a.hs[i]?).join with
    | none => rw [e1] at e; simp at e
    | some q =>
      rw [e1] at e
      cases e2 : List.mapM (fun i => (a.hs[i]?).join) is with
      | none => rw [e2] at e; simp at e
      | some qs =>
        rw [e2] at e
        simp at e
        subst e
        obtain ⟨ts, h1, h2⟩ := ih e2
        cases e3 : a.hs[i]? with
        | none => rw [e3] at e1; simp at e1
        | some o =>
          rw [e3] at e1
          simp at e1
          subst e1
          obtain ⟨w, w1, w2⟩ := h.get e3
          cases w with
          | none => exact w2.elim
          | some t =>
            refine ⟨t :: ts, ?_, w2, h2⟩
            rw [List.mapM_cons, h1, w1]
            rfl

/-- The same nodes with the same contents; external reference counts may differ. -/
def XSame (s s' : Mgr) : Prop := CellsExt s.cells s'.cells ∧ CellsExt s'.cells s.cells ∧ s'.nvars = s.nvars

theorem XSame.refl (s : Mgr) : XSame s s := ⟨.refl _, .refl _, rfl⟩
theorem XSame.trans {s s1 s2 : Mgr} (h : XSame s s1) (h' : XSame s1 s2) : XSame s s2 :=
  ⟨h.1.trans h'.1, h'.2.1.trans h.2.1, h'.2.2.trans h.2.2⟩

theorem XSame.xref (s : Mgr) (p : Nat) (k : Int) : XSame s { s with cells := upd s.cells p { s.cells p with xref := k } } := by
  have key : ∀ q, ((upd s.cells p { s.cells p with xref := k }) q).live = (s.cells q).live ∧ ((upd s.cells p { s.cells p with xref := k }) q).lo = (s.cells q).lo ∧
      ((upd s.cells p { s.cells p with xref := k }) q).hi = (s.cells q).hi ∧ ((upd s.cells p { s.cells p with xref := k }) q).index = (s.cells q).index ∧
      ((upd s.cells p { s.cells p with xref := k }) q).hashKey = (s.cells q).hashKey := by
    intro q
    by_cases e : q = p
    · subst e; rw [upd_same]; exact ⟨rfl, rfl, rfl, rfl, rfl⟩
    · rw [upd_ne _ _ e]; exact ⟨rfl, rfl, rfl, rfl, rfl⟩
  refine ⟨fun q hq => ?_, fun q hq => ?_, rfl⟩
  · obtain ⟨k1, k2, k3, k4, k5⟩ := key q
    exact ⟨k1.trans hq, k2, k3, k4, k5⟩
  · obtain ⟨k1, k2, k3, k4, k5⟩ := key q
    exact ⟨k1.symm.trans hq, k2.symm, k3.symm, k4.symm, k5.symm⟩

theorem XSame.liveT {s s' : Mgr} (h : XSame s s') (u : Tree) : LiveT s' u ↔ LiveT s u :=
  ⟨fun ⟨p, p2, hp⟩ => ⟨p, p2, hp.ext h.2.1⟩, fun ⟨p, p2, hp⟩ => ⟨p, p2, hp.ext h.1⟩⟩

theorem acquire_same {s s' : Mgr} {o : Option Nat} (e : optM o acquire s = .ok () s') : XSame s s' := by
  cases o with
  | none => cases e; exact .refl _
  | some p => cases e; exact .xref _ _ _

theorem releaseNoAssert_same {s s' : Mgr} {o : Option Nat} (e : optM o releaseNoAssert s = .ok () s') : XSame s s' := by
  cases o with
  | none => cases e; exact .refl _
  | some p => cases e; exact .xref _ _ _

theorem release_same {cfg : Cfg} {s s' : Mgr} {o : Option Nat} (e : optM o (release cfg) s = .ok () s') : XSame s s' := by
  cases o with
  | none => cases e; exact .refl _
  | some p =>
    unfold optM release at e
    dsimp only at e
    rw [M.get_bind_apply] at e
    obtain ⟨_, s1, e1, e⟩ := bind_ok_inv e
    cases e
    exact .xref _ _ _

theorem pushHandles_same : ∀ {ps : List Nat} {a a' : Api}, pushHandles ps a = .ok () a' → XSame a.mgr a'.mgr ∧ a'.hs = a.hs ++ ps.map some := by
  intro ps
  induction ps with
  | nil => intro a a' e; cases e; exact ⟨.refl _, by simp⟩
  | cons p ps ih =>
    intro a a' e
    unfold pushHandles at e
    obtain ⟨_, a1, e1, e2⟩ := bind_ok_inv e
    obtain ⟨h1, h2⟩ := ih e2
    unfold pushHandle at e1
    obtain ⟨_, a2, e3, e4⟩ := bind_ok_inv e1
    obtain ⟨f1, f2⟩ := onMgr_ok e3
    cases e4
    refine ⟨(acquire_same (o := some p) f1).trans h1, ?_⟩
    rw [h2]
    show (a2.hs ++ [some p]) ++ _ = _
    rw [f2]; simp

theorem Reprs.get {c : Nat → Cell} : ∀ {l : List Nat} {ts : List Tree}, Reprs c l ts → ∀ (i p : Nat) (t : Tree), l[i]? = some p → ts[i]? = some t → Repr c p t
  | p :: _, t :: _, h, 0, q, u, e1, e2 => by cases e1; cases e2; exact h.1
  | _ :: _, _ :: _, h, i + 1, q, u, e1, e2 => Reprs.get h.2 i q u (by simpa using e1) (by simpa using e2)
  | [], [], _, _, _, _, e1, _ => by simp at e1
  | [], _ :: _, h, _, _, _, _, _ => h.elim
  | _ :: _, [], h, _, _, _, _, _ => h.elim

theorem OptR.append {c : Nat → Cell} {hs hs' : List (Option Nat)} {us us' : List (Option Tree)} (hl : hs.length = us.length)
    (h : ∀ (i : Nat) (o : Option Nat) (w : Option Tree), hs[i]? = some o → us[i]? = some w → OptR c o w) (h' : ∀ (i : Nat) (o : Option Nat) (w : Option Tree), hs'[i]? = some o → us'[i]? = some w → OptR c o w) :
    ∀ (i : Nat) (o : Option Nat) (w : Option Tree), (hs ++ hs')[i]? = some o → (us ++ us')[i]? = some w → OptR c o w := by
  intro i o w e1 e2
  by_cases hi : i < hs.length
  · rw [List.getElem?_append_left hi] at e1
    rw [List.getElem?_append_left (hl ▸ hi)] at e2
    exact h i o w e1 e2
  · rw [List.getElem?_append_right (by omega)] at e1
    rw [List.getElem?_append_right (by omega), ← hl] at e2
    exact h' _ o w e1 e2

theorem OptR.set {c : Nat → Cell} {hs : List (Option Nat)} {us : List (Option Tree)} {o0 : Option Nat} {w0 : Option Tree} (k : Nat)
    (h0 : OptR c o0 w0) (h : ∀ (i : Nat) (o : Option Nat) (w : Option Tree), hs[i]? = some o → us[i]? = some w → OptR c o w) :
    ∀ (i : Nat) (o : Option Nat) (w : Option Tree), (hs.set k o0)[i]? = some o → (us.set k w0)[i]? = some w → OptR c o w := by
  intro i o w e1 e2
  rw [List.getElem?_set] at e1 e2
  by_cases hi : k = i
  · subst hi
    simp only [if_true] at e1 e2
    split at e1
    · split at e2
      · cases e1; cases e2; exact h0
      · cases e2
    · cases e1
  · simp only [hi, if_false] at e1 e2
    exact h i o w e1 e2

theorem OptR.single {c : Nat → Cell} {o0 : Option Nat} {w0 : Option Tree} (h0 : OptR c o0 w0) :
    ∀ (i : Nat) (o : Option Nat) (w : Option Tree), [o0][i]? = some o → [w0][i]? = some w → OptR c o w := by
  intro i o w e1 e2
  cases i with
  | zero => cases e1; cases e2; exact h0
  | succ i => simp at e1

def Op.limited : Op → Bool
  | .call f _ => f.limited
  | _ => false

/-- The effect of a step, up to addresses, is determined by the state up to addresses. -/
theorem step_abs {u : Use} (hu : u ≠ .mixed) {K : Prop} (op : Op) (hop : op.limited = false) (hK : K → op = .gc → u = .ordered) (n : Nat)
    (us : List (Option Tree)) (L : Tree → Prop) :
    ∃ n' us' L', ∀ (cfg : Cfg) (a a' : Api), Good cfg u a → Abs K a n us L → Legal cfg u a op → step cfg op a = .ok () a' →
      Abs K a' n' us' L' := by
  cases op with
  | call f is =>
    cases et : is.mapM (fun i => (us[i]?).join) with
    | none =>
      refine ⟨n, us, L, ?_⟩
      intro cfg a a' hg ha hl e
      simp only [step] at e
      rw [M.get_bind_apply] at e
      cases e1 : a.args is with
      | none => rw [e1] at e; cases e
      | some ps =>
        obtain ⟨ts, h1, _⟩ := ha.args e1
        rw [et] at h1; cases h1
    | some ts =>
      obtain ⟨out, n', N, hf⟩ := Fn.run_det hu f hop ts
      refine ⟨n' n, us ++ out.map some, fun u => L u ∨ N u, ?_⟩
      intro cfg a a' hg ha hl e
      simp only [step] at e
      rw [M.get_bind_apply] at e
      cases e1 : a.args is with
      | none => rw [e1] at e; cases e
      | some ps =>
        obtain ⟨ts', h1, h2⟩ := ha.args e1
        rw [et] at h1
        cases h1
        rw [e1] at e
        obtain ⟨rs, a1, e2, e3⟩ := bind_ok_inv e
        obtain ⟨e4, e5⟩ := onMgr_ok e2
        obtain ⟨g, i, r1, r2, r3⟩ := hf cfg _ a.mgr ps hg h2 (hl ps e1) rs _ e4
        obtain ⟨x1, x2⟩ := pushHandles_same e3
        constructor
        · rw [x1.2.2, r2, ha.nv]
        · rw [x2, e5]; simp [ha.len, r1.length]
        · rw [x2, e5]
          refine OptR.append ha.len (fun i o w a b => (ha.hs i o w a b).ext (g.cells.trans x1.1)) ?_
          intro i o w a b
          simp only [List.getElem?_map, Option.map_eq_some_iff] at a b
          obtain ⟨p, p1, rfl⟩ := a
          obtain ⟨t, t1, rfl⟩ := b
          exact (r1.get i p t p1 t1).ext x1.1
        · intro k w
          rw [x1.liveT, r3 w, ha.live k]
  | copy k =>
    refine ⟨n, us ++ [(us[k]?).join], L, ?_⟩
    intro cfg a a' hg ha hl e
    simp only [step] at e
    rw [M.get_bind_apply] at e
    cases e1 : a.hs[k]? with
    | none => rw [e1] at e; cases e
    | some o =>
      rw [e1] at e
      obtain ⟨_, a1, e2, e3⟩ := bind_ok_inv e
      obtain ⟨e4, e5⟩ := onMgr_ok e2
      cases e3
      have x := acquire_same e4
      obtain ⟨w, w1, w2⟩ := ha.get e1
      constructor
      · exact x.2.2.trans ha.nv
      · show (a1.hs ++ [o]).length = _
        rw [e5]; simp [ha.len]
      · show ∀ (i : Nat) (o' : Option Nat) (w : Option Tree), (a1.hs ++ [o])[i]? = some o' → _
        rw [e5, w1]
        exact OptR.append ha.len (fun i o w a b => (ha.hs i o w a b).ext x.1) (OptR.single (w2.ext x.1))
      · intro k w
        exact (x.liveT w).trans (ha.live k w)
  | move k =>
    refine ⟨n, us.set k none ++ [(us[k]?).join], L, ?_⟩
    intro cfg a a' hg ha hl e
    simp only [step] at e
    rw [M.get_bind_apply] at e
    cases e1 : a.hs[k]? with
    | none => rw [e1] at e; cases e
    | some o =>
      rw [e1] at e
      cases e
      obtain ⟨w, w1, w2⟩ := ha.get e1
      constructor
      · exact ha.nv
      · simp [ha.len]
      · rw [w1]
        exact OptR.append (by simp [ha.len]) (OptR.set k (o0 := none) (w0 := none) trivial ha.hs) (OptR.single w2)
      · exact ha.live
  | assign k j =>
    refine ⟨n, us.set k ((us[j]?).join), L, ?_⟩
    intro cfg a a' hg ha hl e
    simp only [step] at e
    rw [M.get_bind_apply] at e
    cases e1 : a.hs[k]? with
    | none => rw [e1] at e; cases e
    | some oi =>
      cases e2 : a.hs[j]? with
      | none => rw [e1, e2] at e; cases e
      | some oj =>
        rw [e1, e2] at e
        obtain ⟨_, a1, f1, e⟩ := bind_ok_inv e
        obtain ⟨_, a2, f2, e⟩ := bind_ok_inv e
        obtain ⟨f3, f4⟩ := onMgr_ok f1
        obtain ⟨f5, f6⟩ := onMgr_ok f2
        cases e
        have x := (releaseNoAssert_same f3).trans (acquire_same f5)
        obtain ⟨w, w1, w2⟩ := ha.get e2
        constructor
        · exact x.2.2.trans ha.nv
        · show (a2.hs.set k oj).length = _
          rw [f6, f4]; simp [ha.len]
        · show ∀ (i : Nat) (o' : Option Nat) (w : Option Tree), (a2.hs.set k oj)[i]? = some o' → _
          rw [f6, f4, w1]
          exact OptR.set k (w2.ext x.1) (fun i o w a b => (ha.hs i o w a b).ext x.1)
        · intro k w
          exact (x.liveT w).trans (ha.live k w)
  | drop k =>
    refine ⟨n, us.set k none, L, ?_⟩
    intro cfg a a' hg ha hl e
    simp only [step] at e
    rw [M.get_bind_apply] at e
    cases e1 : a.hs[k]? with
    | none => rw [e1] at e; cases e
    | some o =>
      rw [e1] at e
      obtain ⟨_, a1, f1, e⟩ := bind_ok_inv e
      obtain ⟨f3, f4⟩ := onMgr_ok f1
      cases e
      have x := release_same f3
      constructor
      · exact x.2.2.trans ha.nv
      · show (a1.hs.set k none).length = _
        rw [f4]; simp [ha.len]
      · show ∀ (i : Nat) (o' : Option Nat) (w : Option Tree), (a1.hs.set k none)[i]? = some o' → _
        rw [f4]
        exact OptR.set k (o0 := none) (w0 := none) trivial (fun i o w a b => (ha.hs i o w a b).ext x.1)
      · intro k w
        exact (x.liveT w).trans (ha.live k w)
  | gc =>
    refine ⟨n, us, fun u => ∃ t, some t ∈ us ∧ t.Sub u, ?_⟩
    intro cfg a a' hg ha hl e
    obtain ⟨s', e', g, r, f, hk⟩ := gc_good hg hl
    rw [e'] at e
    cases e
    have hp := r.persist g f
    have hhs : ∀ (i : Nat) (o : Option Nat) (w : Option Tree), a.hs[i]? = some o → us[i]? = some w → OptR s'.cells o w := by
      intro i o w h1 h2
      have := ha.hs i o w h1 h2
      cases o <;> cases w
      · trivial
      · exact this
      · exact this
      · exact hp.repr this (Or.inr ⟨_, List.mem_of_getElem? h1, .refl _⟩)
    constructor
    · exact r.frees.nvars.trans ha.nv
    · exact ha.len
    · exact hhs
    · intro k u
      constructor
      · rintro ⟨p, p2, hpu⟩
        rcases (kept_iff { a with mgr := s' } p).1 (hk (Use.ordered_iff.2 (hK k rfl)) p (g.live_of hpu)) with h | ⟨q, hq, hr⟩
        · omega
        · obtain ⟨i, hi⟩ := List.mem_iff_getElem?.1 hq
          obtain ⟨w, w1, _⟩ := ha.get hi
          have := hhs i _ _ hi w1
          cases w with
          | none => exact this.elim
          | some t => exact ⟨t, List.mem_of_getElem? w1, (this.sub_iff u).2 ⟨p, p2, hr, hpu⟩⟩
      · rintro ⟨t, ht, hs⟩
        obtain ⟨i, hi⟩ := List.mem_iff_getElem?.1 ht
        have hi' : i < a.hs.length := by rw [ha.len]; exact (List.getElem?_eq_some_iff.1 hi).1
        have := hhs i _ _ (List.getElem?_eq_getElem hi') hi
        cases e : a.hs[i] with
        | none => rw [e] at this; exact this.elim
        | some q =>
          rw [e] at this
          obtain ⟨p, p2, _, hpu⟩ := (this.sub_iff u).1 hs
          exact ⟨p, p2, hpu⟩

end LBDD
